import Verif.Scheduler.PoolWaitProofs

/-!
# C117: what a hang looks like

Without any condition on the program.
-/

namespace Rpp.Sched.PoolWait

/-- Invariant of the proofs; models no code. -/
structure InvW (s : St) : Prop where
  lt : ∀ t ∈ s.tasks, t.id < s.next
  uniq : s.tasks.Pairwise (fun t u => t.id ≠ u.id)
  alive : ∀ j, j < s.next → s.fin j = true ∨ ∃ t ∈ s.tasks, t.id = j
  wlt : ∀ t ∈ s.tasks, ∀ j, t.wait = some j → j < s.next
  wait : ∀ t ∈ s.tasks, ∀ j, t.wait = some j → ∀ u ∈ s.tasks, u.id = j → ∀ n m, u.th = .own n → t.th = .own m → m < n
  own : ∀ t ∈ s.tasks, ∀ n, t.th = .own n → n < s.own
  one : s.tasks.Pairwise (fun t u => ∀ n, t.th = .own n → u.th ≠ .own n)

theorem invW_schedule (size : Nat → Nat) {s : St} (h : InvW s) (w : Where) (b : Prog) (lv : Nat) : InvW (s.schedule size w b lv) := by
  obtain ⟨h1, h2, h3, h4, h5, h6, h7⟩ := h
  cases w with
  | fresh =>
    constructor <;> simp only [St.schedule, List.mem_append, List.mem_singleton, List.pairwise_append, List.pairwise_singleton] <;> grind
  | pool p =>
    constructor <;> simp only [St.schedule, List.mem_append, List.mem_singleton, List.pairwise_append, List.pairwise_singleton] <;> grind

theorem invW_goOn {s : St} (h : InvW s) (id : Nat) (k : Prog) : InvW (s.goOn id k none) := by
  obtain ⟨h1, h2, h3, h4, h5, h6, h7⟩ := h
  rw [goOn_eq]
  constructor <;> simp only [List.mem_map, List.pairwise_map, forall_exists_index, and_imp, forall_apply_eq_imp_iff₂, upd_id, upd_th, upd_lv, upd_wait]
  · exact h1
  · exact h2
  · intro j hj
    rcases h3 j hj with h | ⟨t, ht, e⟩
    · exact .inl h
    · exact .inr ⟨_, ⟨t, ht, rfl⟩, by rw [upd_id]; exact e⟩
  · intro t ht j; split <;> grind
  · intro t ht j hj u hu; split at hj <;> grind
  · exact h6
  · exact h7

theorem sameW {l : List Task} (hp : l.Pairwise (fun t u => t.id ≠ u.id)) {t u : Task} (ht : t ∈ l) (hu : u ∈ l) (e : t.id = u.id) : t = u := by
  induction l with
  | nil => cases ht
  | cons a l ih =>
    have := List.pairwise_cons.1 hp
    rcases List.mem_cons.1 ht with e3 | e3 <;> rcases List.mem_cons.1 hu with e4 | e4
    · rw [e3, e4]
    · exact absurd (e3 ▸ e) (this.1 u e4)
    · exact absurd (e4 ▸ e.symm) (this.1 t e3)
    · exact ih this.2 e3 e4

theorem invW_join (size : Nat → Nat) {s : St} (h : InvW s) {t : Task} (ht : t ∈ s.tasks) (w : Where) (b k : Prog) (lv : Nat) :
    InvW ((s.goOn t.id k (some s.next)).schedule size w b lv) := by
  obtain ⟨h1, h2, h3, h4, h5, h6, h7⟩ := h
  have hu : ∀ u ∈ s.tasks, u.id = t.id → u = t := fun u hu e => sameW h2 hu ht e
  rw [goOn_eq]
  cases w with
  | fresh =>
    constructor <;> simp only [St.schedule, List.mem_append, List.mem_singleton, List.pairwise_append, List.pairwise_singleton, List.mem_map, List.pairwise_map, or_imp, forall_and, forall_exists_index, and_imp,
      forall_apply_eq_imp_iff₂, forall_eq, upd_id, upd_th, upd_lv, upd_wait]
    · exact ⟨fun u hu => by have := h1 u hu; omega, by omega⟩
    · exact ⟨h2, trivial, fun u hu => by have := h1 u hu; omega⟩
    · intro j hj
      by_cases e : j = s.next
      · exact .inr ⟨_, .inr rfl, e.symm⟩
      · rcases h3 j (by omega) with h | ⟨u, hu, e⟩
        · exact .inl h
        · exact .inr ⟨_, .inl ⟨u, hu, rfl⟩, by rw [upd_id]; exact e⟩
    · exact ⟨fun u hu j hj => by split at hj <;> grind, fun j hj => by cases hj⟩
    · refine ⟨⟨fun a ha x hx c hc e => ?_, fun x hx => by cases hx⟩, fun a ha x hx e => ?_, fun x hx => by cases hx⟩
      · split at hx
        · injection hx with hx; have := h1 c hc; omega
        · exact h5 a ha x hx c hc e
      · intro n m e1 e2
        injection e1 with e1
        have := h6 a ha m e2
        omega
    · exact ⟨fun u hu n e => by have := h6 u hu n e; omega, fun n e => by cases e; omega⟩
    · refine ⟨h7, trivial, fun u hu n e e' => ?_⟩
      cases e'; have := h6 u hu _ e; omega
  | pool p =>
    constructor <;> simp only [St.schedule, List.mem_append, List.mem_singleton, List.pairwise_append, List.pairwise_singleton, List.mem_map, List.pairwise_map, or_imp, forall_and, forall_exists_index, and_imp,
      forall_apply_eq_imp_iff₂, forall_eq, upd_id, upd_th, upd_lv, upd_wait]
    · exact ⟨fun u hu => by have := h1 u hu; omega, by omega⟩
    · exact ⟨h2, trivial, fun u hu => by have := h1 u hu; omega⟩
    · intro j hj
      by_cases e : j = s.next
      · exact .inr ⟨_, .inr rfl, e.symm⟩
      · rcases h3 j (by omega) with h | ⟨u, hu, e⟩
        · exact .inl h
        · exact .inr ⟨_, .inl ⟨u, hu, rfl⟩, by rw [upd_id]; exact e⟩
    · exact ⟨fun u hu j hj => by split at hj <;> grind, fun j hj => by cases hj⟩
    · refine ⟨⟨fun a ha x hx c hc e => ?_, fun x hx => by cases hx⟩, fun a ha x hx e => ?_, fun x hx => by cases hx⟩
      · split at hx
        · injection hx with hx; have := h1 c hc; omega
        · exact h5 a ha x hx c hc e
      · intro n m e1; cases e1
    · exact ⟨h6, fun n e => by cases e⟩
    · exact ⟨h7, trivial, fun u hu n e e' => by cases e'⟩

theorem invW_end {s : St} (h : InvW s) (id : Nat) (l : List Th) :
    InvW { s with tasks := s.tasks.filter (fun u => decide (u.id ≠ id)), fin := fun i => if i = id then true else s.fin i, log := l } := by
  obtain ⟨h1, h2, h3, h4, h5, h6, h7⟩ := h
  constructor <;> dsimp only
  · exact fun t ht => h1 t (List.mem_filter.1 ht).1
  · exact h2.filter _
  · intro j hj
    by_cases e : j = id
    · exact .inl (by rw [if_pos e])
    · rw [if_neg e]
      rcases h3 j hj with h | ⟨t, ht, e'⟩
      · exact .inl h
      · exact .inr ⟨t, List.mem_filter.2 ⟨ht, by simpa [e'] using e⟩, e'⟩
  · exact fun t ht => h4 t (List.mem_filter.1 ht).1
  · exact fun t ht j hj u hu => h5 t (List.mem_filter.1 ht).1 j hj u (List.mem_filter.1 hu).1
  · exact fun t ht => h6 t (List.mem_filter.1 ht).1
  · exact h7.filter _

theorem invW_log {s : St} (h : InvW s) (l : List Th) : InvW { s with log := l } := by
  obtain ⟨h1, h2, h3, h4, h5, h6, h7⟩ := h
  exact ⟨h1, h2, h3, h4, h5, h6, h7⟩

theorem stepW_inv (size : Nat → Nat) {s : St} (hi : InvW s) (th : Th) : InvW (step size s th) := by
  cases hh : s.head th with
  | none => rw [step_none size hh]; exact hi
  | some t =>
    have ht := (head_mem hh).1
    cases hw : t.wait with
    | some j =>
      by_cases hf : s.fin j = true
      · rw [step_resume size hh hw hf]; exact invW_log (invW_goOn hi _ _) _
      · rw [step_stay size hh hw hf]; exact hi
    | none =>
      cases hp : t.prog with
      | done => rw [step_done size hh hw hp]; exact invW_end hi _ _
      | spawn w b k => rw [step_spawn size hh hw hp]; exact invW_log (invW_schedule size (invW_goOn hi t.id k) w b _) _
      | join w b k => rw [step_join size hh hw hp]; exact invW_log (invW_join size hi ht w b k _) _

theorem startW_inv (bs : List Prog) : InvW (start bs) := by
  induction bs with
  | nil => constructor <;> simp [start]
  | cons b bs ih => exact invW_schedule _ ih _ _ _

theorem execW_inv (size : Nat → Nat) (bs : List Prog) (ls : List Th) : InvW (exec size bs ls) := by
  induction ls using snoc_ind with
  | h0 => exact startW_inv bs
  | h1 ls l ih => rw [exec_snoc]; exact stepW_inv size ih l

/-! ## Cycles -/

/-- A sequence in a finite list repeats itself. -/
theorem repeats {β : Type} (l : List β) : ∀ g : Nat → β, (∀ n, g n ∈ l) → ∃ i j, i < j ∧ g i = g j := by
  induction l with
  | nil => intro g h; cases h 0
  | cons a l ih =>
    intro g h
    by_cases ha : ∃ i, g i = a
    · obtain ⟨i, hi⟩ := ha
      by_cases hb : ∃ j, i < j ∧ g j = a
      · obtain ⟨j, hj, hj'⟩ := hb
        exact ⟨i, j, hj, hi.trans hj'.symm⟩
      · obtain ⟨x, y, hxy, e⟩ := ih (fun n => g (n + i + 1)) (fun n => by
          rcases List.mem_cons.1 (h (n + i + 1)) with e | e
          · exact (hb ⟨n + i + 1, by omega, e⟩).elim
          · exact e)
        exact ⟨x + i + 1, y + i + 1, by omega, e⟩
    · exact ih g (fun n => by
        rcases List.mem_cons.1 (h n) with e | e
        · exact (ha ⟨n, e⟩).elim
        · exact e)

/-- `t` is running and waits for a task that is queued on the thread where `v` is running.  Specification; models no code. -/
def Blocked (s : St) (t v : Task) : Prop :=
  s.head t.th = some t ∧ s.head v.th = some v ∧ ∃ j u, t.wait = some j ∧ u ∈ s.tasks ∧ u.id = j ∧ u.th = v.th

theorem stuck_next {s : St} (hi : InvW s) (hs : ∀ th, ¬ Enabled s th) {t : Task} (hh : s.head t.th = some t) : ∃ v, Blocked s t v := by
  have ht := (head_mem hh).1
  cases hw : t.wait with
  | none => exact (hs _ ⟨t, hh, .inl hw⟩).elim
  | some j =>
    rcases hi.alive j (hi.wlt t ht j hw) with h | ⟨u, hu, e⟩
    · exact (hs _ ⟨t, hh, .inr ⟨j, hw, h⟩⟩).elim
    · obtain ⟨v, hv⟩ := head_some hu
      have hvm := head_mem hv
      exact ⟨v, hh, hvm.2 ▸ hv, j, u, hw, hu, e, hvm.2.symm⟩

theorem cycle {s : St} (hi : InvW s) (hs : ∀ th, ¬ Enabled s th) (hne : s.tasks ≠ []) :
    ∃ (c : Nat → Task) (m : Nat), 0 < m ∧ c m = c 0 ∧ ∀ i, i < m → Blocked s (c i) (c (i + 1)) := by
  have hx : ∀ x : { t : Task // s.head t.th = some t }, ∃ y : { t : Task // s.head t.th = some t }, Blocked s x.1 y.1 := by
    intro x
    obtain ⟨v, hv⟩ := stuck_next hi hs x.2
    exact ⟨⟨v, hv.2.1⟩, hv⟩
  obtain ⟨t, ht⟩ := List.exists_mem_of_ne_nil _ hne
  obtain ⟨v, hv⟩ := head_some ht
  have hvm := head_mem hv
  let f : { t : Task // s.head t.th = some t } → { t : Task // s.head t.th = some t } := fun x => (hx x).choose
  let g : Nat → { t : Task // s.head t.th = some t } := fun n => Nat.rec ⟨v, hvm.2 ▸ hv⟩ (fun _ x => f x) n
  have hg : ∀ n, Blocked s (g n).1 (g (n + 1)).1 := fun n => (hx (g n)).choose_spec
  obtain ⟨i, j, hij, e⟩ := repeats s.tasks (fun n => (g n).1) (fun n => (head_mem (g n).2).1)
  refine ⟨fun n => (g (n + i)).1, j - i, by omega, ?_, fun n _ => ?_⟩
  · show (g (j - i + i)).1 = (g (0 + i)).1
    rw [Nat.sub_add_cancel (Nat.le_of_lt hij), Nat.zero_add]; exact e.symm
  · show Blocked s (g (n + i)).1 (g (n + 1 + i)).1
    rw [show n + 1 + i = n + i + 1 by omega]; exact hg (n + i)

theorem one_ownW {s : St} (hi : InvW s) {t u : Task} (ht : t ∈ s.tasks) (hu : u ∈ s.tasks) (n : Nat) (e1 : t.th = .own n) (e2 : u.th = .own n) : t = u := by
  have : ∀ l : List Task, l.Pairwise (fun t u => ∀ n, t.th = .own n → u.th ≠ .own n) → t ∈ l → u ∈ l → t = u := by
    intro l hp
    induction l with
    | nil => intro h; cases h
    | cons a l ih =>
      have := List.pairwise_cons.1 hp
      intro h1 h2
      rcases List.mem_cons.1 h1 with e3 | e3 <;> rcases List.mem_cons.1 h2 with e4 | e4
      · rw [e3, e4]
      · exact absurd e2 (this.1 u e4 n (e3 ▸ e1))
      · exact absurd e1 (this.1 t e3 n (e4 ▸ e2))
      · exact ih this.2 e3 e4
  exact this _ hi.one ht hu

/-- Along waits between threads outside of pools the threads get younger. -/
theorem younger {s : St} (hi : InvW s) {t v : Task} (h : Blocked s t v) (n m : Nat) (ht : t.th = .own m) (hv : v.th = .own n) : m < n := by
  obtain ⟨h1, h2, j, u, hw, hu, hid, hth⟩ := h
  have : u = v := one_ownW hi hu (head_mem h2).1 n (hth.trans hv) hv
  subst this
  exact hi.wait t (head_mem h1).1 j hw u hu hid n m hv ht

theorem cycle_pool {s : St} (hi : InvW s) {c : Nat → Task} {m : Nat} (hm : 0 < m) (hc : c m = c 0) (hb : ∀ i, i < m → Blocked s (c i) (c (i + 1))) :
    ∃ i, i < m ∧ ∃ p k, (c i).th = .pool p k := by
  by_cases h : ∃ i, i < m ∧ ∃ p k, (c i).th = .pool p k
  · exact h
  · exfalso
    have ho : ∀ i, i ≤ m → ∃ n, (c i).th = .own n := by
      intro i hi'
      have hx : ∀ i, i < m → ∃ n, (c i).th = .own n := by
        intro i hi'
        cases e : (c i).th with
        | pool p k => exact (h ⟨i, hi', p, k, e⟩).elim
        | own n => exact ⟨n, rfl⟩
      rcases Nat.lt_or_ge i m with hlt | hge
      · exact hx i hlt
      · rw [show i = m by omega, hc]; exact hx 0 hm
    obtain ⟨n0, e0⟩ := ho 0 (by omega)
    have grow : ∀ i, 0 < i → i ≤ m → ∀ n, (c i).th = .own n → n0 < n := by
      intro i
      induction i with
      | zero => intro h; omega
      | succ i ih =>
        intro _ hle n hn
        rcases Nat.eq_zero_or_pos i with e | e
        · subst e; exact younger hi (hb 0 (by omega)) n n0 e0 hn
        · obtain ⟨k, hk⟩ := ho i (by omega)
          have h1 := ih e (by omega) k hk
          have h2 := younger hi (hb i (by omega)) n k hk hn
          omega
    have := grow m hm (Nat.le_refl _) n0 (hc ▸ e0)
    omega

/-! ## A cycle stays -/

theorem head_goOn (s : St) (id : Nat) (k : Prog) (j : Option Nat) (th : Th) : (s.goOn id k j).head th = (s.head th).map (upd id k j) := by
  rw [goOn_eq]
  simp only [St.head, List.find?_map]
  congr 1
  apply congrArg (fun f => List.find? f s.tasks)
  funext t
  simp [upd_th]

theorem head_schedule (size : Nat → Nat) {s : St} {th : Th} {t : Task} (h : s.head th = some t) (w : Where) (b : Prog) (lv : Nat) : (s.schedule size w b lv).head th = some t := by
  unfold St.head at h ⊢
  cases w <;> simp [St.schedule, List.find?_append, h]

theorem find_filter {p q : Task → Bool} {l : List Task} {t : Task} (h : l.find? p = some t) (hq : q t = true) : (l.filter q).find? p = some t := by
  induction l with
  | nil => cases h
  | cons a l ih =>
    by_cases hp : p a = true
    · rw [List.find?_cons_of_pos hp] at h
      cases h
      rw [List.filter_cons_of_pos hq, List.find?_cons_of_pos hp]
    · rw [List.find?_cons_of_neg hp] at h
      by_cases hqa : q a = true
      · rw [List.filter_cons_of_pos hqa, List.find?_cons_of_neg hp]; exact ih h
      · rw [List.filter_cons_of_neg hqa]; exact ih h

/-- Tasks that are there have not ended. -/
theorem unfin_step (size : Nat → Nat) {s : St} (hi : InvW s) (h : ∀ t ∈ s.tasks, s.fin t.id = false) (hlt : ∀ j, s.fin j = true → j < s.next) (th : Th) :
    (∀ t ∈ (step size s th).tasks, (step size s th).fin t.id = false) ∧ ∀ j, (step size s th).fin j = true → j < (step size s th).next := by
  have hgo : ∀ id k j, ∀ t ∈ (s.goOn id k j).tasks, s.fin t.id = false := by
    intro id k j t ht
    rw [goOn_eq] at ht
    obtain ⟨v, hv, rfl⟩ := List.mem_map.1 ht
    rw [upd_id]; exact h v hv
  have hnew : s.fin s.next = false := by
    cases e : s.fin s.next with
    | false => rfl
    | true => have := hlt _ e; omega
  have hsch : ∀ (s' : St) w b lv, s'.next = s.next → s'.fin = s.fin → (∀ t ∈ s'.tasks, s.fin t.id = false) →
      (∀ t ∈ (s'.schedule size w b lv).tasks, s.fin t.id = false) ∧ (s'.schedule size w b lv).fin = s.fin ∧ (s'.schedule size w b lv).next = s.next + 1 := by
    intro s' w b lv e1 e2 e3
    cases w <;> refine ⟨fun t ht => ?_, e2, by simp [St.schedule, e1]⟩ <;> simp only [St.schedule, List.mem_append, List.mem_singleton] at ht <;> rcases ht with ht | rfl
    · exact e3 t ht
    · dsimp only; rw [e1]; exact hnew
    · exact e3 t ht
    · dsimp only; rw [e1]; exact hnew
  cases hh : s.head th with
  | none => rw [step_none size hh]; exact ⟨h, hlt⟩
  | some t =>
    have ht := (head_mem hh).1
    cases hw : t.wait with
    | some j =>
      by_cases hf : s.fin j = true
      · rw [step_resume size hh hw hf]; exact ⟨hgo _ _ _, hlt⟩
      · rw [step_stay size hh hw hf]; exact ⟨h, hlt⟩
    | none =>
      cases hp : t.prog with
      | done =>
        rw [step_done size hh hw hp]
        refine ⟨fun u hu => ?_, fun j hj => ?_⟩
        · have hm := List.mem_filter.1 hu
          dsimp only
          rw [if_neg (by simpa using hm.2)]; exact h u hm.1
        · dsimp only at hj
          split at hj
          · rename_i e; rw [e]; exact hi.lt t ht
          · exact hlt j hj
      | spawn w b k =>
        rw [step_spawn size hh hw hp]
        have := hsch (s.goOn t.id k none) w b (level 0 w) rfl rfl (hgo _ _ _)
        refine ⟨fun u hu => ?_, fun j hj => ?_⟩
        · dsimp only; rw [this.2.1]; exact this.1 u hu
        · dsimp only at hj ⊢; rw [this.2.1] at hj; rw [this.2.2]; have := hlt j hj; omega
      | join w b k =>
        rw [step_join size hh hw hp]
        have := hsch (s.goOn t.id k (some s.next)) w b (level t.lv w) rfl rfl (hgo _ _ _)
        refine ⟨fun u hu => ?_, fun j hj => ?_⟩
        · dsimp only; rw [this.2.1]; exact this.1 u hu
        · dsimp only at hj ⊢; rw [this.2.1] at hj; rw [this.2.2]; have := hlt j hj; omega

theorem start_fin (bs : List Prog) : (start bs).fin = fun _ => false := by
  induction bs with
  | nil => rfl
  | cons b bs ih => exact ih

theorem exec_unfin' (size : Nat → Nat) (bs : List Prog) (ls : List Th) :
    (∀ t ∈ (exec size bs ls).tasks, (exec size bs ls).fin t.id = false) ∧ ∀ j, (exec size bs ls).fin j = true → j < (exec size bs ls).next := by
  induction ls using snoc_ind with
  | h0 =>
    show (∀ t ∈ (start bs).tasks, (start bs).fin t.id = false) ∧ ∀ j, (start bs).fin j = true → j < (start bs).next
    rw [start_fin]; exact ⟨fun _ _ => rfl, fun j hj => by cases hj⟩
  | h1 ls l ih => rw [exec_snoc]; exact unfin_step size (execW_inv size bs ls) ih.1 ih.2 l

theorem exec_unfin (size : Nat → Nat) (bs : List Prog) (ls : List Th) : ∀ t ∈ (exec size bs ls).tasks, (exec size bs ls).fin t.id = false := (exec_unfin' size bs ls).1

/-- A step of a running task leaves the others alone. -/
theorem step_other (size : Nat → Nat) {s : St} {th : Th} {x : Task} (hx : s.head th = some x) :
    (∀ c : Task, s.head c.th = some c → c.id ≠ x.id → (step size s th).head c.th = some c) ∧ (∀ u ∈ s.tasks, u.id ≠ x.id → u ∈ (step size s th).tasks) := by
  have hup : ∀ (k : Prog) (j : Option Nat) (c : Task), c.id ≠ x.id → upd x.id k j c = c := fun k j c hc => by unfold upd; rw [if_neg hc]
  have g1 : ∀ (k : Prog) (j : Option Nat) (c : Task), s.head c.th = some c → c.id ≠ x.id → (s.goOn x.id k j).head c.th = some c := by
    intro k j c hc hne
    rw [head_goOn, hc, Option.map_some, hup _ _ _ hne]
  have g2 : ∀ (k : Prog) (j : Option Nat) (u : Task), u ∈ s.tasks → u.id ≠ x.id → u ∈ (s.goOn x.id k j).tasks := by
    intro k j u hu hne
    rw [goOn_eq]
    exact List.mem_map.2 ⟨u, hu, hup _ _ _ hne⟩
  have g3 : ∀ (s' : St) w b lv (u : Task), u ∈ s'.tasks → u ∈ (s'.schedule size w b lv).tasks := by
    intro s' w b lv u hu
    cases w <;> exact List.mem_append_left _ hu
  cases hw : x.wait with
  | some j =>
    by_cases hf : s.fin j = true
    · rw [step_resume size hx hw hf]; exact ⟨g1 _ _, g2 _ _⟩
    · rw [step_stay size hx hw hf]; exact ⟨fun c hc _ => hc, fun u hu _ => hu⟩
  | none =>
    cases hp : x.prog with
    | done =>
      rw [step_done size hx hw hp]
      exact ⟨fun c hc hne => find_filter hc (decide_eq_true hne), fun u hu hne => List.mem_filter.2 ⟨hu, decide_eq_true hne⟩⟩
    | spawn w b k =>
      rw [step_spawn size hx hw hp]
      exact ⟨fun c hc hne => head_schedule size (g1 _ _ c hc hne) w b (level 0 w), fun u hu hne => g3 _ w b (level 0 w) u (g2 _ _ u hu hne)⟩
    | join w b k =>
      rw [step_join size hx hw hp]
      exact ⟨fun c hc hne => head_schedule size (g1 _ _ c hc hne) w b (level x.lv w), fun u hu hne => g3 _ w b (level x.lv w) u (g2 _ _ u hu hne)⟩

theorem blocked_step (size : Nat → Nat) {s : St} (hi : InvW s) (hf : ∀ t ∈ s.tasks, s.fin t.id = false) {c : Nat → Task} {m : Nat} (hc : c m = c 0)
    (hb : ∀ i, i < m → Blocked s (c i) (c (i + 1))) (th : Th) : ∀ i, i < m → Blocked (step size s th) (c i) (c (i + 1)) := by
  cases hh : s.head th with
  | none => rw [step_none size hh]; exact hb
  | some x =>
    by_cases hx : ∃ i, i < m ∧ c i = x
    · obtain ⟨i, him, e⟩ := hx
      obtain ⟨_, _, j, u, hw, hu, hid, _⟩ := hb i him
      have hn : ¬ s.fin j = true := by rw [← hid, hf u hu]; exact Bool.false_ne_true
      rw [step_stay size hh (e ▸ hw) hn]; exact hb
    · have hne : ∀ i, i ≤ m → 0 < m → c i ≠ x := by
        intro i hle hm e
        rcases Nat.lt_or_ge i m with h | h
        · exact hx ⟨i, h, e⟩
        · rw [show i = m by omega, hc] at e; exact hx ⟨0, hm, e⟩
      have hxm := head_mem hh
      have ho := step_other size hh
      intro i him
      obtain ⟨b1, b2, j, u, hw, hu, hid, hth⟩ := hb i him
      have n1 : (c i).id ≠ x.id := fun e => hne i (by omega) (by omega) (sameW hi.uniq (head_mem b1).1 hxm.1 e)
      have n2 : (c (i + 1)).id ≠ x.id := fun e => hne (i + 1) (by omega) (by omega) (sameW hi.uniq (head_mem b2).1 hxm.1 e)
      have n3 : u.id ≠ x.id := by
        intro e
        have eu : u = x := sameW hi.uniq hu hxm.1 e
        have e2 : th = (c (i + 1)).th := by rw [← hxm.2, ← eu]; exact hth
        rw [e2, b2] at hh
        exact hne (i + 1) (by omega) (by omega) (Option.some.inj hh)
      exact ⟨ho.1 _ b1 n1, ho.1 _ b2 n2, j, u, hw, ho.2 u hu n3, hid, hth⟩

end Rpp.Sched.PoolWait
