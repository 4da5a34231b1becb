import Verif.Scheduler.PoolWait

/-!
# C117: proofs
-/

namespace Rpp.Sched.PoolWait

/-- A task that is waited for comes later than the waiting one: it has a higher level, or the same and a thread of its own that is younger.  Models no code. -/
def Before (lv : Nat) (th : Th) (u : Task) : Prop := lv < u.lv ∨ (lv = u.lv ∧ ∃ n, u.th = .own n ∧ ∀ m, th = .own m → m < n)

/-- Invariant of the proofs; models no code. -/
structure Inv (s : St) : Prop where
  lt : ∀ t ∈ s.tasks, t.id < s.next
  uniq : s.tasks.Pairwise (fun t u => t.id ≠ u.id)
  alive : ∀ j, j < s.next → s.fin j = true ∨ ∃ t ∈ s.tasks, t.id = j
  wlt : ∀ t ∈ s.tasks, ∀ j, t.wait = some j → j < s.next
  wait : ∀ t ∈ s.tasks, ∀ j, t.wait = some j → ∀ u ∈ s.tasks, u.id = j → Before t.lv t.th u
  own : ∀ t ∈ s.tasks, ∀ n, t.th = .own n → n < s.own
  one : s.tasks.Pairwise (fun t u => ∀ n, t.th = .own n → u.th ≠ .own n)
  pool : ∀ t ∈ s.tasks, ∀ p i, t.th = .pool p i → t.lv = p + 1

/-- All tasks wait in order; models no code. -/
def OK (s : St) : Prop := ∀ t ∈ s.tasks, Layered t.lv t.prog

theorem head_mem {s : St} {th : Th} {t : Task} (h : s.head th = some t) : t ∈ s.tasks ∧ t.th = th :=
  ⟨List.mem_of_find?_eq_some h, by simpa using List.find?_some h⟩

theorem head_some {s : St} {t : Task} (h : t ∈ s.tasks) : ∃ u, s.head t.th = some u := by
  cases hh : s.head t.th with
  | some u => exact ⟨u, rfl⟩
  | none =>
    have := List.find?_eq_none.1 hh t h
    simp at this

/-- Scheduling keeps the invariant. -/
theorem inv_schedule (size : Nat → Nat) {s : St} (h : Inv s) (hw : ∀ t ∈ s.tasks, ∀ j, t.wait = some j → j < s.next)
    (w : Where) (b : Prog) (lv : Nat) (hlv : ∀ p, w = .pool p → lv = p + 1) : Inv (s.schedule size w b lv) := by
  obtain ⟨h1, h2, h3, h4, h5, h6, h7, h8⟩ := h
  cases w with
  | fresh =>
    constructor <;> simp only [St.schedule, List.mem_append, List.mem_singleton, List.pairwise_append, List.pairwise_singleton] <;> grind
  | pool p =>
    constructor <;> simp only [St.schedule, List.mem_append, List.mem_singleton, List.pairwise_append, List.pairwise_singleton] <;> grind

/-- What a task becomes when task `id` goes on; models no code. -/
def upd (id : Nat) (k : Prog) (j : Option Nat) (t : Task) : Task := if t.id = id then { t with prog := k, wait := j } else t

theorem goOn_eq (s : St) (id : Nat) (k : Prog) (j : Option Nat) : s.goOn id k j = { s with tasks := s.tasks.map (upd id k j) } := rfl

theorem upd_id (id : Nat) (k : Prog) (j : Option Nat) (t : Task) : (upd id k j t).id = t.id := by unfold upd; split <;> rfl
theorem upd_th (id : Nat) (k : Prog) (j : Option Nat) (t : Task) : (upd id k j t).th = t.th := by unfold upd; split <;> rfl
theorem upd_lv (id : Nat) (k : Prog) (j : Option Nat) (t : Task) : (upd id k j t).lv = t.lv := by unfold upd; split <;> rfl
theorem upd_wait (id : Nat) (k : Prog) (j : Option Nat) (t : Task) : (upd id k j t).wait = if t.id = id then j else t.wait := by unfold upd; split <;> rfl
theorem upd_prog (id : Nat) (k : Prog) (j : Option Nat) (t : Task) : (upd id k j t).prog = if t.id = id then k else t.prog := by unfold upd; split <;> rfl

theorem before_upd (lv : Nat) (th : Th) (id : Nat) (k : Prog) (j : Option Nat) (u : Task) : Before lv th (upd id k j u) ↔ Before lv th u := by
  simp only [Before, upd_lv, upd_th]

theorem inv_goOn {s : St} (h : Inv s) (id : Nat) (k : Prog) : Inv (s.goOn id k none) := by
  obtain ⟨h1, h2, h3, h4, h5, h6, h7, h8⟩ := h
  rw [goOn_eq]
  constructor <;> simp only [List.mem_map, List.pairwise_map, forall_exists_index, and_imp, forall_apply_eq_imp_iff₂, upd_id, upd_th, upd_lv, upd_wait, before_upd]
  · exact h1
  · exact h2
  · intro j hj
    rcases h3 j hj with h | ⟨t, ht, e⟩
    · exact .inl h
    · exact .inr ⟨_, ⟨t, ht, rfl⟩, by rw [upd_id]; exact e⟩
  · intro t ht j; split <;> grind
  · intro t ht j hj u hu; split at hj <;> grind
  · exact h6
  · exact h7
  · exact h8

theorem same {s : St} (hi : Inv s) {t u : Task} (ht : t ∈ s.tasks) (hu : u ∈ s.tasks) (e : t.id = u.id) : t = u := by
  have : ∀ l : List Task, l.Pairwise (fun t u => t.id ≠ u.id) → t ∈ l → u ∈ l → t = u := by
    intro l hp
    induction l with
    | nil => intro h; cases h
    | cons a l ih =>
      have := List.pairwise_cons.1 hp
      intro h1 h2
      rcases List.mem_cons.1 h1 with e3 | e3 <;> rcases List.mem_cons.1 h2 with e4 | e4
      · rw [e3, e4]
      · exact absurd (e3 ▸ e) (this.1 u e4)
      · exact absurd (e4 ▸ e.symm) (this.1 t e3)
      · exact ih this.2 e3 e4
  exact this _ hi.uniq ht hu

/-- A wait begins: the task waited for is new. -/
theorem inv_join (size : Nat → Nat) {s : St} (h : Inv s) {t : Task} (ht : t ∈ s.tasks) (w : Where) (b k : Prog) (hl : ∀ p, w = .pool p → t.lv < p + 1) :
    Inv ((s.goOn t.id k (some s.next)).schedule size w b (level t.lv w)) := by
  have hu : ∀ u ∈ s.tasks, u.id = t.id → u = t := fun u hu e => same h hu ht e
  obtain ⟨h1, h2, h3, h4, h5, h6, h7, h8⟩ := h
  rw [goOn_eq]
  cases w with
  | fresh =>
    constructor <;> simp only [St.schedule, level, List.mem_append, List.mem_singleton, List.pairwise_append, List.pairwise_singleton, List.mem_map, List.pairwise_map, or_imp, forall_and, forall_exists_index, and_imp,
      forall_apply_eq_imp_iff₂, forall_eq, upd_id, upd_th, upd_lv, upd_wait, before_upd]
    · exact ⟨fun u hu => by have := h1 u hu; omega, by omega⟩
    · exact ⟨h2, trivial, fun u hu => by have := h1 u hu; omega⟩
    · intro j hj
      by_cases e : j = s.next
      · exact .inr ⟨_, .inr rfl, e.symm⟩
      · rcases h3 j (by omega) with h | ⟨u, hu, e⟩
        · exact .inl h
        · exact .inr ⟨_, .inl ⟨u, hu, rfl⟩, by rw [upd_id]; exact e⟩
    · exact ⟨fun u hu j hj => by split at hj <;> grind, fun j hj => by cases hj⟩
    · refine ⟨⟨fun a ha x hx c hc e => ?_, fun x hx => by cases hx⟩, fun a ha x hx e => ?_, fun x hx => by cases hx⟩
      · split at hx
        · injection hx with hx; have := h1 c hc; omega
        · exact h5 a ha x hx c hc e
      · split at hx
        · rename_i ea
          rw [hu a ha ea]
          exact .inr ⟨rfl, _, rfl, fun m hm => h6 t ht m hm⟩
        · have := h4 a ha x hx; omega
    · exact ⟨fun u hu n e => by have := h6 u hu n e; omega, fun n e => by cases e; omega⟩
    · refine ⟨h7, trivial, fun u hu n e e' => ?_⟩
      cases e'; have := h6 u hu _ e; omega
    · exact ⟨h8, fun p i e => by cases e⟩
  | pool p =>
    have hp := hl p rfl
    constructor <;> simp only [St.schedule, level, List.mem_append, List.mem_singleton, List.pairwise_append, List.pairwise_singleton, List.mem_map, List.pairwise_map, or_imp, forall_and, forall_exists_index, and_imp,
      forall_apply_eq_imp_iff₂, forall_eq, upd_id, upd_th, upd_lv, upd_wait, before_upd]
    · exact ⟨fun u hu => by have := h1 u hu; omega, by omega⟩
    · exact ⟨h2, trivial, fun u hu => by have := h1 u hu; omega⟩
    · intro j hj
      by_cases e : j = s.next
      · exact .inr ⟨_, .inr rfl, e.symm⟩
      · rcases h3 j (by omega) with h | ⟨u, hu, e⟩
        · exact .inl h
        · exact .inr ⟨_, .inl ⟨u, hu, rfl⟩, by rw [upd_id]; exact e⟩
    · exact ⟨fun u hu j hj => by split at hj <;> grind, fun j hj => by cases hj⟩
    · refine ⟨⟨fun a ha x hx c hc e => ?_, fun x hx => by cases hx⟩, fun a ha x hx e => ?_, fun x hx => by cases hx⟩
      · split at hx
        · injection hx with hx; have := h1 c hc; omega
        · exact h5 a ha x hx c hc e
      · split at hx
        · rename_i ea
          rw [hu a ha ea]
          exact .inl hp
        · have := h4 a ha x hx; omega
    · exact ⟨h6, fun n e => by cases e⟩
    · exact ⟨h7, trivial, fun u hu n e e' => by cases e'⟩
    · exact ⟨h8, fun q i e => by cases e; rfl⟩

/-- A task ends. -/
theorem inv_end {s : St} (h : Inv s) (id : Nat) (l : List Th) :
    Inv { s with tasks := s.tasks.filter (fun u => decide (u.id ≠ id)), fin := fun i => if i = id then true else s.fin i, log := l } := by
  obtain ⟨h1, h2, h3, h4, h5, h6, h7, h8⟩ := h
  constructor <;> dsimp only
  · exact fun t ht => h1 t (List.mem_filter.1 ht).1
  · exact h2.filter _
  · intro j hj
    by_cases e : j = id
    · exact .inl (by rw [if_pos e])
    · rw [if_neg e]
      rcases h3 j hj with h | ⟨t, ht, e'⟩
      · exact .inl h
      · exact .inr ⟨t, List.mem_filter.2 ⟨ht, by simpa [e'] using e⟩, e'⟩
  · exact fun t ht => h4 t (List.mem_filter.1 ht).1
  · exact fun t ht j hj u hu => h5 t (List.mem_filter.1 ht).1 j hj u (List.mem_filter.1 hu).1
  · exact fun t ht => h6 t (List.mem_filter.1 ht).1
  · exact h7.filter _
  · exact fun t ht => h8 t (List.mem_filter.1 ht).1

theorem inv_log {s : St} (h : Inv s) (l : List Th) : Inv { s with log := l } := by
  obtain ⟨h1, h2, h3, h4, h5, h6, h7, h8⟩ := h
  exact ⟨h1, h2, h3, h4, h5, h6, h7, h8⟩

theorem ok_schedule (size : Nat → Nat) {s : St} (h : OK s) (w : Where) (b : Prog) (lv : Nat) (hb : Layered lv b) : OK (s.schedule size w b lv) := by
  intro t ht
  cases w <;> simp only [St.schedule, List.mem_append, List.mem_singleton] at ht <;> rcases ht with ht | ht
  · exact h t ht
  · rw [ht]; exact hb
  · exact h t ht
  · rw [ht]; exact hb

theorem ok_goOn {s : St} (h : OK s) (hi : Inv s) {t : Task} (ht : t ∈ s.tasks) (k : Prog) (j : Option Nat) (hk : Layered t.lv k) : OK (s.goOn t.id k j) := by
  intro u hu
  rw [goOn_eq] at hu
  obtain ⟨v, hv, rfl⟩ := List.mem_map.1 hu
  rw [upd_lv, upd_prog]
  split
  · rename_i e; rw [same hi hv ht e]; exact hk
  · exact h v hv

/-- The kinds of steps. -/
theorem step_none (size : Nat → Nat) {s : St} {th : Th} (h : s.head th = none) : step size s th = s := by simp only [step, h]

theorem step_stay (size : Nat → Nat) {s : St} {th : Th} {t : Task} {j : Nat} (h : s.head th = some t) (hw : t.wait = some j) (hf : ¬ s.fin j = true) : step size s th = s := by
  simp only [step, h, hw, if_neg hf]

theorem step_resume (size : Nat → Nat) {s : St} {th : Th} {t : Task} {j : Nat} (h : s.head th = some t) (hw : t.wait = some j) (hf : s.fin j = true) :
    step size s th = { s.goOn t.id t.prog none with log := s.log ++ [th] } := by
  simp only [step, h, hw, if_pos hf]

theorem step_done (size : Nat → Nat) {s : St} {th : Th} {t : Task} (h : s.head th = some t) (hw : t.wait = none) (hp : t.prog = .done) :
    step size s th = { s with tasks := s.tasks.filter (fun u => decide (u.id ≠ t.id)), fin := fun i => if i = t.id then true else s.fin i, log := s.log ++ [th] } := by
  simp only [step, h, hw, hp]

theorem step_spawn (size : Nat → Nat) {s : St} {th : Th} {t : Task} {w : Where} {b k : Prog} (h : s.head th = some t) (hw : t.wait = none) (hp : t.prog = .spawn w b k) :
    step size s th = { (s.goOn t.id k none).schedule size w b (level 0 w) with log := s.log ++ [th] } := by
  simp only [step, h, hw, hp]

theorem step_join (size : Nat → Nat) {s : St} {th : Th} {t : Task} {w : Where} {b k : Prog} (h : s.head th = some t) (hw : t.wait = none) (hp : t.prog = .join w b k) :
    step size s th = { (s.goOn t.id k (some s.next)).schedule size w b (level t.lv w) with log := s.log ++ [th] } := by
  simp only [step, h, hw, hp]

theorem step_inv (size : Nat → Nat) {s : St} (hi : Inv s) (hk : OK s) (th : Th) : Inv (step size s th) ∧ OK (step size s th) := by
  cases hh : s.head th with
  | none => rw [step_none size hh]; exact ⟨hi, hk⟩
  | some t =>
    have ht := (head_mem hh).1
    have hl := hk t ht
    cases hw : t.wait with
    | some j =>
      by_cases hf : s.fin j = true
      · rw [step_resume size hh hw hf]
        exact ⟨inv_log (inv_goOn hi _ _) _, ok_goOn hk hi ht _ _ hl⟩
      · rw [step_stay size hh hw hf]; exact ⟨hi, hk⟩
    | none =>
      cases hp : t.prog with
      | done =>
        rw [step_done size hh hw hp]
        exact ⟨inv_end hi _ _, fun u hu => hk u (List.mem_filter.1 hu).1⟩
      | spawn w b k =>
        rw [hp] at hl
        rw [step_spawn size hh hw hp]
        have hl' : Layered (level 0 w) b ∧ Layered t.lv k := by cases w <;> exact hl
        have h1 := inv_goOn hi t.id k
        exact ⟨inv_log (inv_schedule size h1 h1.wlt w b (level 0 w) (fun p e => by rw [e]; rfl)) _, ok_schedule size (ok_goOn hk hi ht k none hl'.2) w b _ hl'.1⟩
      | join w b k =>
        rw [hp] at hl
        rw [step_join size hh hw hp]
        have hl' : Layered (level t.lv w) b ∧ Layered t.lv k ∧ ∀ p, w = .pool p → t.lv < p + 1 := by
          cases w with
          | fresh => exact ⟨hl.1, hl.2, fun p e => by cases e⟩
          | pool p => exact ⟨hl.2.1, hl.2.2, fun q e => by cases e; exact hl.1⟩
        exact ⟨inv_log (inv_join size hi ht w b k hl'.2.2) _, ok_schedule size (ok_goOn hk hi ht k _ hl'.2.1) w b _ hl'.1⟩

theorem start_inv (bs : List Prog) (h : ∀ b ∈ bs, Layered 0 b) : Inv (start bs) ∧ OK (start bs) := by
  induction bs with
  | nil =>
    refine ⟨?_, fun t ht => by cases ht⟩
    constructor <;> simp [start]
  | cons b bs ih =>
    have := ih (fun b hb => h b (List.mem_cons_of_mem _ hb))
    exact ⟨inv_schedule _ this.1 this.1.wlt _ _ _ (fun p e => by cases e), ok_schedule _ this.2 _ _ _ (h b List.mem_cons_self)⟩

theorem exec_inv (size : Nat → Nat) (bs : List Prog) (h : ∀ b ∈ bs, Layered 0 b) (ls : List Th) : Inv (exec size bs ls) ∧ OK (exec size bs ls) := by
  have : ∀ (ls : List Th) (s : St), Inv s → OK s → Inv (ls.foldl (step size) s) ∧ OK (ls.foldl (step size) s) := by
    intro ls
    induction ls with
    | nil => exact fun s h1 h2 => ⟨h1, h2⟩
    | cons l ls ih => exact fun s h1 h2 => ih _ (step_inv size h1 h2 l).1 (step_inv size h1 h2 l).2
  exact this ls _ (start_inv bs h).1 (start_inv bs h).2

/-! ## No deadlock -/

/-- The place of a task in the order of waits; models no code. -/
def rank (own : Nat) (t : Task) : Nat := t.lv * (own + 1) + match t.th with | .pool _ _ => 0 | .own n => n + 1

theorem bounded (f : Task → Nat) (l : List Task) : ∃ b, ∀ t ∈ l, f t < b := by
  induction l with
  | nil => exact ⟨0, fun t h => by cases h⟩
  | cons a l ih =>
    obtain ⟨b, hb⟩ := ih
    refine ⟨b + f a + 1, fun t ht => ?_⟩
    rcases List.mem_cons.1 ht with e | e
    · rw [e]; omega
    · have := hb t e; omega

theorem one_own {s : St} (hi : Inv s) {t u : Task} (ht : t ∈ s.tasks) (hu : u ∈ s.tasks) (n : Nat) (e1 : t.th = .own n) (e2 : u.th = .own n) : t = u := by
  have : ∀ l : List Task, l.Pairwise (fun t u => ∀ n, t.th = .own n → u.th ≠ .own n) → t ∈ l → u ∈ l → t = u := by
    intro l hp
    induction l with
    | nil => intro h; cases h
    | cons a l ih =>
      have := List.pairwise_cons.1 hp
      intro h1 h2
      rcases List.mem_cons.1 h1 with e3 | e3 <;> rcases List.mem_cons.1 h2 with e4 | e4
      · rw [e3, e4]
      · exact absurd e2 (this.1 u e4 n (e3 ▸ e1))
      · exact absurd e1 (this.1 t e3 n (e4 ▸ e2))
      · exact ih this.2 e3 e4
  exact this _ hi.one ht hu

theorem rank_lt {s : St} (hi : Inv s) {t u : Task} (ht : t ∈ s.tasks) (hb : Before t.lv t.th u) (hv : ∀ m, u.th = .own m → m < s.own) : rank s.own t < rank s.own u := by
  have hx : (match t.th with | .pool _ _ => 0 | .own n => n + 1) ≤ s.own := by
    cases e : t.th with
    | pool p i => exact Nat.zero_le _
    | own n => exact hi.own t ht n e
  unfold rank
  rcases hb with hb | ⟨hb, n, hn, hm⟩
  · have : (t.lv + 1) * (s.own + 1) ≤ u.lv * (s.own + 1) := Nat.mul_le_mul_right _ hb
    rw [Nat.add_mul, Nat.one_mul] at this
    omega
  · rw [hb, hn]
    cases e : t.th with
    | pool p i => dsimp only; omega
    | own m => have := hm m e; dsimp only; omega

theorem no_deadlock {s : St} (hi : Inv s) (hne : s.tasks ≠ []) : ∃ th, Enabled s th := by
  by_cases h : ∃ th, Enabled s th
  · exact h
  · exfalso
    have hstuck : ∀ t ∈ s.tasks, s.head t.th = some t → ∃ u ∈ s.tasks, s.head u.th = some u ∧ rank s.own t < rank s.own u := by
      intro t ht hh
      have hne : ¬ Enabled s t.th := fun e => h ⟨_, e⟩
      cases hw : t.wait with
      | none => exact (hne ⟨t, hh, .inl hw⟩).elim
      | some j =>
        have hf : ¬ s.fin j = true := fun e => hne ⟨t, hh, .inr ⟨j, hw, e⟩⟩
        rcases hi.alive j (hi.wlt t ht j hw) with h' | ⟨u, hu, e⟩
        · exact (hf h').elim
        · have hb := hi.wait t ht j hw u hu e
          have hr := rank_lt hi ht hb (hi.own u hu)
          obtain ⟨v, hv⟩ := head_some hu
          have hvm := head_mem hv
          refine ⟨v, hvm.1, hvm.2 ▸ hv, ?_⟩
          cases eu : u.th with
          | own n => rw [← one_own hi hu hvm.1 n eu (hvm.2.trans eu)]; exact hr
          | pool p i =>
            have e1 := hi.pool u hu p i eu
            have e2 := hi.pool v hvm.1 p i (hvm.2.trans eu)
            have : rank s.own v = rank s.own u := by unfold rank; rw [hvm.2, e1, e2]
            rw [this]; exact hr
    have grow : ∀ k, ∃ t ∈ s.tasks, s.head t.th = some t ∧ k ≤ rank s.own t := by
      intro k
      induction k with
      | zero =>
        obtain ⟨t, ht⟩ := List.exists_mem_of_ne_nil _ hne
        obtain ⟨v, hv⟩ := head_some ht
        exact ⟨v, (head_mem hv).1, (head_mem hv).2 ▸ hv, Nat.zero_le _⟩
      | succ k ih =>
        obtain ⟨t, h1, h2, h3⟩ := ih
        obtain ⟨u, g1, g2, g3⟩ := hstuck t h1 h2
        exact ⟨u, g1, g2, by omega⟩
    obtain ⟨b, hb⟩ := bounded (rank s.own) s.tasks
    obtain ⟨t, h1, _, h3⟩ := grow b
    have := hb t h1
    omega


/-! ## Every execution ends -/

/-- What is left of all tasks; models no code. -/
def left : List Task → Nat
  | [] => 0
  | t :: l => t.prog.size + (if t.wait = none then 0 else 1) + left l

theorem left_append (a b : List Task) : left (a ++ b) = left a + left b := by
  induction a with
  | nil => simp [left]
  | cons t a ih => simp only [List.cons_append, left, ih]; omega

theorem left_upd {s : St} (hu : s.tasks.Pairwise (fun t u => t.id ≠ u.id)) {t : Task} (ht : t ∈ s.tasks) (k : Prog) (j : Option Nat) :
    left (s.tasks.map (upd t.id k j)) + t.prog.size + (if t.wait = none then 0 else 1) = left s.tasks + k.size + (if j = none then 0 else 1) := by
  have : ∀ l : List Task, l.Pairwise (fun t u => t.id ≠ u.id) → t ∈ l →
      left (l.map (upd t.id k j)) + t.prog.size + (if t.wait = none then 0 else 1) = left l + k.size + (if j = none then 0 else 1) := by
    intro l hp
    induction l with
    | nil => intro h; cases h
    | cons a l ih =>
      have hp' := List.pairwise_cons.1 hp
      intro h
      by_cases e : a.id = t.id
      · have hal : t ∉ l := fun hm => hp'.1 t hm e
        have eat : t = a := by
          rcases List.mem_cons.1 h with h | h
          · exact h
          · exact (hal h).elim
        have hid : l.map (upd t.id k j) = l := by
          rw [List.map_congr_left (g := id) (fun u hu => ?_), List.map_id]
          have : ¬ u.id = t.id := fun eu => hp'.1 u hu (e.trans eu.symm)
          simp [upd, this]
        simp only [List.map_cons, left, hid, upd_prog, upd_wait, if_pos e]
        rw [eat]; omega
      · have h' : t ∈ l := by
          rcases List.mem_cons.1 h with h | h
          · exact (e (h ▸ rfl)).elim
          · exact h
        have := ih hp'.2 h'
        simp only [List.map_cons, left, upd_prog, upd_wait, if_neg e]
        omega
  exact this _ hu ht

theorem left_end {l : List Task} (hu : l.Pairwise (fun t u => t.id ≠ u.id)) {t : Task} (ht : t ∈ l) :
    left (l.filter (fun u => decide (u.id ≠ t.id))) + t.prog.size + (if t.wait = none then 0 else 1) = left l := by
  induction l with
  | nil => cases ht
  | cons a l ih =>
    have hp' := List.pairwise_cons.1 hu
    by_cases e : a.id = t.id
    · have hal : t ∉ l := fun hm => hp'.1 t hm e
      have eat : t = a := by
        rcases List.mem_cons.1 ht with h | h
        · exact h
        · exact (hal h).elim
      have hid : l.filter (fun u => decide (u.id ≠ t.id)) = l := by
        rw [List.filter_eq_self]
        intro u hu
        exact decide_eq_true (fun eu => hp'.1 u hu (e.trans eu.symm))
      rw [List.filter_cons_of_neg (by simpa using e), hid, eat]
      simp only [left]; omega
    · have h' : t ∈ l := by
        rcases List.mem_cons.1 ht with h | h
        · exact (e (h ▸ rfl)).elim
        · exact h
      rw [List.filter_cons_of_pos (by simpa using e)]
      have := ih hp'.2 h'
      simp only [left]; omega

theorem left_schedule (size : Nat → Nat) (s : St) (w : Where) (b : Prog) (lv : Nat) : left (s.schedule size w b lv).tasks = left s.tasks + b.size := by
  cases w <;> simp [St.schedule, left_append, left]

/-- The ids are distinct, whatever the tasks do: with `lt` and `uniq` of the invariant; models no code. -/
structure Ids (s : St) : Prop where
  lt : ∀ t ∈ s.tasks, t.id < s.next
  uniq : s.tasks.Pairwise (fun t u => t.id ≠ u.id)

theorem ids_schedule (size : Nat → Nat) {s : St} (h : Ids s) (w : Where) (b : Prog) (lv : Nat) : Ids (s.schedule size w b lv) := by
  obtain ⟨h1, h2⟩ := h
  cases w <;> constructor <;> simp only [St.schedule, List.mem_append, List.mem_singleton, List.pairwise_append, List.pairwise_singleton] <;> grind

theorem ids_goOn {s : St} (h : Ids s) (id : Nat) (k : Prog) (j : Option Nat) : Ids (s.goOn id k j) := by
  rw [goOn_eq]
  constructor <;> simp only [List.mem_map, List.pairwise_map, forall_exists_index, and_imp, forall_apply_eq_imp_iff₂, upd_id]
  · exact h.lt
  · exact h.uniq

theorem ids_step (size : Nat → Nat) {s : St} (h : Ids s) (th : Th) : Ids (step size s th) := by
  cases hh : s.head th with
  | none => rw [step_none size hh]; exact h
  | some t =>
    cases hw : t.wait with
    | some j =>
      by_cases hf : s.fin j = true
      · rw [step_resume size hh hw hf]; exact ⟨(ids_goOn h t.id t.prog none).1, (ids_goOn h t.id t.prog none).2⟩
      · rw [step_stay size hh hw hf]; exact h
    | none =>
      cases hp : t.prog with
      | done => rw [step_done size hh hw hp]; exact ⟨fun u hu => h.1 u (List.mem_filter.1 hu).1, h.2.filter _⟩
      | spawn w b k =>
        rw [step_spawn size hh hw hp]
        have := ids_schedule size (ids_goOn h t.id k none) w b (level 0 w)
        exact ⟨this.1, this.2⟩
      | join w b k =>
        rw [step_join size hh hw hp]
        have := ids_schedule size (ids_goOn h t.id k (some s.next)) w b (level t.lv w)
        exact ⟨this.1, this.2⟩

theorem ids_start (bs : List Prog) : Ids (start bs) := by
  induction bs with
  | nil => constructor <;> simp [start]
  | cons b bs ih => exact ids_schedule _ ih _ _ _

theorem log_schedule (size : Nat → Nat) (s : St) (w : Where) (b : Prog) (lv : Nat) : (s.schedule size w b lv).log = s.log := by cases w <;> rfl

/-- A step of an enabled thread uses up one unit of what is left, any other does nothing. -/
theorem left_step (size : Nat → Nat) {s : St} (h : Ids s) (th : Th) :
    (Enabled s th → left (step size s th).tasks + 1 = left s.tasks ∧ (step size s th).log = s.log ++ [th]) ∧ (¬ Enabled s th → step size s th = s) := by
  cases hh : s.head th with
  | none =>
    refine ⟨fun e => ?_, fun _ => step_none size hh⟩
    obtain ⟨t, ht, _⟩ := e
    rw [hh] at ht; cases ht
  | some t =>
    have ht := (head_mem hh).1
    cases hw : t.wait with
    | some j =>
      by_cases hf : s.fin j = true
      · refine ⟨fun _ => ?_, fun e => (e ⟨t, hh, .inr ⟨j, hw, hf⟩⟩).elim⟩
        rw [step_resume size hh hw hf]
        have := left_upd h.uniq ht t.prog none
        simp only [hw, reduceCtorEq, if_false, if_true] at this
        exact ⟨by rw [goOn_eq]; dsimp only; omega, rfl⟩
      · refine ⟨fun e => ?_, fun _ => step_stay size hh hw hf⟩
        obtain ⟨u, hu, e⟩ := e
        rw [hh] at hu; cases hu
        rw [hw] at e
        rcases e with e | ⟨i, e, e'⟩
        · cases e
        · cases e; exact (hf e').elim
    | none =>
      have hE : Enabled s th := ⟨t, hh, .inl hw⟩
      refine ⟨fun _ => ?_, fun e => (e hE).elim⟩
      cases hp : t.prog with
      | done =>
        rw [step_done size hh hw hp]
        have := left_end h.uniq ht
        simp only [hw, hp, if_true, Prog.size] at this
        exact ⟨by dsimp only; omega, rfl⟩
      | spawn w b k =>
        rw [step_spawn size hh hw hp]
        have := left_upd h.uniq ht k none
        simp only [hw, hp, if_true, Prog.size] at this
        refine ⟨?_, rfl⟩
        dsimp only
        rw [left_schedule, goOn_eq]; dsimp only; omega
      | join w b k =>
        rw [step_join size hh hw hp]
        have := left_upd h.uniq ht k (some s.next)
        simp only [hw, hp, if_true, reduceCtorEq, if_false, Prog.size] at this
        refine ⟨?_, rfl⟩
        dsimp only
        rw [left_schedule, goOn_eq]; dsimp only; omega

theorem left_start (bs : List Prog) : left (start bs).tasks = (bs.map Prog.size).sum := by
  induction bs with
  | nil => rfl
  | cons b bs ih => rw [start, left_schedule, ih, List.map_cons, List.sum_cons, Nat.add_comm]

theorem log_start (bs : List Prog) : (start bs).log = [] := by
  induction bs with
  | nil => rfl
  | cons b bs ih => rw [start, log_schedule, ih]

theorem exec_snoc (size : Nat → Nat) (bs : List Prog) (ls : List Th) (l : Th) : exec size bs (ls ++ [l]) = step size (exec size bs ls) l := by
  simp [exec, List.foldl_append]

theorem snoc_ind {β : Type} {P : List β → Prop} (h0 : P []) (h1 : ∀ l a, P l → P (l ++ [a])) (l : List β) : P l := by
  rw [← l.reverse_reverse]
  induction l.reverse with
  | nil => exact h0
  | cons a l ih => rw [List.reverse_cons]; exact h1 _ _ ih

theorem exec_ids (size : Nat → Nat) (bs : List Prog) (ls : List Th) : Ids (exec size bs ls) := by
  induction ls using snoc_ind with
  | h0 => exact ids_start bs
  | h1 ls l ih => rw [exec_snoc]; exact ids_step size ih l

theorem exec_left (size : Nat → Nat) (bs : List Prog) (ls : List Th) : (exec size bs ls).log.length + left (exec size bs ls).tasks = (bs.map Prog.size).sum := by
  induction ls using snoc_ind with
  | h0 =>
    show (start bs).log.length + left (start bs).tasks = _
    rw [left_start, log_start]; simp
  | h1 ls l ih =>
    rw [exec_snoc]
    have h := left_step size (exec_ids size bs ls) l
    by_cases e : Enabled (exec size bs ls) l
    · have := h.1 e
      rw [this.2, List.length_append, List.length_singleton]; omega
    · rw [h.2 e]; exact ih

/-- From a state with the invariant all tasks can be brought to their end. -/
theorem finishes (size : Nat → Nat) : ∀ (n : Nat) (s : St), left s.tasks = n → Inv s → OK s → ∃ ls : List Th, (ls.foldl (step size) s).tasks = [] := by
  intro n
  induction n with
  | zero =>
    intro s h _ _
    refine ⟨[], ?_⟩
    cases e : s.tasks with
    | nil => exact e
    | cons t l =>
      rw [e] at h
      simp only [left] at h
      have : 0 < t.prog.size := by cases t.prog <;> simp only [Prog.size] <;> omega
      omega
  | succ n ih =>
    intro s h hi hk
    have hne : s.tasks ≠ [] := by intro e; rw [e] at h; cases h
    obtain ⟨th, hE⟩ := no_deadlock hi hne
    have hl := (left_step size ⟨hi.lt, hi.uniq⟩ th).1 hE
    obtain ⟨ls, hls⟩ := ih (step size s th) (by omega) (step_inv size hi hk th).1 (step_inv size hi hk th).2
    exact ⟨th :: ls, hls⟩

end Rpp.Sched.PoolWait
