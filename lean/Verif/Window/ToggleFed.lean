import Verif.Window.ToggleMain

/-!
# `window_toggle`: when and by whom a window is given something
-/

namespace Rpp.Win.Toggle
variable {α ε : Type}
open Rpp.Win (Item)

theorem split_one {l es pre post : List (Ev α ε)} {b : Ev α ε} (hb : b ∉ es) (h : l ++ es = pre ++ b :: post) :
    ∃ post', l = pre ++ b :: post' := by
  rcases List.append_eq_append_iff.mp h with ⟨c, h1, h2⟩ | ⟨c, h1, h2⟩
  · exact absurd (by rw [h2]; simp) hb
  · cases c with
    | nil =>
      simp only [List.nil_append] at h2
      exact absurd (by rw [← h2]; simp) hb
    | cons d c =>
      simp only [List.cons_append, List.cons.injEq] at h2
      obtain ⟨rfl, _⟩ := h2
      exact ⟨c, h1⟩

theorem contEv_fed (v : Nat) (k) (a w x) : (Ev.fed a w x : Ev α ε) ∉ (contEv v k : List (Ev α ε)) := by cases k <;> simp [contEv]

/-- Only pushes into a live window add a `fed`. -/
theorem tr_log {s s' : St α ε} (t : Tr s s') : ∃ es, s'.log = s.log ++ es ∧
    ((∀ a w x, .fed a w x ∉ es) ∨ ∃ a w x k es', es = .fed a w x :: es' ∧ (∀ a w x, .fed a w x ∉ es') ∧
      (s.pc a).gives = some (x, w, k) ∧ s.live w = true) := by
  cases t
  case giveOn a x w k hg h1 h2 => exact ⟨_, rfl, .inr ⟨a, w, x, k, [], rfl, by simp, hg, h1⟩⟩
  case giveOff a x w k hg h1 h2 => exact ⟨_, List.append_assoc _ _ _, .inr ⟨a, w, x, k, contEv w k, rfl, contEv_fed w k, hg, h1⟩⟩
  case giveNot a x w k hg h1 => exact ⟨_, rfl, .inl (contEv_fed w k)⟩
  case chkOff a x w k hp h2 => exact ⟨_, rfl, .inl (contEv_fed w k)⟩
  case innT a x w k hp hx =>
    refine ⟨_, rfl, .inl ?_⟩
    intro b v y hm
    rcases List.mem_cons.mp hm with hm | hm
    · cases hm
    · exact contEv_fed _ _ _ _ _ hm
  case innV a x w k hp hx =>
    refine ⟨_, rfl, .inl ?_⟩
    intro b v y hm
    rcases List.mem_cons.mp hm with hm | hm
    · cases hm
    · exact contEv_fed _ _ _ _ _ hm
  all_goals first
    | exact ⟨[], (List.append_nil _).symm, .inl (by simp)⟩
    | exact ⟨_, rfl, .inl (by simp)⟩

/-- A window is only given something between its creation and its end, by the call that has the mutex to pass
that notification on, or by its own closing. -/
def FedOk (log : List (Ev α ε)) : Prop :=
  ∀ pre a w x post, log = pre ++ .fed a w x :: post →
    fedEnd w pre = false ∧ .created w ∈ pre ∧
      ((∃ p q, pre = p ++ .acc a x :: q ∧ ∀ e ∈ q, e.mark = false) ∨ (a = .cls w ∧ x = .done ∧ .fire w ∈ pre))

theorem FedOk.tr {s s' : St α ε} (h : FedOk s.log) (hA : InvA s) (hB : InvB s) (hH : InvH s) (hC : InvC s) (t : Tr s s') : FedOk s'.log := by
  obtain ⟨es, hlog, hes⟩ := tr_log t
  intro pre a w x post he
  rw [hlog] at he
  rcases hes with hes | ⟨a', w', x', k, es', rfl, hes, hg, hlv⟩
  · obtain ⟨post', hp⟩ := split_one (hes a w x) he
    exact h pre a w x post' hp
  · have he' : (s.log ++ [.fed a' w' x']) ++ es' = pre ++ .fed a w x :: post := by simpa using he
    obtain ⟨post', hp⟩ := split_one (hes a w x) he'
    rcases split_snoc hp with ⟨q1, _, q3⟩ | ⟨r, _, q2⟩
    · cases q1
      subst q3
      obtain ⟨b1, b2, b3, b4⟩ := hB.lv w hlv
      refine ⟨b4, (hB.cr w).mpr b2, ?_⟩
      rcases gives_eq hg with ⟨r, hq, rfl⟩ | ⟨hq, rfl, rfl⟩
      · left
        obtain ⟨pre', mid, he, hgd⟩ := hC.cur a x (w :: r) false (by rw [hq]; rfl)
        exact ⟨pre', mid, he, hgd.g6⟩
      · right
        obtain rfl := ok_fired (hq ▸ hA.ok a)
        exact ⟨rfl, rfl, hH.fi w (by rw [hq]; rfl)⟩
    · exact h pre a w x r q2

theorem fedOk (ls : List (Lbl α ε)) : FedOk (exec ls).log :=
  (exec_induct (P := fun s => (InvA s ∧ InvB s ∧ InvH s ∧ InvC s) ∧ FedOk s.log)
    ⟨⟨invA [], invB [], invH [], invC []⟩, by intro pre a w x post h; simp at h⟩
    (fun _ _ h t => ⟨⟨h.1.1.tr t, h.1.2.1.tr h.1.1 t, h.1.2.2.1.tr h.1.1 t, h.1.2.2.2.tr h.1.1 h.1.2.1 h.1.2.2.1 t⟩,
      h.2.tr h.1.1 h.1.2.1 h.1.2.2.1 h.1.2.2.2 t⟩) ls).2

/-! ## Openings and closings -/

/-- A test on the constructor; models no code. -/
def Ev.isOpen : Ev α ε → Bool
  | .open => true
  | _ => false

/-- The windows, in order of creation. -/
def createds : List (Ev α ε) → List Nat
  | [] => []
  | .created w :: l => w :: createds l
  | _ :: l => createds l

theorem createds_append (l m : List (Ev α ε)) : createds (l ++ m) = createds l ++ createds m := by
  induction l with
  | nil => rfl
  | cons e l ih => cases e <;> simp [createds, ih]

theorem createds_contEv (w k) : createds (contEv w k : List (Ev α ε)) = [] := by cases k <;> rfl
theorem isOpen_contEv (w k) : (contEv w k : List (Ev α ε)).countP Ev.isOpen = 0 := by cases k <;> rfl

/-- Used in the proofs; models no code. -/
def Pc.opening : Pc α ε → Nat
  | .want .opening => 1
  | _ => 0

/-- Invariant of the proofs; models no code. -/
structure InvO (s : St α ε) : Prop where
  o1 : createds s.log = List.range s.next
  o2 : s.log.countP Ev.isOpen = s.next + (s.pc .opn).opening

theorem InvO.tr {s s' : St α ε} (h : InvO s) (hA : InvA s) (t : Tr s s') : InvO s' := by
  obtain ⟨o1, o2⟩ := h
  have ho := hA.ok
  clear hA
  generalize hc : s.log.countP Ev.isOpen = c at *
  cases t
  case giveOn a x w k hg h1 h2 =>
    rcases gives_eq hg with ⟨r, hp, rfl⟩ | ⟨hp, rfl, rfl⟩
    all_goals
      constructor <;> simp only [upd, List.countP_append, hc, List.countP_cons, List.countP_nil, createds_append, createds, Ev.isOpen, List.append_nil] at * <;> grind [Pc.opening]
  case giveOff a x w k hg h1 h2 =>
    rcases gives_eq hg with ⟨r, hp, rfl⟩ | ⟨hp, rfl, rfl⟩
    all_goals
      constructor <;> simp only [upd, List.countP_append, hc, List.countP_cons, List.countP_nil, createds_append, createds, Ev.isOpen, List.append_nil, createds_contEv, isOpen_contEv] at * <;> grind [Pc.opening, cont]
  case giveNot a x w k hg h1 =>
    rcases gives_eq hg with ⟨r, hp, rfl⟩ | ⟨hp, rfl, rfl⟩
    all_goals
      constructor <;> simp only [upd, List.countP_append, hc, createds_append, List.append_nil, createds_contEv, isOpen_contEv] at * <;> grind [Pc.opening, cont]
  case chkOff a x w k hp h2 =>
    cases k <;> constructor <;> simp only [upd, List.countP_append, hc, createds_append, List.append_nil, createds_contEv, isOpen_contEv] at * <;> grind [Pc.opening, cont]
  case innT a x w k hp hx =>
    cases k <;> constructor <;> simp only [upd, List.countP_append, hc, createds_append, createds, List.countP_cons, Ev.isOpen, List.append_nil, createds_contEv, isOpen_contEv] at * <;> grind [Pc.opening, cont]
  case innV a x w k hp hx =>
    cases k <;> constructor <;> simp only [upd, List.countP_append, hc, createds_append, createds, List.countP_cons, Ev.isOpen, List.append_nil, createds_contEv, isOpen_contEv] at * <;> grind [Pc.opening, cont]
  case lockOpen a hp hl hm =>
    obtain rfl := ok_opening (hp ▸ ho a)
    constructor <;> simp only [upd, List.countP_append, hc, List.countP_cons, List.countP_nil, createds_append, createds, Ev.isOpen, List.append_nil, List.range_succ] at * <;> grind [Pc.opening]
  case lockOpenOff a hp hl hm =>
    obtain rfl := ok_opening (hp ▸ ho a)
    constructor <;> simp only [upd, List.countP_append, hc, List.countP_cons, List.countP_nil, createds_append, createds, Ev.isOpen, List.append_nil, List.range_succ] at * <;> grind [Pc.opening]
  case src x h1 _ _ => have := isIdle_eq h1; constructor <;> simp only [upd] at * <;> grind [Pc.opening]
  case opn h1 _ _ =>
    have := isIdle_eq h1
    constructor <;> simp only [upd, List.countP_append, hc, List.countP_cons, List.countP_nil, createds_append, createds, Ev.isOpen, List.append_nil] at * <;> grind [Pc.opening]
  case opnErr e h1 _ _ => have := isIdle_eq h1; constructor <;> simp only [upd] at * <;> grind [Pc.opening]
  case opnDone => exact ⟨o1, by rw [hc]; exact o2⟩
  all_goals
    constructor <;> simp only [upd, List.countP_append, hc, List.countP_cons, List.countP_nil, createds_append, createds, Ev.isOpen, List.append_nil] at * <;> grind [Pc.opening]

theorem invO (ls : List (Lbl α ε)) : InvO (exec ls) :=
  (exec_induct (P := fun s => InvA s ∧ InvO s)
    ⟨invA [], by constructor <;> simp [createds, Pc.opening]⟩ (fun _ _ h t => ⟨h.1.tr t, h.2.tr h.1 t⟩) ls).2

/-- The closing is between firing and having completed the window. -/
def Pc.closing : Pc α ε → Bool
  | .fired _ => true
  | .deliv _ _ none _ => true
  | _ => false

theorem closing_contEv (w v : Nat) (k) : (Ev.fireEnd w : Ev α ε) ∈ (contEv v k : List (Ev α ε)) ↔ k = none ∧ v = w := by
  cases k <;> simp [contEv, eq_comm]

theorem fire_contEv (w v : Nat) (k) : (Ev.fire w : Ev α ε) ∈ (contEv v k : List (Ev α ε)) ↔ False := by
  cases k <;> simp [contEv]

/-- A closing that has fired completes the window, and then the window is over. -/
structure InvZ (s : St α ε) : Prop where
  z1 : ∀ w, .fire w ∈ s.log → (s.pc (.cls w)).closing = true ∨ .fireEnd w ∈ s.log
  z2 : ∀ w, .fireEnd w ∈ s.log → s.live w = false ∧ w < s.next

theorem InvZ.tr {s s' : St α ε} (h : InvZ s) (hA : InvA s) (hB : InvB s) (t : Tr s s') : InvZ s' := by
  obtain ⟨z1, z2⟩ := h
  have ho := hA.ok
  have cl := hB.cl
  have td := hB.td
  clear hA hB
  cases t
  case giveOn a x w k hg h1 h2 =>
    rcases gives_eq hg with ⟨r, hp, rfl⟩ | ⟨hp, rfl, rfl⟩
    · clear ho
      constructor <;> simp only [upd, List.mem_append, List.mem_singleton, reduceCtorEq, or_false] at * <;> grind [Pc.closing]
    · obtain rfl := ok_fired (hp ▸ ho a)
      clear ho
      constructor <;> simp only [upd, List.mem_append, List.mem_singleton, reduceCtorEq, or_false] at * <;> grind [Pc.closing, Item.term]
  case giveOff a x w k hg h1 h2 =>
    rcases gives_eq hg with ⟨r, hp, rfl⟩ | ⟨hp, rfl, rfl⟩
    · clear ho
      constructor <;> simp only [upd, List.mem_append, List.mem_singleton, reduceCtorEq, or_false, closing_contEv, fire_contEv] at * <;> grind [Pc.closing, cont]
    · obtain rfl := ok_fired (hp ▸ ho a)
      have := td _ w (by rw [hp]; simp [Pc.todo])
      clear ho td
      constructor <;> simp only [upd, List.mem_append, List.mem_singleton, reduceCtorEq, or_false, closing_contEv, fire_contEv] at * <;> grind [Pc.closing, cont, Item.term]
  case giveNot a x w k hg h1 =>
    rcases gives_eq hg with ⟨r, hp, rfl⟩ | ⟨hp, rfl, rfl⟩
    · clear ho
      constructor <;> simp only [upd, List.mem_append, or_false, closing_contEv, fire_contEv] at * <;> grind [Pc.closing, cont]
    · obtain rfl := ok_fired (hp ▸ ho a)
      have := td _ w (by rw [hp]; simp [Pc.todo])
      clear ho td
      constructor <;> simp only [upd, List.mem_append, or_false, closing_contEv, fire_contEv] at * <;> grind [Pc.closing, cont, Item.term]
  case chkOff a x w k hp h2 =>
    cases k with
    | some r => clear ho; constructor <;> simp only [upd, List.mem_append, or_false, closing_contEv, fire_contEv] at * <;> grind [Pc.closing, cont]
    | none =>
      obtain ⟨rfl, hx⟩ := ok_deliv (hp ▸ ho a)
      have := cl _ w (by rw [hp]; simp [Pc.ends, hx])
      clear ho
      constructor <;> simp only [upd, List.mem_append, or_false, closing_contEv, fire_contEv] at * <;> grind [Pc.closing, cont]
  case innT a x w k hp hx =>
    cases k with
    | some r => clear ho; constructor <;> simp only [upd, List.mem_append, List.mem_cons, reduceCtorEq, false_or, or_false, closing_contEv, fire_contEv] at * <;> grind [Pc.closing, cont]
    | none =>
      obtain ⟨rfl, hx⟩ := ok_deliv (hp ▸ ho a)
      have := cl _ w (by rw [hp]; simp [Pc.ends, hx])
      clear ho
      constructor <;> simp only [upd, List.mem_append, List.mem_cons, reduceCtorEq, false_or, or_false, closing_contEv, fire_contEv] at * <;> grind [Pc.closing, cont]
  case innV a x w k hp hx =>
    cases k with
    | some r => clear ho; constructor <;> simp only [upd, List.mem_append, List.mem_cons, reduceCtorEq, false_or, or_false, closing_contEv, fire_contEv] at * <;> grind [Pc.closing, cont]
    | none =>
      obtain ⟨rfl, hx'⟩ := ok_deliv (hp ▸ ho a)
      rw [hx] at hx'; cases hx'
  case chk a x w k hp h2 => clear ho; cases k <;> constructor <;> simp only [upd] at * <;> grind [Pc.closing]
  case go a x w k hp =>
    clear ho
    cases k <;> constructor <;> simp only [upd, List.mem_append, List.mem_singleton, reduceCtorEq, or_false] at * <;> grind [Pc.closing]
  case fire w h1 h2 h3 =>
    clear ho
    constructor <;> simp only [upd, List.mem_append, List.mem_singleton, reduceCtorEq, or_false, Ev.fire.injEq] at * <;> grind [Pc.closing]
  all_goals
    clear ho
    constructor <;> simp only [upd, List.mem_append, List.mem_cons, List.not_mem_nil, reduceCtorEq, or_false] at * <;> grind [Pc.closing, Pc.isIdle]

theorem invZ (ls : List (Lbl α ε)) : InvZ (exec ls) :=
  (exec_induct (P := fun s => InvA s ∧ InvB s ∧ InvZ s)
    ⟨invA [], invB [], by constructor <;> simp⟩
    (fun _ _ h t => ⟨h.1.tr t, h.2.1.tr h.1 t, h.2.2.tr h.1 h.2.1 t⟩) ls).2.2

end Rpp.Win.Toggle
