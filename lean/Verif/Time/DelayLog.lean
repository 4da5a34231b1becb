import Verif.Time.DelayProofs

/-!
# Invariants of `delay` / `observe_on` about the whole log
-/

namespace Rpp.Time.Delay
variable {α ε : Type}

/-- Some terminal callback has started. -/
def anyTerm (log : List (Ev α ε)) : Bool := (delivered log).any (fun b => b.1.term)

/-- The external disposal happened. -/
def Ev.isGone : Ev α ε → Bool
  | .gone => true
  | _ => false

/-- A test on the constructor; models no code. -/
def Ev.isFailed : Ev α ε → Bool
  | .failed .. => true
  | _ => false

theorem anyTerm_append (l m : List (Ev α ε)) : anyTerm (l ++ m) = (anyTerm l || anyTerm m) := by
  simp [anyTerm, delivered_append]

/-- Used in the proofs; models no code. -/
def TPc.termCall : TPc α ε → Bool
  | .inCall x => x.term
  | _ => false

/-- Used in the proofs; models no code. -/
def CPc.errCall : CPc α ε → Bool
  | .inErr _ => true
  | _ => false

/-- Terminal callbacks and disposal. -/
structure InvT (s : St α ε) : Prop where
  t1 : anyTerm s.log = true → s.disposed = false →
    (∃ t, (s.tasks t).termCall = true) ∨ ∃ i, (s.calls i).errCall = true
  t2 : s.disposed = true → anyTerm s.log = true ∨ s.log.any Ev.isGone = true
  t3 : ∀ t, (s.tasks t).termCall = true → anyTerm s.log = true
  t4 : ∀ i, (s.calls i).errCall = true → anyTerm s.log = true
  t5 : s.log.any Ev.isFailed = true → s.disposed = false → s.mutex ≠ none

theorem anyTerm_beg (x : Item α ε) (t) : anyTerm [.beg x t] = x.term := by
  simp [anyTerm, delivered]
theorem anyTerm_arrived (x : Item α ε) (t) : anyTerm [.arrived x t] = false := rfl
theorem anyTerm_failed (e : ε) (t) : anyTerm (α := α) [.failed e t] = false := rfl
theorem anyTerm_took (x : Item α ε) : anyTerm [.took x] = false := rfl
theorem anyTerm_left (x : Item α ε) : anyTerm [.left x] = false := rfl
theorem anyTerm_fin (x : Item α ε) : anyTerm [.fin x] = false := rfl
theorem anyTerm_gone : anyTerm (α := α) (ε := ε) [.gone] = false := rfl

theorem InvT.tr {clr d} {s s' : St α ε} {own} (h : InvT s) (ho : InvO clr s own) (hf : InvF s)
    (t : Tr clr d s s') : InvT s' := by
  have hff := hf s.fresh (Nat.le_refl _)
  have hm := ho.mtx
  obtain ⟨h1, h2, h3, h4, h5⟩ := h
  cases t
  case errFin i e hi =>
    have := h4 i (by rw [hi]; rfl)
    constructor
    all_goals simp only [anyTerm_append, List.any_append, anyTerm_fin, Bool.or_false] at *
    · simp
    · simp [this]
    · exact h3
    · intros; exact this
    · simp
  case fin t x ht =>
    have h3' := h3 t
    rw [ht] at h3'
    constructor
    all_goals simp only [anyTerm_append, List.any_append, anyTerm_fin, anyTerm_left, Bool.or_false] at *
    · intro hT hd
      simp only [Bool.or_eq_false_iff] at hd
      rcases h1 hT hd.1 with ⟨u, hu⟩ | hi
      · refine .inl ⟨u, ?_⟩
        by_cases hut : u = t
        · subst hut; rw [ht] at hu; simp [TPc.termCall, hd.2] at hu
        · simpa [hut] using hu
      · exact .inr hi
    · intro hd
      simp only [Bool.or_eq_true] at hd
      rcases hd with hd | hd
      · rcases h2 hd with h | h <;> simp [h]
      · exact .inl (h3' hd)
    · grind [TPc.termCall]
    · exact h4
    · simp [Ev.isFailed] at *; grind
  case beg t x tp ht hd =>
    constructor
    all_goals simp only [anyTerm_append, List.any_append, anyTerm_beg, Bool.or_false] at *
    · intro hT _
      simp only [Bool.or_eq_true] at hT
      rcases hT with hT | hT
      · rcases h1 hT hd with ⟨u, hu⟩ | hi
        · refine .inl ⟨u, ?_⟩
          by_cases hut : u = t
          · subst hut; rw [ht] at hu; cases hu
          · simpa [hut] using hu
        · exact .inr hi
      · exact .inl ⟨t, by simp [TPc.termCall, hT]⟩
    · simp [hd]
    · grind [TPc.termCall]
    · grind
    · simp [Ev.isFailed] at *; grind
  case errBeg i e hi hd =>
    constructor
    all_goals simp only [anyTerm_append, List.any_append, anyTerm_beg, Bool.or_false] at *
    · intro _ _
      exact .inr ⟨i, by simp [CPc.errCall]⟩
    · simp [hd]
    · grind
    · intros; simp [Item.term]
    · intros; rw [hm i (by rw [hi]; rfl)]; simp
  all_goals
    constructor
    all_goals simp only [anyTerm_append, List.any_append, anyTerm_arrived, anyTerm_failed, anyTerm_took, anyTerm_left, anyTerm_gone, Bool.or_false] at *
    all_goals first
      | assumption
      | (intro hT hd
         rcases h1 hT (by first | exact hd | simp_all) with ⟨u, hu⟩ | ⟨j, hj⟩
         · exact .inl ⟨u, by grind [TPc.termCall]⟩
         · exact .inr ⟨j, by grind [CPc.errCall]⟩)
      | (simp [Ev.isFailed, Ev.isGone, Ev.isFailed] at *; done)
      | (simp [Ev.isFailed, Ev.isGone, Ev.isFailed] at *; grind [TPc.termCall, CPc.errCall, CPc.locks])

theorem all_inv (clr d) (ls : List (Lbl α ε)) :
    let s := exec clr d ls
    InvF s ∧ (∃ own, InvO clr s own) ∧ (∃ held lost, InvD clr d s held lost) ∧
      (∃ a b w, InvR clr s a b w) ∧ InvT s := by
  refine exec_induct clr d (P := fun s => InvF s ∧ (∃ own, InvO clr s own) ∧
    (∃ held lost, InvD clr d s held lost) ∧ (∃ a b w, InvR clr s a b w) ∧ InvT s) ?_ ?_ ls
  · refine ⟨fun _ _ => rfl, ⟨none, ?_⟩, ⟨[], [], ?_⟩, ⟨0, 0, 0, ?_⟩, ?_⟩
    · constructor <;> simp [TPc.live, CPc.locks, CPc.isSched]
    · constructor <;> simp [arrivals, drained, delivered, Matches]
    · constructor <;> simp [running, onWay, TPc.busy]
    · constructor <;> simp [anyTerm, delivered, TPc.termCall, CPc.errCall]
  · rintro s s' ⟨hf, ⟨own, ho⟩, ⟨held, lost, h⟩, ⟨a, b, w, hr⟩, ht⟩ t
    exact ⟨hf.tr t, ho.tr hf t, h.tr ho hf t, hr.tr ho hf t, ht.tr ho hf t⟩

/-- Nothing is called after a terminal callback started. -/
def Last (log : List (Ev α ε)) : Prop :=
  ∀ pre b rest, delivered log = pre ++ b :: rest → b.1.term = true → rest = []

theorem Last.snoc_other {log : List (Ev α ε)} (h : Last log) {e} (he : delivered [e] = []) :
    Last (log ++ [e]) := by
  unfold Last at *
  rw [delivered_append, he, List.append_nil]
  exact h

theorem Last.tr {d} {s s' : St α ε} {own} (h : Last s.log) (hT : InvT s)
    (ho : InvO false s own) (t : Tr false d s s') : Last s'.log := by
  cases t
  case beg t x tp ht hd =>
    have hno : anyTerm s.log = false := by
      cases hb : anyTerm s.log
      · rfl
      · rcases hT.t1 hb hd with ⟨u, hu⟩ | ⟨i, hi⟩
        · have hl : (s.tasks u).live = true := by
            revert hu; cases s.tasks u <;> simp [TPc.termCall, TPc.live]
          have := ho.hold_unique hl (u := t) (by rw [ht]; rfl)
          subst this; rw [ht] at hu; cases hu
        · have hl : (s.calls i).locks = true := by
            revert hi; cases s.calls i <;> simp [CPc.errCall, CPc.locks]
          cases ho.clrd i hl
    intro pre b rest hp hb
    simp only [delivered_append, delivered] at hp
    rcases List.eq_nil_or_concat rest with rfl | ⟨r, c, rfl⟩
    · rfl
    · exfalso
      have : delivered s.log = pre ++ b :: r := by
        have hp' : delivered s.log ++ [(x, s.now)] = (pre ++ b :: r) ++ [c] := by simpa using hp
        exact (List.append_inj' hp' rfl).1
      simp [anyTerm, this, hb] at hno
  case errBeg i e hi hd => cases ho.clrd i (by rw [hi]; rfl)
  case fin t x ht => exact (h.snoc_other rfl).snoc_other rfl
  all_goals first | exact h | exact h.snoc_other rfl

theorem last_inv (d) (ls : List (Lbl α ε)) : Last (exec false d ls).log := by
  refine (exec_induct false d (P := fun s => Last s.log ∧ InvF s ∧ (∃ own, InvO false s own) ∧ InvT s)
    ?_ ?_ ls).1
  · obtain ⟨h1, h2, -, -, h5⟩ := all_inv (α := α) (ε := ε) false d []
    refine ⟨?_, h1, h2, h5⟩
    intro pre b rest h
    simp [delivered] at h
  · rintro s s' ⟨h, hf, ⟨own, ho⟩, hT⟩ t
    exact ⟨h.tr hT ho t, hf.tr t, ho.tr hf t, hT.tr ho hf t⟩

/-- Nothing starts after a terminal callback returned. -/
theorem log_after (clr d) (ls : List (Lbl α ε)) :
    ∀ pre x rest, (exec clr d ls).log = pre ++ .fin x :: rest → x.term = true →
      delivered rest = [] := by
  suffices h : (∀ pre x rest, (exec clr d ls).log = pre ++ .fin x :: rest → x.term = true →
      delivered rest = [] ∧ (exec clr d ls).disposed = true) from
    fun pre x rest h1 h2 => (h pre x rest h1 h2).1
  refine exec_induct clr d (P := fun s => ∀ pre x rest, s.log = pre ++ .fin x :: rest →
    x.term = true → delivered rest = [] ∧ s.disposed = true) ?_ ?_ ls
  · simp
  · intro s s' h t pre x rest hl hx
    have key : ∀ {rest} e, s.log ++ [e] = pre ++ .fin x :: rest →
        (e = .fin x ∧ rest = []) ∨ ∃ r, rest = r ++ [e] ∧ s.log = pre ++ .fin x :: r := by
      intro rest e he
      rcases List.eq_nil_or_concat rest with rfl | ⟨r, c, rfl⟩
      · left
        have := List.append_inj' he rfl
        simpa using this.2
      · right
        have he' : s.log ++ [e] = (pre ++ .fin x :: r) ++ [c] := by simpa using he
        have := List.append_inj' he' rfl
        refine ⟨r, by simpa using this.2.symm, this.1⟩
    cases t
    case fin t y ht =>
      rcases List.eq_nil_or_concat rest with rfl | ⟨r, c, rfl⟩
      · exfalso
        have he : (s.log ++ [.fin y]) ++ [.left y] = pre ++ [.fin x] := by simpa using hl
        have := (List.append_inj' he rfl).2
        simp at this
      · have he : (s.log ++ [.fin y]) ++ [.left y] = (pre ++ .fin x :: r) ++ [c] := by simpa using hl
        have h2 := List.append_inj' he rfl
        have hc : c = .left y := by simpa using h2.2.symm
        subst hc
        rcases key _ h2.1 with ⟨h3, h4⟩ | ⟨r', h3, h4⟩
        · cases h3; subst h4
          simp [delivered, hx]
        · have := h _ _ _ h4 hx
          subst h3
          simp [delivered_append, delivered, this.1, this.2]
    case beg t y tp ht hd =>
      rcases key _ hl with ⟨h3, h4⟩ | ⟨r', h3, h4⟩
      · cases h3
      · have := h _ _ _ h4 hx
        simp [hd] at this
    case errBeg i e hi hd =>
      rcases key _ hl with ⟨h3, h4⟩ | ⟨r', h3, h4⟩
      · cases h3
      · have := h _ _ _ h4 hx
        simp [hd] at this
    case errFin i e hi =>
      rcases key _ hl with ⟨h3, h4⟩ | ⟨r', h3, h4⟩
      · subst h4; simp [delivered]
      · have := h _ _ _ h4 hx
        subst h3
        simp [delivered_append, delivered, this.1]
    all_goals first
      | exact h _ _ _ hl hx
      | (rcases key _ hl with ⟨h3, h4⟩ | ⟨r', h3, h4⟩
         · cases h3
         · have := h _ _ _ h4 hx
           subst h3
           simp [delivered_append, delivered, this.1, this.2])

end Rpp.Time.Delay
