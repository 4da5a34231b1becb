import Verif.Time.DebounceProofs

/-!
# `debounce`: what the log says
-/

namespace Rpp.Time.Debounce
variable {α ε : Type}

theorem pending_arrived (l : List (Ev α ε)) (v t) : pending (l ++ [.arrived v t]) = some (v, t) :=
  pending_snoc l _
theorem pending_took (l : List (Ev α ε)) (v t) : pending (l ++ [.took v t]) = none := pending_snoc l _
theorem pending_flush (l : List (Ev α ε)) (o) : pending (l ++ [.flush o]) = none := pending_snoc l _
theorem pending_left (l : List (Ev α ε)) (v) : pending (l ++ [.left v]) = pending l := pending_snoc l _
theorem pending_recv (l : List (Ev α ε)) (v) : pending (l ++ [.recv v]) = pending l := pending_snoc l _
theorem pending_beg (l : List (Ev α ε)) (v) : pending (l ++ [.beg v]) = pending l := pending_snoc l _
theorem pending_fin (l : List (Ev α ε)) (v) : pending (l ++ [.fin v]) = pending l := pending_snoc l _
theorem pending_gone (l : List (Ev α ε)) : pending (l ++ [.gone]) = pending l := pending_snoc l _

/-- Times. -/
structure InvT (d : Nat) (s : St α ε) : Prop where
  tv : s.value = (pending s.log).map (·.1)
  td : ∀ v t, pending s.log = some (v, t) → s.due = some (t + d) ∧ t ≤ s.now
  dn : ∀ x, s.due = some x → x ≤ s.now + d
  tw : ∀ u tp x, s.tasks u = .waiting tp → s.due = some x → tp ≤ x
  tk : ∀ u T, .took u T ∈ s.log → T ≤ s.now

theorem InvT.tr {d} {s s' : St α ε} (h : InvT d s) (hL : InvK s) (t : Tr d s s') : InvT d s' := by
  obtain ⟨h1, h2, h3, h4, h5⟩ := h
  have hlk := hL.lk
  have hfv : ∀ v t, pending s.log = some (v, t) → s.value = some v := by
    intro v t h; rw [h1, h]; rfl
  cases t
  all_goals
    constructor
    all_goals simp only [pending_arrived, pending_took, pending_flush, pending_left, pending_recv, pending_beg,
      pending_fin, pending_gone, List.mem_append, List.mem_singleton, reduceCtorEq, or_false] at *
    all_goals first
      | assumption
      | grind [TPc.looking]

theorem invT (d) (ls : List (Lbl α ε)) : InvT d (exec d ls) := by
  refine (exec_induct d (P := fun s => InvL s ∧ InvK s ∧ InvT d s) ⟨invL d [], invK d [], ?_⟩
    (fun _ _ h t => ⟨h.1.tr t, h.2.1.tr h.1 t, h.2.2.tr h.2.1 t⟩) ls).2.2
  constructor <;> simp [pending]

/-- What was taken, and when. -/
structure InvW (d : Nat) (s : St α ε) : Prop where
  took : ∀ pre v T rest, s.log = pre ++ .took v T :: rest → ∃ t, pending pre = some (v, t) ∧ t + d ≤ T
  flush : ∀ pre o rest, s.log = pre ++ .flush o :: rest → o = (pending pre).map (·.1)
  mono : ∀ pre w t rest, s.log = pre ++ .arrived w t :: rest → ∀ u T, .took u T ∈ pre → T ≤ t

theorem InvW.snoc {d} {s s' : St α ε} (h : InvW d s) (e : Ev α ε) (hl : s'.log = s.log ++ [e])
    (h1 : ∀ v T, e = .took v T → ∃ t, pending s.log = some (v, t) ∧ t + d ≤ T)
    (h2 : ∀ o, e = .flush o → o = (pending s.log).map (·.1))
    (h3 : ∀ w t, e = .arrived w t → ∀ u T, .took u T ∈ s.log → T ≤ t) : InvW d s' := by
  constructor
  · intro pre v T rest hh
    rw [hl] at hh
    rcases split_snoc hh with ⟨e1, -, e3⟩ | ⟨r, -, e2⟩
    · subst e3; exact h1 _ _ e1
    · exact h.took _ _ _ _ e2
  · intro pre o rest hh
    rw [hl] at hh
    rcases split_snoc hh with ⟨e1, -, e3⟩ | ⟨r, -, e2⟩
    · subst e3; exact h2 _ e1
    · exact h.flush _ _ _ e2
  · intro pre w t rest hh
    rw [hl] at hh
    rcases split_snoc hh with ⟨e1, -, e3⟩ | ⟨r, -, e2⟩
    · subst e3; exact h3 _ _ e1
    · exact h.mono _ _ _ _ e2

theorem InvW.tr {d} {s s' : St α ε} (h : InvW d s) (hT : InvT d s) (t : Tr d s s') : InvW d s' := by
  cases t
  case take t tp v ht hd hv hn =>
    refine h.snoc _ rfl ?_ (by simp) (by simp)
    intro v' T he
    cases he
    have := hT.tv
    rw [hv] at this
    cases hp : pending s.log with
    | none => rw [hp] at this; cases this
    | some q =>
      obtain ⟨w, t⟩ := q
      rw [hp] at this
      cases this
      refine ⟨t, rfl, ?_⟩
      have := (hT.td _ _ hp).1
      rw [hd] at this
      cases this
      exact hn
  case flushV i v hi hv => exact h.snoc _ rfl (by simp) (by rintro o ⟨⟩; rw [← hT.tv, hv]) (by simp)
  case flushN i hi hv => exact h.snoc _ rfl (by simp) (by rintro o ⟨⟩; rw [← hT.tv, hv]) (by simp)
  case put => exact h.snoc _ rfl (by simp) (by simp) (by rintro w t ⟨⟩; exact hT.tk)
  case putNew => exact h.snoc _ rfl (by simp) (by simp) (by rintro w t ⟨⟩; exact hT.tk)
  all_goals first
    | exact h.snoc _ rfl (by simp) (by simp) (by simp)
    | exact ⟨h.took, h.flush, h.mono⟩

theorem invW (d) (ls : List (Lbl α ε)) : InvW d (exec d ls) := by
  refine (exec_induct d (P := fun s => InvL s ∧ InvK s ∧ InvT d s ∧ InvW d s)
    ⟨invL d [], invK d [], invT d [], ?_⟩
    (fun _ _ h t => ⟨h.1.tr t, h.2.1.tr h.1 t, h.2.2.1.tr h.2.1 t, h.2.2.2.tr h.2.2.1 t⟩) ls).2.2.2
  constructor <;> simp

/-! ## Order and losses -/

/-- Subsequence. -/
structure Sub (l m : List α) : Prop where
  out : List.Sublist l m

theorem sub_snoc {l m : List α} {v : α} (h : Sub l m) : Sub (l ++ [v]) (m ++ [v]) :=
  ⟨h.out.append (List.Sublist.refl _)⟩

theorem sub_snoc' {l m : List α} {v w : α} (h : Sub l m) (e : v = w) : Sub (l ++ [v]) (m ++ [w]) :=
  e ▸ sub_snoc h
grind_pattern sub_snoc' => Sub (l ++ [v]) (m ++ [w])

theorem sub_right {l m : List α} {v : α} (h : Sub l m) : Sub l (m ++ [v]) :=
  ⟨h.out.trans (List.sublist_append_left _ _)⟩

theorem sub_left {l m : List α} {v : α} (h : Sub (l ++ [v]) m) : Sub l m :=
  ⟨(List.sublist_append_left _ _).trans h.out⟩

/-- Invariant of the proofs; models no code. -/
structure InvV (s : St α ε) : Prop where
  c1 : Sub (chosen s.log) (arrivals s.log)
  c2 : ∀ v, s.value = some v → Sub (chosen s.log ++ [v]) (arrivals s.log)
  v1 : Sub (values s.log) (chosen s.log)
  v2 : ∀ i v, s.calls i = .flushed v → Sub (values s.log ++ [v]) (chosen s.log)
  v3 : ∀ t v, (s.tasks t).val? = some v → s.log.any Ev.isFlush = false →
    Sub (values s.log ++ [v]) (chosen s.log)
  fl : s.log.any Ev.isFlush = true → s.gone = true ∨
    (s.lock ≠ none ∧ (∀ t, s.lock ≠ some (.task t)) ∧ ∀ i, s.lock = some (.call i) → (s.calls i).past = true)
  eq1 : ∀ t v, (s.tasks t).val? = some v → s.gone = false → s.log.any Ev.isFlush = false →
    chosen s.log = values s.log ++ [v]
  eq2 : (∀ t, (s.tasks t).val? = none) → s.gone = false → s.log.any Ev.isFlush = false →
    chosen s.log = values s.log
  w0 : (∀ t, (s.tasks t).way = false) → onWay s.log = 0
  w1 : ∀ t, (s.tasks t).way = true → onWay s.log = 1
  fp : ∀ i v, s.calls i = .flushed v → s.log.any Ev.isFlush = true

set_option maxHeartbeats 2000000 in
theorem InvV.tr {d} {s s' : St α ε} (h : InvV s) (hL : InvL s) (t : Tr d s s') : InvV s' := by
  obtain ⟨h1, h2, h3, h4, h5, h6, h7, h8, h9, h10, h11⟩ := h
  have hfr := hL.fr s.fresh (Nat.le_refl _)
  obtain ⟨l1, l2, l3, l4, l5, l6, -, l8, -⟩ := hL
  have hva : ∀ t v, (s.tasks t).val? = some v → (s.tasks t).active = true := by
    intro t v; cases s.tasks t <;> simp [TPc.val?, TPc.active]
  have hwa : ∀ t, (s.tasks t).way = true → (s.tasks t).active = true := by
    intro t; cases s.tasks t <;> simp [TPc.way, TPc.active]
  have hcf : ∀ i v, s.calls i = .flushed v → s.lock = some (.call i) := by
    intro i v h; exact l1 i (by rw [h]; rfl)
  have hbt : ∀ i x, s.calls i = .fire x → values [.beg x] = [] := by
    intro i x h
    have := l8 i
    rw [h] at this
    cases x <;> first | rfl | cases this
  cases t
  case take t tp v ht hd hv hn =>
    have hno : ∀ u, u ≠ t → (s.tasks u).active = false := by
      intro u hu
      have e1 := l5 t (by rw [ht]; rfl)
      cases hh : (s.tasks u).active
      · rfl
      · rw [l5 u hh] at e1; cases e1; exact absurd rfl hu
    have hnv : ∀ u, (s.tasks u).val? = none := by
      intro u
      by_cases hu : u = t
      · rw [hu, ht]; rfl
      · cases hh : (s.tasks u).val?
        · rfl
        · exact absurd (hno u hu) (by rw [hva _ _ hh]; simp)
    have hnw : ∀ u, (s.tasks u).way = false := by
      intro u
      by_cases hu : u = t
      · rw [hu, ht]; rfl
      · cases hh : (s.tasks u).way
        · rfl
        · exact absurd (hno u hu) (by rw [hwa _ hh]; simp)
    have hq := h9 hnw
    constructor <;> simp only [arrivals_append, chosen_append, values_append, onWay_append, List.any_append,
      arrivals, chosen, values, onWay, List.any_cons, List.any_nil, Ev.isFlush, Bool.or_false, List.append_nil]
    · exact h2 v hv
    · simp
    · exact sub_right h3
    · intro i w hw; exact sub_right (h4 i w hw)
    · intro u w hw _
      split at hw
      · cases hw; exact sub_snoc h3
      · rw [hnv u] at hw; cases hw
    · exact h6
    · intro u w hw hg hf
      split at hw
      · cases hw; rw [h8 hnv hg hf]
      · rw [hnv u] at hw; cases hw
    · intro hh; have := hh t; simp [TPc.val?] at this
    · intro hh; have := hh t; simp [TPc.way] at this
    · intro _ _; omega
    · exact h11
  all_goals
    constructor
    all_goals simp only [arrivals_append, chosen_append, values_append, onWay_append, List.any_append,
      Bool.or_eq_true, Bool.or_eq_false_iff] at *
    all_goals try simp only [arrivals, chosen, values, onWay, List.any_cons, List.any_nil,
      Ev.isFlush, Bool.or_false, or_false, or_true, and_true, List.append_nil] at *
    all_goals try generalize s.log.any Ev.isFlush = fb at *
    all_goals first
      | assumption
      | grind [CPc.holds, TPc.holds, CPc.termOk, TPc.active, TPc.val?, TPc.way, CPc.past, Item.term, sub_snoc', sub_right, sub_left]

theorem invV (d) (ls : List (Lbl α ε)) : InvV (exec d ls) := by
  refine (exec_induct d (P := fun s => InvL s ∧ InvV s) ⟨invL d [], ?_⟩
    (fun _ _ h t => ⟨h.1.tr t, h.2.tr h.1 t⟩) ls).2
  constructor <;> simp [arrivals, chosen, values, onWay, TPc.way, TPc.val?] <;> exact ⟨List.Sublist.refl _⟩

end Rpp.Time.Debounce
