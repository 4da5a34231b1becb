import Verif.Time.DelayProps

/-!
# C37: `observe_on` never overlaps callbacks — refuted, with what does hold

`observe_on` (delay.hpp with `ClearOnError`) calls `observer.on_error` from the source's thread
under `state->mutex` (delay.hpp 115-119), but the draining task calls `observer.on_next` after it
released that mutex (delay.hpp 152-159).  Hence the two may run at the same time.
-/

namespace Rpp.Time.Delay
variable {α ε : Type}

/-- Claim C37, first half: callbacks never overlap. -/
def NeverOverlaps (α ε : Type) : Prop := ∀ d (ls : List (Lbl α ε)), running (exec true d ls).log ≤ 1

/-- Claim C37, second half: no value is handed over after the error. -/
def ErrorIsLast (α ε : Type) : Prop := ∀ d (ls : List (Lbl α ε)), Last (exec true d ls).log

/-- `on_error` is called while `on_next` is running. -/
theorem C37_overlap_refutes : ¬ NeverOverlaps Nat Nat := by
  intro h
  have := h 0 [.arrive 0 (.val 7), .call 0, .call 0, .task 0, .task 0, .task 0,
    .arrive 0 (.err 1), .call 0, .call 0]
  revert this
  decide

/-- `on_next` is called while `on_error` is running: the value comes after the error. -/
theorem C37_precedes_refutes : ¬ ErrorIsLast Nat Nat := by
  intro h
  have := h 0 [.arrive 0 (.val 7), .call 0, .call 0, .task 0, .task 0,
    .arrive 0 (.err 1), .call 0, .call 0, .task 0] [] (.err 1, 0) [(.val 7, 0)] (by decide) rfl
  cases this

/-- The values handed over are the first ones that arrived, in the same order. -/
theorem C37_values_partial (d : Nat) (ls : List (Lbl α ε)) :
    values (delivered (exec true d ls).log) <+: values (arrivals (exec true d ls).log) := by
  obtain ⟨-, -, ⟨held, lost, hD⟩, -⟩ := all_inv true d ls
  generalize exec true d ls = s at *
  have h1 : ∀ l : List (Item α ε × Nat), values (l.filter (queued true)) = values l := by
    intro l
    induction l with
    | nil => rfl
    | cons b l ih =>
      rcases b with ⟨x, t⟩
      cases x <;> simp [queued, values, Item.isErr, ih]
  have h2 : ∀ l m : List (Item α ε × Nat), l.map (·.1) <+: m.map (·.1) → values l <+: values m := by
    intro l
    induction l with
    | nil => intros; simp [values]
    | cons b l ih =>
      intro m hm
      rcases m with _ | ⟨c, m⟩
      · simp at hm
      · simp only [List.map_cons, List.cons_prefix_cons] at hm
        have := ih m hm.2
        rcases b with ⟨x, t⟩
        rcases c with ⟨y, u⟩
        obtain ⟨h, -⟩ := hm
        simp only at h
        subst h
        cases x <;> simpa [values] using this
  rw [← h1 (delivered s.log)]
  exact h2 _ _ hD.mat.prefix

/-- Nothing is called after an error (or a completion) callback has returned. -/
theorem C37_after_terminal_partial (d : Nat) (ls : List (Lbl α ε)) (pre rest : List (Ev α ε))
    (x : Item α ε) (h : (exec true d ls).log = pre ++ .fin x :: rest) (hx : x.term = true) :
    delivered rest = [] :=
  log_after true d ls pre x rest h hx

/-- An error came in while a value was on its way from the queue to the observer. -/
def Raced (log : List (Ev α ε)) : Prop :=
  ∃ pre e t rest, log = pre ++ .failed e t :: rest ∧ onWay pre ≠ 0

theorem Raced.mono {log : List (Ev α ε)} (h : Raced log) (l) : Raced (log ++ l) := by
  obtain ⟨pre, e, t, rest, rfl, hw⟩ := h
  exact ⟨pre, e, t, rest ++ l, by simp, hw⟩

/-- While the error is being delivered no value is on its way, unless they raced. -/
def InvK (s : St α ε) : Prop := s.mutex ≠ none → Raced s.log ∨ ∀ t, (s.tasks t).busy = false

theorem InvK.tr {clr d} {s s' : St α ε} {a b w} (h : InvK s) (hr : InvR clr s a b w) (hf : InvF s)
    (t : Tr clr d s s') : InvK s' := by
  have hff := hf s.fresh (Nat.le_refl _)
  have hmono := fun l (h : Raced s.log) => h.mono l
  cases t
  case clear i e hi hm hc =>
    intro _
    by_cases hw : onWay s.log = 0
    · right
      intro t
      cases hb : (s.tasks t).busy
      · rfl
      · have := hr.w1 t hb
        have := hr.way
        omega
    · left
      exact ⟨s.log, e, s.now, [], rfl, hw⟩
  all_goals
    intro hmx
    simp only at hmx ⊢
    first
      | (exfalso; revert hmx; simp; done)
      | (exfalso; exact hmx ‹s.mutex = none›)
      | (rcases h hmx with hR | hN
         · first
             | exact .inl hR
             | exact .inl (hR.mono _)
             | exact .inl ((hR.mono _).mono _)
         · right; grind [TPc.busy])

theorem invK (clr d) (ls : List (Lbl α ε)) : InvK (exec clr d ls) := by
  refine (exec_induct clr d (P := fun s => InvK s ∧ InvF s ∧ (∃ own, InvO clr s own) ∧
    ∃ a b w, InvR clr s a b w) ?_ ?_ ls).1
  · obtain ⟨h1, h2, -, h4, -⟩ := all_inv (α := α) (ε := ε) clr d []
    exact ⟨fun h => absurd rfl h, h1, h2, h4⟩
  · rintro s s' ⟨h, hf, ⟨own, ho⟩, a, b, w, hr⟩ t
    exact ⟨h.tr hr hf t, hf.tr t, ho.tr hf t, hr.tr ho hf t⟩

/-- Unless an error comes in while a value is on its way, callbacks do not overlap. -/
theorem C37_serial_partial (d : Nat) (ls : List (Lbl α ε)) (h : ¬ Raced (exec true d ls).log) :
    running (exec true d ls).log = 0 ∨ running (exec true d ls).log = 1 := by
  obtain ⟨-, ⟨own, ho⟩, -, ⟨a, b, w, hr⟩, -⟩ := all_inv true d ls
  have hK := invK true d ls
  generalize exec true d ls = s at *
  have ha : a = 0 ∨ a = 1 ∧ s.mutex ≠ none := by
    by_cases hh : ∃ i e, s.calls i = .inErr e
    · obtain ⟨i, e, hi⟩ := hh
      exact .inr ⟨hr.a1 i e hi, by rw [ho.mtx i (by rw [hi]; rfl)]; simp⟩
    · exact .inl (hr.a0 fun i e hi => hh ⟨i, e, hi⟩)
  have hb : b = 0 ∨ b = 1 ∧ ∃ t, (s.tasks t).busy = true := by
    by_cases hh : ∃ t x, s.tasks t = .inCall x
    · obtain ⟨t, x, h⟩ := hh
      exact .inr ⟨hr.b1 t x h, t, by rw [h]; rfl⟩
    · exact .inl (hr.b0 fun t x h => hh ⟨t, x, h⟩)
  have := hr.run
  rcases ha with ha | ⟨ha, hm⟩ <;> rcases hb with hb | ⟨hb, t, ht⟩
  · omega
  · omega
  · omega
  · rcases hK hm with hR | hN
    · exact absurd hR h
    · rw [hN t] at ht; cases ht

theorem Last.tr' {d} {s s' : St α ε} {own} (h : Last s.log) (hT : InvT s) (hK : InvK s)
    (hR : ¬ Raced s.log) (ho : InvO true s own) (t : Tr true d s s') : Last s'.log := by
  have hsnoc : ∀ x u, anyTerm s.log = false → Last (s.log ++ [.beg x u]) := by
    intro x u hno pre b rest hp hb
    simp only [delivered_append, delivered] at hp
    rcases List.eq_nil_or_concat rest with rfl | ⟨r, c, rfl⟩
    · rfl
    · exfalso
      have : delivered s.log = pre ++ b :: r := by
        have hp' : delivered s.log ++ [(x, u)] = (pre ++ b :: r) ++ [c] := by simpa using hp
        exact (List.append_inj' hp' rfl).1
      simp [anyTerm, this, hb] at hno
  have htc : ∀ u, (s.tasks u).termCall = true → (s.tasks u).live = true ∧ (s.tasks u).busy = true := by
    intro u; cases s.tasks u <;> simp [TPc.termCall, TPc.live, TPc.busy]
  have hcl : ∀ i, (s.calls i).errCall = true → (s.calls i).locks = true := by
    intro i; cases s.calls i <;> simp [CPc.errCall, CPc.locks]
  cases t
  case beg t x tp ht hd =>
    apply hsnoc
    cases hb : anyTerm s.log
    · rfl
    · rcases hT.t1 hb hd with ⟨u, hu⟩ | ⟨i, hi⟩
      · have := ho.hold_unique (htc u hu).1 (u := t) (by rw [ht]; rfl)
        subst this; rw [ht] at hu; cases hu
      · have hm := ho.mtx i (hcl i hi)
        rcases hK (by rw [hm]; simp) with h | h
        · exact absurd h hR
        · have := h t; rw [ht] at this; cases this
  case errBeg i e hi hd =>
    apply hsnoc
    have hm := ho.mtx i (by rw [hi]; rfl)
    cases hb : anyTerm s.log
    · rfl
    · rcases hT.t1 hb hd with ⟨u, hu⟩ | ⟨j, hj⟩
      · rcases hK (by rw [hm]; simp) with h | h
        · exact absurd h hR
        · have := h u; rw [(htc u hu).2] at this; cases this
      · have hm' := ho.mtx j (hcl j hj)
        rw [hm] at hm'; cases hm'
        rw [hi] at hj; cases hj
  case fin t x ht => exact (h.snoc_other rfl).snoc_other rfl
  all_goals first | exact h | exact h.snoc_other rfl

/-- Unless an error comes in while a value is on its way, the error is the last callback. -/
theorem C37_terminal_last_partial (d : Nat) (ls : List (Lbl α ε)) (h : ¬ Raced (exec true d ls).log) :
    Last (exec true d ls).log := by
  refine (exec_induct true d (P := fun s => (¬ Raced s.log → Last s.log) ∧ InvK s ∧ InvF s ∧
    (∃ own, InvO true s own) ∧ (∃ a b w, InvR true s a b w) ∧ InvT s) ?_ ?_ ls).1 h
  · obtain ⟨h1, h2, -, h4, h5⟩ := all_inv (α := α) (ε := ε) true d []
    refine ⟨fun _ => ?_, fun h => absurd rfl h, h1, h2, h4, h5⟩
    intro pre b rest h
    simp [delivered] at h
  · rintro s s' ⟨h, hK, hf, ⟨own, ho⟩, ⟨a, b, w, hr⟩, hT⟩ t
    refine ⟨fun hR => ?_, hK.tr hr hf t, hf.tr t, ho.tr hf t, hr.tr ho hf t, hT.tr ho hf t⟩
    have hR' : ¬ Raced s.log := by
      intro h0; apply hR
      cases t
      case fin => exact (h0.mono _).mono _
      all_goals first | exact h0 | exact h0.mono _
    exact (h hR').tr' hT hK hR' ho t

/-- Splitting a log that grew by one event. -/
theorem split_snoc {l pre rest : List (Ev α ε)} {e f : Ev α ε} (h : l ++ [e] = pre ++ f :: rest) :
    (e = f ∧ rest = [] ∧ l = pre) ∨ ∃ r, rest = r ++ [e] ∧ l = pre ++ f :: r := by
  rcases List.eq_nil_or_concat rest with rfl | ⟨r, c, rfl⟩
  · left
    have := List.append_inj' h rfl
    exact ⟨by simpa using this.2, rfl, this.1⟩
  · right
    have he' : l ++ [e] = (pre ++ f :: r) ++ [c] := by simpa using h
    have := List.append_inj' he' rfl
    exact ⟨r, by simpa using this.2.symm, this.1⟩

/-- After an error, only the item that was on its way can still be handed over. -/
structure InvX (s : St α ε) : Prop where
  x1 : ∀ pre e t rest, s.log = pre ++ .failed e t :: rest →
    ((drained true rest).length : Int) ≤ onWay pre
  x2 : ∀ pre e t rest, s.log = pre ++ .failed e t :: rest → s.disposed = false →
    ∀ u x tp, s.tasks u = .hold x tp → ((drained true rest).length : Int) + 1 ≤ onWay pre

theorem failed_any {s : St α ε} {pre e t rest} (h : s.log = pre ++ .failed e t :: rest) :
    s.log.any Ev.isFailed = true := by
  rw [h]; simp [Ev.isFailed]

theorem InvX.tr {d} {s s' : St α ε} {own a b w held lost} (h : InvX s) (hT : InvT s)
    (hD : InvD true d s held lost)
    (ho : InvO true s own) (hr : InvR true s a b w) (hf : InvF s) (t : Tr true d s s') : InvX s' := by
  have hff := hf s.fresh (Nat.le_refl _)
  obtain ⟨h1, h2⟩ := h
  have hw0 : 0 ≤ onWay s.log := by
    rw [hr.way]
    by_cases hh : ∃ t, (s.tasks t).busy = true
    · obtain ⟨t, ht⟩ := hh; rw [hr.w1 t ht]; omega
    · rw [hr.w0 (fun t => by cases hb : (s.tasks t).busy; rfl; exact absurd ⟨t, hb⟩ hh)]; omega
  have hfail : ∀ {pre e t rest}, s.log = pre ++ .failed e t :: rest → s.disposed = false →
      s.mutex ≠ none := fun h hd => hT.t5 (failed_any h) hd
  cases t
  case clear i e hi hm hc =>
    constructor
    · intro pre e' t' rest hl
      rcases split_snoc hl with ⟨h3, h4, h5⟩ | ⟨r, rfl, h4⟩
      · subst h4 h5; simpa [drained, delivered] using hw0
      · simpa [drained_append, drained_failed] using h1 _ _ _ _ h4
    · intro pre e' t' rest hl hd u x tp hu
      rcases split_snoc hl with ⟨h3, h4, h5⟩ | ⟨r, rfl, h4⟩
      · subst h4 h5
        have := hr.w1 u (by simp only at hu; rw [hu]; rfl)
        have := hr.way
        simp [drained, delivered]; omega
      · exact absurd hm (hfail h4 hd)
  case take t x tp q ht hm hq hn =>
    constructor
    · intro pre e' t' rest hl
      rcases split_snoc hl with ⟨h3, h4, h5⟩ | ⟨r, rfl, h4⟩
      · cases h3
      · simpa [drained_append, drained_took] using h1 _ _ _ _ h4
    · intro pre e' t' rest hl hd u y up hu
      rcases split_snoc hl with ⟨h3, h4, h5⟩ | ⟨r, rfl, h4⟩
      · cases h3
      · exact absurd hm (hfail h4 hd)
  case beg t x tp ht hd =>
    have hq : queued true (x, s.now) = true := by
      have hh := hD.heldT t x tp ht hd
      have := hD.nerr (x, tp) (by rw [hh]; simp)
      simpa [queued] using this
    constructor
    · intro pre e' t' rest hl
      rcases split_snoc hl with ⟨h3, h4, h5⟩ | ⟨r, rfl, h4⟩
      · cases h3
      · have := h2 _ _ _ _ h4 hd t x tp ht
        rw [drained_append, drained_beg _ _ _ hq]
        simpa using this
    · intro pre e' t' rest hl _ u y up hu
      by_cases hut : u = t
      · simp [hut] at hu
      · simp only [hut, if_false] at hu
        exact absurd (ho.hold_unique (t := u) (u := t) (by rw [hu]; rfl) (by rw [ht]; rfl)) hut
  case errBeg i e hi hd =>
    constructor
    · intro pre e' t' rest hl
      rcases split_snoc hl with ⟨h3, h4, h5⟩ | ⟨r, rfl, h4⟩
      · cases h3
      · rw [drained_append, drained_err]; simpa using h1 _ _ _ _ h4
    · intro pre e' t' rest hl hd u y up hu
      rcases split_snoc hl with ⟨h3, h4, h5⟩ | ⟨r, rfl, h4⟩
      · cases h3
      · rw [drained_append, drained_err]; simpa using h2 _ _ _ _ h4 hd u y up hu
  case fin t x ht =>
    constructor
    · intro pre e' t' rest hl
      rcases split_snoc hl with ⟨h3, h4, h5⟩ | ⟨r, rfl, h4⟩
      · cases h3
      · rcases split_snoc h4 with ⟨h3, h4, h5⟩ | ⟨r', rfl, h5⟩
        · cases h3
        · simpa [drained, delivered_append, delivered] using h1 _ _ _ _ h5
    · intro pre e' t' rest hl hd u y up hu
      simp only [Bool.or_eq_false_iff] at hd
      rcases split_snoc hl with ⟨h3, h4, h5⟩ | ⟨r, rfl, h4⟩
      · cases h3
      · rcases split_snoc h4 with ⟨h3, h4, h5⟩ | ⟨r', rfl, h5⟩
        · cases h3
        · have : s.tasks u = .hold y up := by grind
          simpa [drained, delivered_append, delivered] using h2 _ _ _ _ h5 hd.1 u y up this
  case skip t x tp ht hd =>
    constructor
    · intro pre e' t' rest hl
      rcases split_snoc hl with ⟨h3, h4, h5⟩ | ⟨r, rfl, h4⟩
      · cases h3
      · simpa [drained_append, drained_left] using h1 _ _ _ _ h4
    · intro pre e' t' rest hl hd' u y up hu
      simp [hd] at hd'
  case errFin i e hi =>
    constructor
    · intro pre e' t' rest hl
      rcases split_snoc hl with ⟨h3, h4, h5⟩ | ⟨r, rfl, h4⟩
      · cases h3
      · simpa [drained_append, drained_fin] using h1 _ _ _ _ h4
    · intro pre e' t' rest hl hd' u y up hu
      simp at hd'
  case dispose =>
    constructor
    · intro pre e' t' rest hl
      rcases split_snoc hl with ⟨h3, h4, h5⟩ | ⟨r, rfl, h4⟩
      · cases h3
      · simpa [drained_append, drained_gone] using h1 _ _ _ _ h4
    · intro pre e' t' rest hl hd' u y up hu
      simp at hd'
  case push i x hi hm hc ha =>
    constructor
    · intro pre e' t' rest hl
      rcases split_snoc hl with ⟨h3, h4, h5⟩ | ⟨r, rfl, h4⟩
      · cases h3
      · simpa [drained_append, drained_arrived] using h1 _ _ _ _ h4
    · intro pre e' t' rest hl hd u y up hu
      rcases split_snoc hl with ⟨h3, h4, h5⟩ | ⟨r, rfl, h4⟩
      · cases h3
      · exact absurd hm (hfail h4 hd)
  case pushSched i x hi hm hc ha =>
    constructor
    · intro pre e' t' rest hl
      rcases split_snoc hl with ⟨h3, h4, h5⟩ | ⟨r, rfl, h4⟩
      · cases h3
      · simpa [drained_append, drained_arrived] using h1 _ _ _ _ h4
    · intro pre e' t' rest hl hd u y up hu
      rcases split_snoc hl with ⟨h3, h4, h5⟩ | ⟨r, rfl, h4⟩
      · cases h3
      · exact absurd hm (hfail h4 hd)
  all_goals
    refine ⟨h1, ?_⟩
    intro pre e' t' rest hl hd u y up hu
    refine h2 pre e' t' rest hl (by first | exact hd | simp_all) u y up (by simp only at hu; grind)

/-- An error cancels everything that is waiting: afterwards at most the value that was on its way
is still handed over. -/
theorem C37_cancels_partial (d : Nat) (ls : List (Lbl α ε)) (pre rest : List (Ev α ε)) (e : ε) (t : Nat)
    (h : (exec true d ls).log = pre ++ .failed e t :: rest) :
    ((values (delivered rest)).length : Int) ≤ onWay pre ∧ onWay pre ≤ 1 := by
  have hX : InvX (exec true d ls) := by
    refine (exec_induct true d (P := fun s => InvX s ∧ InvF s ∧ (∃ own, InvO true s own) ∧
      (∃ held lost, InvD true d s held lost) ∧ (∃ a b w, InvR true s a b w) ∧ InvT s) ?_ ?_ ls).1
    · refine ⟨?_, all_inv (α := α) (ε := ε) true d []⟩
      constructor <;> simp
    · rintro s s' ⟨h, hf, ⟨own, ho⟩, ⟨held, lost, hD⟩, ⟨a, b, w, hr⟩, hT⟩ t
      exact ⟨h.tr hT hD ho hr hf t, hf.tr t, ho.tr hf t, hD.tr ho hf t, hr.tr ho hf t, hT.tr ho hf t⟩
  have hle : ∀ l : List (Item α ε × Nat), (values l).length ≤ (l.filter (queued true)).length := by
    intro l
    induction l with
    | nil => simp [values]
    | cons b l ih =>
      rcases b with ⟨x, t⟩
      cases x <;> simp [queued, values, Item.isErr] at ih ⊢ <;> omega
  have h1 := hX.x1 pre e t rest h
  refine ⟨by have := hle (delivered rest); simp only [drained] at h1; omega, ?_⟩
  suffices hp : ∀ pre rest, (exec true d ls).log = pre ++ rest → onWay pre ≤ 1 from hp pre _ h
  refine (exec_induct true d (P := fun s => (∀ pre rest, s.log = pre ++ rest → onWay pre ≤ 1) ∧
    InvF s ∧ (∃ own, InvO true s own) ∧ ∃ a b w, InvR true s a b w) ?_ ?_ ls).1
  · obtain ⟨h1, h2, -, h4, -⟩ := all_inv (α := α) (ε := ε) true d []
    refine ⟨?_, h1, h2, h4⟩
    intro pre rest hp
    have := congrArg List.length hp
    simp at this
    rw [List.eq_nil_of_length_eq_zero (l := pre) (by omega)]; simp [onWay]
  · rintro s s' ⟨h, hf, ⟨own, ho⟩, a, b, w, hr⟩ t
    have hr' := hr.tr ho hf t
    refine ⟨?_, hf.tr t, ho.tr hf t, hr'⟩
    obtain ⟨a', b', w', hr'⟩ := hr'
    have hall : onWay s'.log ≤ 1 := by
      rw [hr'.way]
      by_cases hh : ∃ t, (s'.tasks t).busy = true
      · obtain ⟨t, ht⟩ := hh; rw [hr'.w1 t ht]; omega
      · rw [hr'.w0 (fun t => by cases hb : (s'.tasks t).busy; rfl; exact absurd ⟨t, hb⟩ hh)]; omega
    have hsn : ∀ (l : List (Ev α ε)) e, (∀ pre rest, l = pre ++ rest → onWay pre ≤ 1) →
        onWay (l ++ [e]) ≤ 1 → ∀ pre rest, l ++ [e] = pre ++ rest → onWay pre ≤ 1 := by
      intro l e hl he pre rest hp
      rcases List.eq_nil_or_concat rest with rfl | ⟨r, c, rfl⟩
      · rw [List.append_nil] at hp; rw [← hp]; exact he
      · have hp' : l ++ [e] = (pre ++ r) ++ [c] := by simpa using hp
        exact hl pre r (List.append_inj' hp' rfl).1
    cases t
    case fin t x ht =>
      refine hsn _ _ (hsn _ _ h ?_) hall
      rw [onWay_append]
      have := h s.log [] (by simp)
      simpa [onWay] using this
    all_goals first | exact h | exact hsn _ _ h hall

/-- Without a race: a run in which the error comes while two values wait in the queue. -/
def calm : List (Lbl Nat Nat) :=
  [.arrive 0 (.val 7), .call 0, .call 0, .task 0, .task 0, .task 0, .task 0,
   .arrive 0 (.val 8), .call 0, .arrive 0 (.val 9), .call 0, .arrive 0 (.err 1), .call 0, .call 0, .call 0]

example : delivered (exec true 0 calm).log = [(.val 7, 0), (.err 1, 0)] ∧
    arrivals (exec true 0 calm).log = [(.val 7, 0), (.val 8, 0), (.val 9, 0)] := by decide

theorem raced_check {log : List (Ev α ε)} (n : Nat)
    (hn : log.findIdx? Ev.isFailed = some n) (hw : onWay (log.take n) = 0)
    (hr : (log.drop (n + 1)).any Ev.isFailed = false) : ¬ Raced log := by
  rintro ⟨pre, e, t, rest, rfl, h⟩
  rw [List.findIdx?_eq_some_iff_getElem] at hn
  obtain ⟨hlt, hf, hb⟩ := hn
  have hlen : n = pre.length := by
    rcases Nat.lt_trichotomy n pre.length with h1 | h1 | h1
    · exfalso
      have : (pre ++ .failed e t :: rest).drop (n + 1) = pre.drop (n + 1) ++ .failed e t :: rest := by
        rw [List.drop_append_of_le_length (by omega)]
      rw [this] at hr
      simp [Ev.isFailed] at hr
    · exact h1
    · exfalso
      have := hb pre.length h1
      simp [Ev.isFailed] at this
  subst hlen
  simp at hw
  exact h hw

/-- `calm` meets the hypothesis of `C37_serial_partial` and `C37_terminal_last_partial`. -/
example : ¬ Raced (exec true 0 calm).log := raced_check 7 (by decide) (by decide) (by decide)

end Rpp.Time.Delay
