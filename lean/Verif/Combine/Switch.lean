import Verif.Combine.OperatorProofs

/-!
# switch_on_next

As a `Hub`: source 0 is the outer one, its values are the `opn` labels.
-/

namespace Rpp.Comb

variable {α ε : Type}

/-- `cur`: the inner source whose reference (`m_last_refcount`) is not disposed; `outer`: `m_this_refcount` is not disposed. (operators/switch_on_next.hpp 21-135) -/
structure SwitchSt where
  cur : Option Nat
  outer : Bool

/-- operators/switch_on_next.hpp 57-77 (observer of an inner source: it is turned away by observer.hpp 84-144 once its reference is
disposed; the test comes before the mutex), 98-104 (`on_next` of the outer source: dispose the last reference, take a new
one, subscribe), 106-116.  The shared state is disposed when the last reference is (refcount_disposable.hpp 33-46), which is what
`on_completed` tests.  Simplified: disposing of a reference, the resulting release and the test of `is_disposed` are one step, and
so are disposing of the last reference and taking a new one; `Verif.Combine.SwitchFine` does without this. -/
def switchHub : Hub α α ε SwitchSt where
  start := [0]
  init := ⟨none, true⟩
  dyn := true
  opn k x := { x with cur := some k }
  act i c x :=
    if i = 0 then
      match c with
      | .next _ => (.silent, x)
      | .term .completed => (if x.cur.isNone then .out (.term .completed) else .silent, { x with outer := false })
      | .term (.error e) => (.out (.term (.error e)), x)
    else if x.cur = some i then
      match c with
      | .next v => (.out (.next v), x)
      | .term .completed => (if x.outer then .silent else .out (.term .completed), { x with cur := none })
      | .term (.error e) => (.out (.term (.error e)), x)
    else (.silent, x)
  early _ _ := true

/-- The inner source that arrived last. -/
def current (log : List (Ev α α ε)) : Option Nat := (log.filterMap fun | .opened k => some k | _ => none).getLast?

/-! ## Proofs -/

theorem current_snoc (log : List (Ev α α ε)) (ev : Ev α α ε) : current (log ++ [ev]) = match ev with | .opened k => some k | _ => current log := by
  unfold current
  rw [List.filterMap_append]
  cases ev <;> simp

theorem current_opened {log : List (Ev α α ε)} {k : Nat} (h : current log = some k) : .opened k ∈ log := by
  have := List.mem_of_getLast? h
  rw [List.mem_filterMap] at this
  obtain ⟨ev, h1, h2⟩ := this
  cases ev <;> simp at h2
  subst h2; exact h1

theorem sw_nothrow {log : List (Ev α α ε)} (h : Legal switchHub log) (i : Nat) (e : ε) : .actE i e ∉ log := by
  intro hm
  obtain ⟨p, q, he⟩ := List.append_of_mem hm
  obtain ⟨_, _, c, _, _, _, hh⟩ := h p _ q he
  simp only [switchHub] at hh
  split at hh
  · rcases c with v | _ | _ <;> simp only at hh
    · cases hh
    · cases hh
    · split at hh <;> cases hh
  · split at hh
    · rcases c with v | _ | _ <;> simp only at hh
      · cases hh
      · cases hh
      · split at hh <;> cases hh
    · cases hh

theorem legal_recv_opened {log : List (Ev α α ε)} (h : Legal switchHub log) {i : Nat} {c : Sig α ε} (hr : .recv i c ∈ log) (hi : i ≠ 0) : .opened i ∈ log := by
  obtain ⟨p, q, he⟩ := List.append_of_mem hr
  rcases (h p _ q he).1 with h1 | h1
  · simp [switchHub, hi] at h1
  · rw [he]; exact List.mem_append_left _ h1

theorem legal_act_recv {H : Hub α α ε σ} {log : List (Ev α α ε)} (h : Legal H log) {i : Nat} {c : Sig α ε} (hr : .act i c ∈ log) : .recv i c ∈ log := by
  obtain ⟨p, q, he⟩ := List.append_of_mem hr
  rw [he]; exact List.mem_append_left _ (h p _ q he)

theorem legal_act_opened {log : List (Ev α α ε)} (h : Legal switchHub log) {i : Nat} {c : Sig α ε} (hr : .act i c ∈ log) (hi : i ≠ 0) : .opened i ∈ log :=
  legal_recv_opened h (legal_act_recv h hr) hi

/-- Invariant of the proofs; models no code. -/
structure SwInv (log : List (Ev α α ε)) : Prop where
  cur : ∀ k, (replay switchHub log).2.cur = some k ↔ current log = some k ∧ .act k (.term .completed) ∉ log
  outer : (replay switchHub log).2.outer = true ↔ .act 0 (.term .completed) ∉ log
  sub : ∀ i, sigVals (ofSrc i (replay switchHub log).1) <+: sigVals (processed i log)
  exact : ∀ i, current log = some i → sigVals (ofSrc i (replay switchHub log).1) = sigVals (processed i log)
  err : ∀ i e, (i = 0 ∨ current log = some i) → .act i (.term (.error e)) ∈ log → (i, .term (.error e)) ∈ (replay switchHub log).1
  comp : .act 0 (.term .completed) ∈ log → (∀ k, current log = some k → .act k (.term .completed) ∈ log) →
    ∃ i, (i, .term .completed) ∈ (replay switchHub log).1

theorem processed_nil {log : List (Ev α α ε)} {i : Nat} (h : ∀ c, .act i c ∉ log) : processed i log = [] := by
  rcases hp : processed i log with _ | ⟨c, l⟩
  · rfl
  · exact absurd (mem_processed.1 (by rw [hp]; simp)) (h c)

theorem current_ne_zero {log : List (Ev α α ε)} (h : Legal switchHub log) {k : Nat} (hk : current log = some k) : k ≠ 0 := by
  rintro rfl
  obtain ⟨p, q, he⟩ := List.append_of_mem (current_opened hk)
  exact (h p _ q he).1 (by simp [switchHub])

theorem sw_made (log : List (Ev α α ε)) (h : Legal switchHub log) (hT : ∀ i a b t, processed i log = a ++ .term t :: b → b = []) : SwInv log := by
  induction log using snocInduct with
  | h0 => constructor <;> simp [replay, switchHub, current, ofSrc, sigVals]
  | hs l ev ih =>
    have hE := sw_nothrow h
    have hT' : ∀ i a b t, processed i l = a ++ .term t :: b → b = [] := by
      intro i a b t hab
      have h' := hT i
      rw [processed_snoc, hab] at h'
      have := h' a (b ++ _) t (by rw [List.append_assoc]; rfl)
      exact (List.append_eq_nil_iff.1 this).1
    obtain ⟨hL, hO⟩ := h.init
    obtain ⟨ih1, ih2, ih3, ih4, ih5, ih6⟩ := ih hL hT'
    have hz : ∀ k, current l = some k → k ≠ 0 := fun k => current_ne_zero hL
    have hnext : ∀ i v, ev = .act i (.next v) → ∀ t, .act i (.term t) ∉ l := by
      rintro i v rfl t hm
      obtain ⟨a, b, hab⟩ := List.append_of_mem (mem_processed.2 hm)
      have h' := hT i
      rw [processed_snoc, hab] at h'
      have := h' a (b ++ [.next v]) t (by simp)
      simp at this
    have hterm : ∀ i t, ev = .act i (.term t) → ∀ t', .act i (.term t') ∉ l := by
      rintro i v rfl t hm
      obtain ⟨a, b, hab⟩ := List.append_of_mem (mem_processed.2 hm)
      have h' := hT i
      rw [processed_snoc, hab] at h'
      have := h' a (b ++ [.term v]) t (by simp)
      simp at this
    have hop : ∀ k c, ev = .opened k → .act k c ∉ l := by
      rintro k c rfl hm
      by_cases h0 : k = 0
      · subst h0; exact hO.1 (by simp [switchHub])
      · exact hO.2.1 (legal_act_opened hL hm h0)
    have hop0 : ∀ k t, ev = .opened k → .act 0 (.term t) ∉ l := by
      rintro k t rfl hm
      exact hO.2.2 t (legal_act_recv hL hm)
    have hn := replay_snoc switchHub l ev
    generalize replay switchHub l = r at ih1 ih2 ih3 ih4 ih5 ih6 hn
    obtain ⟨outs, x⟩ := r
    simp only at ih1 ih2 ih3 ih4 ih5 ih6
    cases ev with
    | act i c =>
      by_cases h0 : i = 0
      · subst h0
        rcases c with v | e | _
        · have hn : replay switchHub (l ++ [.act 0 (.next v)]) = (outs, x) := by rw [hn]; simp only [replayStep, switchHub, if_true]
          refine ⟨?_, ?_, fun j => ?_, fun j => ?_, fun j e => ?_, ?_⟩ <;> rw [hn] <;> simp only [current_snoc, processed_snoc, List.mem_append, List.mem_singleton] <;> try simpa
          · split
            · exact (ih3 j).trans (by rw [sigVals_append]; exact List.prefix_append ..)
            · simpa using ih3 j
          · intro hj; rw [if_neg (hz j hj).symm]; simpa using ih4 j hj
          · rintro hj (hm | hm)
            · exact ih5 j e hj hm
            · cases hm
        · have hn : replay switchHub (l ++ [.act 0 (.term (.error e))]) = (outs ++ [(0, .term (.error e))], x) := by rw [hn]; simp only [replayStep, switchHub, if_true]
          refine ⟨?_, ?_, fun j => ?_, fun j => ?_, fun j e => ?_, ?_⟩ <;> rw [hn] <;> simp only [current_snoc, processed_snoc, List.mem_append, List.mem_singleton] <;> try simpa
          · rw [sigVals_ofSrc_append, sigVals_append, ofSrc_single]; split <;> simpa [sigVals] using ih3 j
          · intro hj; rw [sigVals_ofSrc_append, sigVals_append, ofSrc_single]; split <;> simpa [sigVals] using ih4 j hj
          · rintro hj (hm | hm)
            · exact .inl (ih5 j e hj hm)
            · cases hm; exact .inr rfl
        · have hn' : replay switchHub (l ++ [.act 0 (.term .completed)]) = (outs ++ (if x.cur.isNone then [(0, .term .completed)] else []), { x with outer := false }) := by
            rw [hn]; simp only [replayStep, switchHub, if_true]; cases x.cur <;> simp
          have hv : ∀ j, sigVals (ofSrc j (outs ++ (if x.cur.isNone then [(0, .term .completed)] else []))) = sigVals (ofSrc j outs) := by
            intro j; rw [sigVals_ofSrc_append]; split <;> simp [ofSrc, sigVals] <;> split <;> simp
          refine ⟨fun k => ?_, ?_, fun j => ?_, fun j => ?_, fun j e => ?_, ?_⟩ <;> rw [hn'] <;> simp only [current_snoc, processed_snoc, List.mem_append, List.mem_singleton]
          · rw [ih1]; simp; intro hk _ hk0; exact absurd hk0 (hz k hk)
          · simp
          · rw [hv, sigVals_append]; split <;> simpa [sigVals] using ih3 j
          · intro hj; rw [hv, sigVals_append]; split <;> simpa [sigVals] using ih4 j hj
          · rintro hj (hm | hm)
            · exact .inl (ih5 j e hj hm)
            · cases hm
          · intro _ hk
            have : x.cur = none := by
              rcases hc : x.cur with _ | k
              · rfl
              · obtain ⟨h1, h2⟩ := (ih1 k).1 hc
                rcases hk k h1 with h3 | h3
                · exact absurd h3 h2
                · simp at h3; exact absurd h3 (hz k h1)
            exact ⟨0, .inr (by simp [this])⟩
      · by_cases hc : x.cur = some i
        · have hcur := ((ih1 i).1 hc).1
          rcases c with v | e | _
          · have hn : replay switchHub (l ++ [.act i (.next v)]) = (outs ++ [(i, .next v)], x) := by
              rw [hn]; simp only [replayStep, switchHub, h0, if_false, hc, if_true]
            refine ⟨?_, ?_, fun j => ?_, fun j => ?_, fun j e => ?_, ?_⟩ <;> rw [hn] <;> simp only [current_snoc, processed_snoc, List.mem_append, List.mem_singleton] <;> try simpa
            · rw [sigVals_ofSrc_append, ofSrc_single, sigVals_append]
              split
              · next e => subst e; rw [ih4 i hcur]; exact List.prefix_refl _
              · simpa [sigVals] using ih3 j
            · intro hj; rw [sigVals_ofSrc_append, ofSrc_single, sigVals_append, ih4 j hj]
            · rintro hj (hm | hm)
              · exact .inl (ih5 j e hj hm)
              · cases hm
          · have hn : replay switchHub (l ++ [.act i (.term (.error e))]) = (outs ++ [(i, .term (.error e))], x) := by
              rw [hn]; simp only [replayStep, switchHub, h0, if_false, hc, if_true]
            refine ⟨?_, ?_, fun j => ?_, fun j => ?_, fun j e => ?_, ?_⟩ <;> rw [hn] <;> simp only [current_snoc, processed_snoc, List.mem_append, List.mem_singleton] <;> try simpa
            · rw [sigVals_ofSrc_append, sigVals_append, ofSrc_single]; split <;> simpa [sigVals] using ih3 j
            · intro hj; rw [sigVals_ofSrc_append, sigVals_append, ofSrc_single]; split <;> simpa [sigVals] using ih4 j hj
            · rintro hj (hm | hm)
              · exact .inl (ih5 j e hj hm)
              · cases hm; exact .inr rfl
          · have hn' : replay switchHub (l ++ [.act i (.term .completed)]) = (outs ++ (if x.outer then [] else [(i, .term .completed)]), { x with cur := none }) := by
              rw [hn]; simp only [replayStep, switchHub, h0, if_false, hc, if_true]; cases x.outer <;> simp
            have hv : ∀ j, sigVals (ofSrc j (outs ++ (if x.outer then [] else [(i, .term .completed)]))) = sigVals (ofSrc j outs) := by
              intro j; rw [sigVals_ofSrc_append]; split <;> simp [ofSrc, sigVals] <;> (try split) <;> simp
            refine ⟨fun k => ?_, ?_, fun j => ?_, fun j => ?_, fun j e => ?_, ?_⟩ <;> rw [hn'] <;> simp only [current_snoc, processed_snoc, List.mem_append, List.mem_singleton]
            · simp only [reduceCtorEq, false_iff, not_and, Classical.not_not]
              intro hk; rw [hcur] at hk; cases hk; exact .inr rfl
            · rw [ih2]; simp; intro _ h1; exact absurd h1.symm h0
            · rw [hv, sigVals_append]; split <;> simpa [sigVals] using ih3 j
            · intro hj; rw [hv, sigVals_append]; split <;> simpa [sigVals] using ih4 j hj
            · rintro hj (hm | hm)
              · exact .inl (ih5 j e hj hm)
              · cases hm
            · intro hm hk
              have : x.outer = false := by
                cases ho : x.outer
                · rfl
                · have := ih2.1 ho
                  rcases hm with hm | hm
                  · exact absurd hm this
                  · cases hm; exact absurd rfl h0
              exact ⟨i, .inr (by simp [this])⟩
        · have hn' : replay switchHub (l ++ [.act i c]) = (outs, x) := by
            rw [hn]; simp only [replayStep, switchHub, h0, if_false, hc]
          have hcc : current l = some i → .act i (.term .completed) ∈ l := fun hi => by
            refine Classical.byContradiction fun hx => hc ((ih1 i).2 ⟨hi, hx⟩)
          have hni : current l ≠ some i := by
            intro hi
            have := hcc hi
            cases c with
            | next v => exact hnext i v rfl _ this
            | term t => exact hterm i t rfl _ this
          refine ⟨fun k => ?_, ?_, fun j => ?_, fun j => ?_, fun j e => ?_, ?_⟩ <;> rw [hn'] <;> simp only [current_snoc, processed_snoc, List.mem_append, List.mem_singleton]
          · rw [ih1]
            refine ⟨fun ⟨h1, h2⟩ => ⟨h1, ?_⟩, fun ⟨h1, h2⟩ => ⟨h1, fun hx => h2 (.inl hx)⟩⟩
            rintro (hx | hx)
            · exact h2 hx
            · cases hx; exact hni h1
          · rw [ih2]
            refine ⟨fun h1 => ?_, fun h1 hx => h1 (.inl hx)⟩
            rintro (hx | hx)
            · exact h1 hx
            · cases hx; exact h0 rfl
          · refine (ih3 j).trans ?_
            rw [sigVals_append]; exact List.prefix_append ..
          · intro hj
            have : i ≠ j := by rintro rfl; exact hni hj
            rw [if_neg this, List.append_nil]; exact ih4 j hj
          · rintro hj (hm | hm)
            · exact ih5 j e hj hm
            · cases hm; rcases hj with hj | hj
              · exact absurd hj h0
              · exact absurd hj hni
          · intro hm hk
            refine ih6 ?_ fun k hk' => ?_
            · rcases hm with hm | hm
              · exact hm
              · cases hm; exact absurd rfl h0
            · rcases hk k hk' with hx | hx
              · exact hx
              · cases hx; exact absurd hk' hni
    | actE i e => exact absurd (by simp) (hE i e)
    | opened k =>
      have hn' : replay switchHub (l ++ [.opened k]) = (outs, { x with cur := some k }) := by
        rw [hn]; simp only [replayStep, switchHub]
      refine ⟨fun j => ?_, ?_, fun j => ?_, fun j => ?_, fun j e => ?_, ?_⟩ <;> rw [hn'] <;> simp only [current_snoc, processed_snoc, List.mem_append, List.mem_singleton]
      · simp; rintro rfl; exact hop _ _ rfl
      · rw [ih2]; simp
      · simpa using ih3 j
      · rintro hj; cases hj
        have hp := processed_nil fun c => hop k c rfl
        have := ih3 k
        rw [hp] at this ⊢
        simpa [sigVals] using this
      · rintro hj (hm | hm)
        · rcases hj with hj | hj
          · exact ih5 j e (.inl hj) hm
          · cases hj; exact absurd hm (hop _ _ rfl)
        · cases hm
      · rintro (hm | hm)
        · exact absurd hm (hop0 k _ rfl)
        · cases hm
    | _ => constructor <;> rw [hn] <;> simpa [replayStep, current_snoc, processed_snoc]

end Rpp.Comb
