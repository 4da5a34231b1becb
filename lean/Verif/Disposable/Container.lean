/-!
# Disposable containers (C52)

Models disposables/details/container.hpp: `dynamic_disposables_container_base` (20-58) and
`static_disposables_container<Count>` (70-160). The static container is modelled at the level of its raw
storage: each slot is raw bytes, a live wrapper or a moved-from wrapper, and reading, assigning to or
destroying a raw slot, constructing into an occupied slot, or touching a slot outside the array is undefined
behaviour (`none`). Wrappers are compared by identity (disposable_wrapper.hpp 47); a moved-from wrapper is
empty. Move construction/assignment of the container itself (78-94) is not modelled.
-/

namespace Rpp.Container

/-- One element of `m_data` (line 158). (disposables/details/container.hpp 21-160) -/
inductive Slot where
  | raw | moved | live (d : Nat)
deriving DecidableEq, Repr

/-- `m_data`, `m_size`. (disposables/details/container.hpp 21-160) -/
structure Static where
  data : Nat → Slot := fun _ => .raw
  size : Nat := 0

/-- Overwrite one slot of `m_data` (disposables/details/container.hpp 158). -/
def set (m : Nat → Slot) (i : Nat) (x : Slot) : Nat → Slot := fun j => if j = i then x else m j

/-- The operations of a container. (disposables/details/container.hpp 21-160) -/
inductive Op where
  | push (d : Nat) | remove (d : Nat) | dispose | clear
deriving DecidableEq, Repr

/-- Observable outcome: normal return with the children disposed by the call (in order), or a throw of
`more_disposables_than_expected`. (disposables/details/container.hpp 21-160) -/
inductive Out where
  | ok (disposed : List Nat) | threw
deriving DecidableEq, Repr

/-- `push_back`, lines 101-113. -/
def push (count : Nat) (s : Static) (d : Nat) : Option (Static × Out) :=
  if s.size ≥ count then some (s, .threw)
  else match s.data s.size with
    | .raw => some (⟨set s.data s.size (.live d), s.size + 1⟩, .ok [])
    | _ => none

/-- The inner loop of `remove`, lines 125-126, from index `j`. -/
def shift (m : Nat → Slot) (j size : Nat) : Option (Nat → Slot) :=
  if j < size then
    match m j, m (j - 1) with
    | .raw, _ => none
    | _, .raw => none
    | x, _ => shift (set (set m (j - 1) x) j .moved) (j + 1) size
  else some m
termination_by size - j

/-- The loop of `remove`, lines 117-129, from index `i`. -/
def removeLoop (m : Nat → Slot) (i size d : Nat) : Option Static :=
  if i < size then
    match m i with
    | .raw => none
    | x =>
      if x ≠ .live d then removeLoop m (i + 1) size d
      else match shift m (i + 1) size with
        | none => none
        | some m' => match m' (size - 1) with
          | .raw => none
          | _ => removeLoop (set m' (size - 1) .raw) i (size - 1) d
  else some ⟨m, size⟩
termination_by size - i

/-- The loop of `dispose`, lines 134-137, from index `i`, collecting what it disposes. -/
def disposeLoop (m : Nat → Slot) (i size : Nat) : Option (List Nat) :=
  if i < size then
    match m i with
    | .raw => none
    | .moved => disposeLoop m (i + 1) size
    | .live d => (disposeLoop m (i + 1) size).map (d :: ·)
  else some []
termination_by size - i

/-- The loop of `clear`, lines 142-143, from index `i`. -/
def clearLoop (m : Nat → Slot) (i size : Nat) : Option (Nat → Slot) :=
  if i < size then
    match m i with
    | .raw => none
    | _ => clearLoop (set m i .raw) (i + 1) size
  else some m
termination_by size - i

/-- One operation of `static_disposables_container<count>`. (disposables/details/container.hpp 21-160) -/
def stepS (count : Nat) (s : Static) : Op → Option (Static × Out)
  | .push d => push count s d
  | .remove d => (removeLoop s.data 0 s.size d).map (·, .ok [])
  | .dispose => (disposeLoop s.data 0 s.size).map fun l => (s, .ok l)
  | .clear => (clearLoop s.data 0 s.size).map fun m => (⟨m, 0⟩, .ok [])

/-- One operation of `dynamic_disposables_container` (28-54); the vector is a list. -/
def stepD (l : List Nat) : Op → List Nat × Out
  | .push d => (l ++ [d], .ok [])
  | .remove d => (l.filter (· ≠ d), .ok [])
  | .dispose => (l, .ok l)
  | .clear => ([], .ok [])

/-- A sequence of operations on the static container (`stepS`); no counterpart in /repo. -/
def runS (count : Nat) (s : Static) : List Op → Option (Static × List Out)
  | [] => some (s, [])
  | o :: os => do
    let (s, x) ← stepS count s o
    let (s, xs) ← runS count s os
    return (s, x :: xs)

/-- A sequence of operations on the dynamic container (`stepD`); no counterpart in /repo. -/
def runD (l : List Nat) : List Op → List Nat × List Out
  | [] => (l, [])
  | o :: os =>
    let (l, x) := stepD l o
    let (l, xs) := runD l os
    (l, x :: xs)

/-- The dynamic container if it refused to grow beyond `count` elements. -/
def stepB (count : Nat) (l : List Nat) : Op → List Nat × Out
  | .push d => if l.length ≥ count then (l, .threw) else (l ++ [d], .ok [])
  | o => stepD l o

/-- A sequence of operations on `stepB`; no counterpart in /repo. -/
def runB (count : Nat) (l : List Nat) : List Op → List Nat × List Out
  | [] => (l, [])
  | o :: os =>
    let (l, x) := stepB count l o
    let (l, xs) := runB count l os
    (l, x :: xs)

/-- The capacity is never exceeded when the dynamic container runs `os`. -/
def Fits (count : Nat) (l : List Nat) : List Op → Prop
  | [] => True
  | o :: os => (stepD l o).1.length ≤ count ∧ Fits count (stepD l o).1 os

/-! ## Proofs -/

/-- The static container holds the list `l`. -/
structure Rep (m : Nat → Slot) (size : Nat) (l : List Nat) : Prop where
  size : size = l.length
  live : ∀ i d, l[i]? = some d → m i = .live d
  raw : ∀ i, l.length ≤ i → m i = .raw

theorem shift_spec : ∀ (b : List Nat) (m : Nat → Slot) (i size : Nat), size = i + 1 + b.length →
    m i ≠ .raw → (∀ k d, b[k]? = some d → m (i + 1 + k) = .live d) →
    ∃ m', shift m (i + 1) size = some m' ∧ (∀ k d, b[k]? = some d → m' (i + k) = .live d) ∧
      m' (i + b.length) ≠ .raw ∧ (∀ j, j < i ∨ size ≤ j → m' j = m j) := by
  intro b
  induction b with
  | nil =>
    intro m i size hs hi _
    refine ⟨m, ?_, by simp, by simpa using hi, fun _ _ => rfl⟩
    rw [shift, if_neg (by simp at hs; omega)]
  | cons x b ih =>
    intro m i size hs hi hb
    simp at hs
    have hx : m (i + 1) = .live x := hb 0 x rfl
    obtain ⟨m', h1, h2, h3, h4⟩ := ih (set (set m i (.live x)) (i + 1) .moved) (i + 1) size (by omega)
      (by simp [set]) (by
        intro k d hk
        have := hb (k + 1) d (by simpa using hk)
        simp only [set]
        rw [if_neg (by omega), if_neg (by omega)]
        rw [← this]; congr 1; omega)
    refine ⟨m', ?_, ?_, ?_, ?_⟩
    · rw [shift, if_pos (by omega)]
      simp only [Nat.add_sub_cancel, hx]
      cases hmi : m i with
      | raw => exact absurd hmi hi
      | moved => exact h1
      | live y => exact h1
    · intro k d hk
      cases k with
      | zero =>
        simp at hk; subst hk
        have := h4 i (Or.inl (by omega))
        simp [set] at this
        simpa using this
      | succ k =>
        have := h2 k d (by simpa using hk)
        rw [← this]; congr 1; omega
    · have : i + (x :: b).length = i + 1 + b.length := by simp; omega
      rw [this]; exact h3
    · intro j hj
      rw [h4 j (by omega)]
      simp only [set]
      rw [if_neg (by omega), if_neg (by omega)]

theorem removeLoop_spec (d : Nat) : ∀ (b : List Nat) (a : List Nat) (m : Nat → Slot) (i size : Nat),
    i = a.length → Rep m size (a ++ b) →
    ∃ s, removeLoop m i size d = some s ∧ Rep s.data s.size (a ++ b.filter (· ≠ d)) := by
  intro b
  induction b with
  | nil =>
    intro a m i size hi hr
    refine ⟨⟨m, size⟩, ?_, by simpa using hr⟩
    have := hr.size
    rw [removeLoop, if_neg (by simp at this; omega)]
  | cons x b ih =>
    intro a m i size hi hr
    have hsz := hr.size
    simp at hsz
    have hx : m i = .live x := hr.live i x (by simp [hi])
    rw [removeLoop, if_pos (by omega)]
    simp only [hx]
    by_cases e : x = d
    · subst e
      simp only [ne_eq, not_true_eq_false, if_false]
      obtain ⟨m', h1, h2, h3, h4⟩ := shift_spec b m i size (by omega) (by simp [hx]) (by
        intro k d hk
        refine hr.live _ _ ?_
        rw [hi, List.getElem?_append_right (by omega)]
        have : a.length + 1 + k - a.length = k + 1 := by omega
        rw [this]; simpa using hk)
      rw [h1]
      have h5 : size - 1 = i + b.length := by omega
      simp only
      have hrep : Rep (set m' (size - 1) .raw) (size - 1) (a ++ b) := by
        constructor
        · simp; omega
        · intro j y hj
          have hjl := (List.getElem?_eq_some_iff.1 hj).1
          simp at hjl
          simp only [set]
          rw [if_neg (by omega)]
          by_cases hja : j < a.length
          · rw [h4 j (Or.inl (by omega))]
            refine hr.live _ _ ?_
            rw [List.getElem?_append_left hja] at hj ⊢; exact hj
          · rw [List.getElem?_append_right (by omega)] at hj
            have := h2 _ _ hj
            rw [← this]; congr 1; omega
        · intro j hj
          simp at hj
          simp only [set]
          split
          · rfl
          · rw [h4 j (Or.inr (by omega))]
            exact hr.raw j (by simp; omega)
      obtain ⟨s, h6, h7⟩ := ih a (set m' (size - 1) .raw) i (size - 1) hi hrep
      refine ⟨s, ?_, by simpa using h7⟩
      cases hm : m' (size - 1) with
      | raw => rw [h5] at hm; exact absurd hm h3
      | moved => exact h6
      | live y => exact h6
    · have he : Slot.live x ≠ Slot.live d := by simpa using e
      simp only [he, ne_eq, not_false_eq_true, if_true]
      obtain ⟨s, h6, h7⟩ := ih (a ++ [x]) m (i + 1) size (by simp [hi]) (by simpa using hr)
      refine ⟨s, h6, ?_⟩
      simpa [e] using h7

theorem disposeLoop_spec : ∀ (b a : List Nat) (m : Nat → Slot) (i size : Nat), i = a.length →
    Rep m size (a ++ b) → disposeLoop m i size = some b := by
  intro b
  induction b with
  | nil =>
    intro a m i size hi hr
    have := hr.size
    rw [disposeLoop, if_neg (by simp at this; omega)]
  | cons x b ih =>
    intro a m i size hi hr
    have hsz := hr.size
    simp at hsz
    have hx : m i = .live x := hr.live i x (by simp [hi])
    rw [disposeLoop, if_pos (by omega)]
    simp only [hx]
    rw [ih (a ++ [x]) m (i + 1) size (by simp [hi]) (by simpa using hr)]
    rfl

theorem clearLoop_spec : ∀ (b : List Nat) (m : Nat → Slot) (i size : Nat), size = i + b.length →
    (∀ k d, b[k]? = some d → m (i + k) = .live d) → (∀ j, j < i ∨ size ≤ j → m j = .raw) →
    ∃ m', clearLoop m i size = some m' ∧ ∀ j, m' j = .raw := by
  intro b
  induction b with
  | nil =>
    intro m i size hs _ hr
    refine ⟨m, by rw [clearLoop, if_neg (by simp at hs; omega)], fun j => hr j (by simp at hs; omega)⟩
  | cons x b ih =>
    intro m i size hs hl hr
    simp at hs
    have hx : m i = .live x := hl 0 x rfl
    rw [clearLoop, if_pos (by omega)]
    simp only [hx]
    refine ih _ (i + 1) size (by omega) ?_ ?_
    · intro k d hk
      have := hl (k + 1) d (by simpa using hk)
      simp only [set]
      rw [if_neg (by omega), ← this]; congr 1; omega
    · intro j hj
      simp only [set]
      split
      · rfl
      · exact hr j (by omega)

theorem step_spec (count : Nat) (s : Static) (l : List Nat) (h : Rep s.data s.size l) (o : Op) :
    ∃ s', stepS count s o = some (s', (stepB count l o).2) ∧ Rep s'.data s'.size (stepB count l o).1 ∧
      ((stepB count l o).2 = .threw → s' = s) := by
  have hsz := h.size
  cases o with
  | push d =>
    simp only [stepS, stepB, push]
    by_cases hc : s.size ≥ count
    · rw [if_pos hc, if_pos (by omega)]
      exact ⟨s, rfl, h, fun _ => rfl⟩
    · rw [if_neg hc, if_neg (by omega), h.raw s.size (by omega)]
      refine ⟨_, rfl, ?_, by simp⟩
      constructor
      · simp [hsz]
      · intro i x hi
        simp only [set]
        by_cases e : i = s.size
        · subst e
          rw [hsz] at hi; simp at hi; simp [hi]
        · rw [if_neg e]
          refine h.live _ _ ?_
          have := (List.getElem?_eq_some_iff.1 hi).1
          simp at this
          rw [List.getElem?_append_left (by omega)] at hi; exact hi
      · intro i hi
        simp at hi
        simp only [set]
        rw [if_neg (by omega)]
        exact h.raw i (by omega)
  | remove d =>
    obtain ⟨s', h1, h2⟩ := removeLoop_spec d l [] s.data 0 s.size rfl h
    exact ⟨s', by simp [stepS, h1, stepB, stepD], by simpa [stepB, stepD] using h2, by simp [stepB, stepD]⟩
  | dispose =>
    have h1 := disposeLoop_spec l [] s.data 0 s.size rfl h
    exact ⟨s, by simp [stepS, h1, stepB, stepD], h, fun _ => rfl⟩
  | clear =>
    obtain ⟨m', h1, h2⟩ := clearLoop_spec l s.data 0 s.size (by omega)
      (by intro k d hk; simpa using h.live k d hk) (by intro j hj; exact h.raw j (by omega))
    refine ⟨⟨m', 0⟩, by simp [stepS, h1, stepB, stepD], ?_, by simp [stepB, stepD]⟩
    exact ⟨rfl, by simp [stepB, stepD], fun i _ => h2 i⟩

theorem runS_spec (count : Nat) : ∀ (os : List Op) (s : Static) (l : List Nat), Rep s.data s.size l →
    ∃ s', runS count s os = some (s', (runB count l os).2) ∧ Rep s'.data s'.size (runB count l os).1 := by
  intro os
  induction os with
  | nil => intro s l h; exact ⟨s, rfl, h⟩
  | cons o os ih =>
    intro s l h
    obtain ⟨s1, h1, h2, _⟩ := step_spec count s l h o
    obtain ⟨s2, h3, h4⟩ := ih s1 _ h2
    exact ⟨s2, by simp [runS, h1, h3, runB], by simpa [runB] using h4⟩

theorem runB_fits (count : Nat) : ∀ (os : List Op) (l : List Nat), Fits count l os →
    runB count l os = runD l os := by
  intro os
  induction os with
  | nil => intro l _; rfl
  | cons o os ih =>
    intro l h
    have hs : stepB count l o = stepD l o := by
      cases o with
      | push d =>
        have := h.1
        simp [stepD] at this
        simp only [stepB, stepD]
        rw [if_neg (by omega)]
      | _ => rfl
    simp only [runB, runD, hs]
    rw [ih _ h.2]

/-! ## C52 -/

/-- C52: for every operation sequence that never exceeds the capacity, the fixed-capacity container has no
undefined behaviour and every call has the same outcome (return value and children disposed, in order) as for
the dynamic container. -/
theorem C52_static_like_dynamic (count : Nat) (os : List Op) (h : Fits count [] os) :
    ∃ s, runS count {} os = some (s, (runD [] os).2) := by
  obtain ⟨s, h1, _⟩ := runS_spec count os {} [] ⟨rfl, by simp, by simp⟩
  exact ⟨s, by rw [h1, runB_fits count os [] h]⟩

/-- C52: for every operation sequence, exceeding or not, there is no undefined behaviour and the container
behaves like a list that refuses to grow beyond the capacity. -/
theorem C52_static_bounded_list (count : Nat) (os : List Op) :
    ∃ s, runS count {} os = some (s, (runB count [] os).2) ∧ s.size = (runB count [] os).1.length ∧
      s.size ≤ count := by
  obtain ⟨s, h1, h2⟩ := runS_spec count os {} [] ⟨rfl, by simp, by simp⟩
  refine ⟨s, h1, h2.size, ?_⟩
  rw [h2.size]
  have : ∀ (os : List Op) (l : List Nat), l.length ≤ count → (runB count l os).1.length ≤ count := by
    intro os
    induction os with
    | nil => intro l h; exact h
    | cons o os ih =>
      intro l h
      refine ih _ ?_
      cases o with
      | push d => simp only [stepB]; split <;> simp <;> omega
      | remove d => exact Nat.le_trans (List.length_filter_le ..) h
      | dispose => exact h
      | clear => simp [stepB, stepD]
  exact this os [] (by simp)

/-- C52: after any operation sequence a push throws exactly when the container is full, and then changes
nothing. -/
theorem C52_push_throws_iff_full (count : Nat) (os : List Op) (d : Nat) (s : Static) (outs : List Out)
    (h : runS count {} os = some (s, outs)) :
    ∃ s' out, stepS count s (.push d) = some (s', out) ∧ (out = .threw ↔ s.size = count) ∧
      (out = .threw → s' = s) ∧ (out ≠ .threw → s'.size = s.size + 1) := by
  obtain ⟨s0, h1, h2, h3⟩ := C52_static_bounded_list count os
  obtain ⟨s1, h4, h5⟩ := runS_spec count os {} [] ⟨rfl, by simp, by simp⟩
  rw [h] at h1 h4
  have e1 : s = s0 := by simpa using congrArg (fun x => x.map (·.1)) h1
  have e2 : s = s1 := by simpa using congrArg (fun x => x.map (·.1)) h4
  subst e1; subst e2
  obtain ⟨s', h6, h7, h8⟩ := step_spec count s _ h5 (.push d)
  refine ⟨s', _, h6, ?_, h8, ?_⟩
  · simp only [stepB]; split <;> simp <;> omega
  · intro hne
    rw [h7.size, h2]
    simp only [stepB] at hne ⊢
    split at hne
    · simp at hne
    · rename_i hc; rw [if_neg hc]; simp

example : Fits 2 [] [.push 1, .push 2, .remove 1, .push 3, .dispose] := by
  simp [Fits, stepD]
example : (runD [] [.push 1, .push 2, .remove 1, .push 3, .dispose]).2 =
    [.ok [], .ok [], .ok [], .ok [], .ok [2, 3]] := by decide
example : (runB 2 [] [.push 1, .push 2, .remove 1, .push 3, .dispose, .push 4]).2 =
    [.ok [], .ok [], .ok [], .ok [], .ok [2, 3], .threw] := by decide

end Rpp.Container
