import Verif.Core.Spec

/-!
# C05: re-entrant emission

A source that is re-entered by the very callback it is running (a subject whose `on_next` is called from
the subscriber, for instance) makes calls that are nested instead of serial. This file models the user's
observer once more, this time with nested calls.
-/

namespace Rpp.Reentry

/-- A call made on the observer together with everything the callback does if it runs: the nested calls
`kids`, in order, and for `on_next` a possible exception afterwards (whose `on_error` callback makes the
calls `errKids`). `dispose` is the user disposing the subscription. (observers/observer.hpp 84-145) -/
inductive Tree (α ε : Type) where
  | next (a : α) (kids : List (Tree α ε)) (throws : Option ε) (errKids : List (Tree α ε))
  | error (e : ε) (kids : List (Tree α ε))
  | completed (kids : List (Tree α ε))
  | dispose

/-- The disposed flag (observers/details/disposable_strategy.hpp 95) and the callbacks run, in the order
they started. -/
structure St (α ε : Type) where
  disposed : Bool := false
  log : List (Call α ε) := []

mutual
/-- `observer_impl` of a lambda observer (observers/observer.hpp 84-144, lambda_observer.hpp 19-40) with
nested calls: the flag is tested on entry and, for terminal calls, set only *after* the callback
(`finally_action`, lines 124-127 and 139-142). Simplification: no upstream disposables. -/
def exec : Tree α ε → St α ε → St α ε
  | .next a kids throws errKids, s =>
    if s.disposed then s else
      let s1 := execs kids { s with log := s.log ++ [.next a] }
      match throws with
      | none => s1
      | some e =>
        if s1.disposed then s1 else
          { execs errKids { s1 with log := s1.log ++ [.error e] } with disposed := true }
  | .error e kids, s =>
    if s.disposed then s else
      { execs kids { s with log := s.log ++ [.error e] } with disposed := true }
  | .completed kids, s =>
    if s.disposed then s else
      { execs kids { s with log := s.log ++ [.completed] } with disposed := true }
  | .dispose, s => { s with disposed := true }
/-- A sequence of calls. (observers/observer.hpp 84-145) -/
def execs : List (Tree α ε) → St α ε → St α ε
  | [], s => s
  | t :: ts, s => execs ts (exec t s)
end

mutual
/-- No *terminal* callback re-enters the observer (its nested actions are at most disposals). -/
def Tree.quietEnd : Tree α ε → Bool
  | .next _ kids _ errKids => quietEnds kids && onlyDispose errKids
  | .error _ kids => onlyDispose kids
  | .completed kids => onlyDispose kids
  | .dispose => true
/-- `Tree.quietEnd` for all calls of a list. -/
def quietEnds : List (Tree α ε) → Bool
  | [] => true
  | t :: ts => t.quietEnd && quietEnds ts
/-- Only disposals. -/
def onlyDispose : List (Tree α ε) → Bool
  | [] => true
  | .dispose :: ts => onlyDispose ts
  | _ :: _ => false
end

/-- Live states hold values only; every state obeys the grammar. -/
def Ok (s : St α ε) : Prop :=
  Grammar s.log ∧ (s.disposed = false → ∃ vs : List α, s.log = vs.map Call.next)

theorem execs_onlyDispose : ∀ (ts : List (Tree α ε)) (s : St α ε), onlyDispose ts = true →
    (execs ts s).log = s.log
  | [], s, _ => by simp [execs]
  | .dispose :: ts, s, h => by
    rw [execs, execs_onlyDispose ts _ (by simpa [onlyDispose] using h)]; simp [exec]
  | .next _ _ _ _ :: _, _, h => by simp [onlyDispose] at h
  | .error _ _ :: _, _, h => by simp [onlyDispose] at h
  | .completed _ :: _, _, h => by simp [onlyDispose] at h

theorem Ok.finish {s : St α ε} (h : Ok s) (hd : s.disposed = false) (t : Term ε)
    (kids : List (Tree α ε)) (hk : onlyDispose kids = true) :
    Ok { execs kids { s with log := s.log ++ [t.toCall] } with disposed := true } := by
  obtain ⟨vs, hv⟩ := h.2 hd
  refine ⟨?_, fun hh => by simp at hh⟩
  show Grammar (execs kids _).log
  rw [execs_onlyDispose kids _ hk]
  exact ⟨vs, some t, by simp [hv]⟩

mutual
theorem exec_ok : ∀ (t : Tree α ε) (s : St α ε), t.quietEnd = true → Ok s → Ok (exec t s)
  | .next a kids throws errKids, s, hq, h => by
    rw [Tree.quietEnd, Bool.and_eq_true] at hq
    rw [exec]
    cases hd : s.disposed with
    | true => simpa using h
    | false =>
      simp only [Bool.false_eq_true, if_false]
      obtain ⟨vs, hv⟩ := h.2 hd
      have h1 : Ok { s with log := s.log ++ [.next a] } := by
        refine ⟨⟨vs ++ [a], none, by simp [hv]⟩, fun _ => ⟨vs ++ [a], by simp [hv]⟩⟩
      have h2 := execs_ok kids _ hq.1 h1
      simp only [hd] at h2
      cases throws with
      | none => exact h2
      | some e =>
        simp only
        split
        · exact h2
        · rename_i hnd
          exact h2.finish (by simpa using hnd) (.error e) errKids hq.2
  | .error e kids, s, hq, h => by
    rw [Tree.quietEnd] at hq
    rw [exec]
    split
    · exact h
    · rename_i hd
      exact h.finish (by simpa using hd) (.error e) kids hq
  | .completed kids, s, hq, h => by
    rw [Tree.quietEnd] at hq
    rw [exec]
    split
    · exact h
    · rename_i hd
      exact h.finish (by simpa using hd) .completed kids hq
  | .dispose, s, _, h => by
    rw [exec]
    exact ⟨h.1, fun hh => by simp at hh⟩
theorem execs_ok : ∀ (ts : List (Tree α ε)) (s : St α ε), quietEnds ts = true → Ok s → Ok (execs ts s)
  | [], s, _, h => by rw [execs]; exact h
  | t :: ts, s, hq, h => by
    rw [quietEnds, Bool.and_eq_true] at hq
    rw [execs]
    exact execs_ok ts _ hq.2 (exec_ok t s hq.1 h)
end

/-- C05 (part): re-entrant emission from `on_next` callbacks, at any depth, keeps the grammar. Missing:
re-entrant emission from a *terminal* callback, for which the claim is false
(`C05_reentrant_terminal_refutes`). -/
theorem C05_reentrant_partial (ts : List (Tree α ε)) (h : quietEnds ts = true) :
    Grammar (execs ts {}).log :=
  (execs_ok ts {} h ⟨⟨[], none, rfl⟩, fun _ => ⟨[], rfl⟩⟩).1

mutual
theorem exec_disposed : ∀ (t : Tree α ε) (s : St α ε), s.disposed = true → exec t s = s
  | .next _ _ _ _, s, h => by rw [exec]; simp [h]
  | .error _ _, s, h => by rw [exec]; simp [h]
  | .completed _, s, h => by rw [exec]; simp [h]
  | .dispose, s, h => by rw [exec]; cases s; simp_all
end

theorem execs_disposed : ∀ (ts : List (Tree α ε)) (s : St α ε), s.disposed = true → execs ts s = s
  | [], s, _ => by rw [execs]
  | t :: ts, s, h => by rw [execs, exec_disposed t s h, execs_disposed ts s h]

/-- C05: whatever terminal callbacks re-enter, once the outermost terminal call has returned (or the user
disposed) nothing is delivered any more. -/
theorem C05_silent_afterwards (before after : List (Tree α ε)) (kids : List (Tree α ε)) (e : ε) :
    ∀ t ∈ [Tree.completed kids, Tree.error e kids, Tree.dispose],
      execs (before ++ t :: after) {} = execs (before ++ [t]) {} := by
  have happ : ∀ (xs ys : List (Tree α ε)) (s : St α ε), execs (xs ++ ys) s = execs ys (execs xs s) := by
    intro xs
    induction xs with
    | nil => intro ys s; simp [execs]
    | cons x xs ih => intro ys s; rw [List.cons_append, execs, execs, ih]
  intro t ht
  rw [happ, happ]
  generalize execs before ({} : St α ε) = s
  have hd : (exec t s).disposed = true := by
    simp only [List.mem_cons, List.not_mem_nil, or_false] at ht
    rcases ht with rfl | rfl | rfl
    all_goals rw [exec]
    · cases hs : s.disposed <;> simp [hs]
    · cases hs : s.disposed <;> simp [hs]
  rw [execs, execs, execs, execs_disposed _ _ hd]

/-- C05 is false in general: the `on_completed` callback makes the source emit again, and the value (and
even a second terminal event) is delivered behind the terminal event. -/
theorem C05_reentrant_terminal_refutes :
    (execs [Tree.completed [.next 1 [] none [], .error 2 []]] ({} : St Nat Nat)).log =
      [.completed, .next 1, .error 2] ∧
    ¬ Grammar (execs [Tree.completed [.next 1 [] none [], .error 2 []]] ({} : St Nat Nat)).log := by
  have h : (execs [Tree.completed [.next 1 [] none [], .error 2 []]] ({} : St Nat Nat)).log =
      [.completed, .next 1, .error 2] := by simp [execs, exec]
  refine ⟨h, ?_⟩
  rw [h]
  rintro ⟨vs, t, hv⟩
  cases vs with
  | nil =>
    cases t with
    | none => simp at hv
    | some t => simp at hv
  | cons v vs => simp at hv

-- Non-vacuity: nested emissions three deep, the innermost throwing.
example : quietEnds [Tree.next 1 [.next 2 [.next 3 [] (some 9) [.dispose]] none []] none [],
    (Tree.completed [] : Tree Nat Nat)] = true := by decide
example : (execs [Tree.next 1 [.next 2 [.next 3 [] (some 9) [.dispose]] none []] none [],
    Tree.completed []] ({} : St Nat Nat)).log = [.next 1, .next 2, .next 3, .error 9] := by
  simp [execs, exec]

end Rpp.Reentry
