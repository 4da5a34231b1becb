import Verif.Combine.LocksProofs

/-!
# C95: threads do not wait for each other in a circle

C95: whatever any number of threads do with a network of operators, subjects and schedulers (emit, complete, fail, subscribe,
connect, dispose, schedule), if no cycle of calls contains one that an operator makes while it holds a mutex, then no thread waits
for a mutex for ever: a thread that waits does so for one that can go on, possibly through others.

The code does not fulfil it: take_until's `is_disposed` locks (`C95_take_until_refutes`, `C95_worker_refutes`); the theorems with
`_partial` assume that no take_until is below a subject or a scheduler (`Clean`).
-/

namespace Rpp.Locks

open Rpp.Emit (Instr Port)

/-- A thread that waits for a mutex waits, possibly through others, for one that can go on.  Missing for the full C95: networks
with take_until below a subject or a scheduler, for which it is false. -/
theorem C95_progress_partial (net : Net) (ri ru : Nat → Nat) (src : Nat → Bool) (progs : List (List Target))
    (hA : Acyclic net ri ru) (hC : Clean net src progs) (sched : List Nat) (t : Nat) (hb : Blocked (run net progs sched) t) :
    ∃ u, Chain (run net progs sched) t u ∧ Able (run net progs sched) u :=
  progress (Inv.run hA hC sched) hb

/-- No thread waits for itself, directly or through others.  Missing for the full C95: as above. -/
theorem C95_circle_partial (net : Net) (ri ru : Nat → Nat) (src : Nat → Bool) (progs : List (List Target))
    (hA : Acyclic net ri ru) (hC : Clean net src progs) (sched : List Nat) (t : Nat) : ¬ Chain (run net progs sched) t t := by
  intro h
  have hb : Blocked (run net progs sched) t := by cases h with | one w => exact waits_blocked w | more w _ => exact waits_blocked w
  obtain ⟨u, hu, ha⟩ := C95_progress_partial net ri ru src progs hA hC sched t hb
  exact chain_acyclic hu ha h

/-- Unless all threads are at their ends, one of them can go on.  Missing for the full C95: as above. -/
theorem C95_alive_partial (net : Net) (ri ru : Nat → Nat) (src : Nat → Bool) (progs : List (List Target))
    (hA : Acyclic net ri ru) (hC : Clean net src progs) (sched : List Nat) (t : Nat) (h : (run net progs sched).stack t ≠ []) :
    ∃ u, Able (run net progs sched) u := by
  by_cases hb : Blocked (run net progs sched) t
  · obtain ⟨u, _, ha⟩ := C95_progress_partial net ri ru src progs hA hC sched t hb
    exact ⟨u, ha⟩
  · exact ⟨t, h, hb⟩

/-- To be able to go on means that the next step of the thread does something: its stack changes. -/
theorem C95_able (net : Net) (s : St) (t : Nat) (h : Able s t) : (step net s t).stack t ≠ s.stack t := by
  have hl := stack_lt h.1
  have put : ∀ fs, (s.put t fs).stack t = fs := fun fs => by rw [stack_put s t t fs hl, if_pos rfl]
  have hne := h.1
  have hb := h.2
  unfold step
  generalize hst : s.stack t = st at hne
  match st with
  | [] => exact absurd rfl hne
  | .fn _ _ [] _ :: fs =>
    show (s.put t fs).stack t ≠ _
    rw [put]; intro h; simpa using congrArg List.length h
  | .fn i e (.lock m :: code) mine :: fs =>
    have hm : s.owner (i, m) = none := by
      cases ho : s.owner (i, m) with
      | none => rfl
      | some u => exact absurd ⟨i, e, m, code, mine, fs, hst, by rw [ho]; exact Option.some_ne_none u⟩ hb
    simp only [hm, if_true]
    show (s.put t _).stack t ≠ _
    rw [put]
    intro h
    have := congrArg List.length (Frame.fn.inj (List.cons.inj h).1).2.2.1
    simp at this
  | .fn i e (.unlock m :: code) mine :: fs =>
    show (s.put t _).stack t ≠ _
    rw [put]
    intro h
    have := congrArg List.length (Frame.fn.inj (List.cons.inj h).1).2.2.1
    simp at this
  | .fn i e (.down :: code) mine :: fs =>
    cases hx : net.next i e s.calls with
    | none =>
      simp only [hx]
      show (s.put t _).stack t ≠ _
      rw [put]
      intro h
      have := congrArg List.length (Frame.fn.inj (List.cons.inj h).1).2.2.1
      simp at this
    | some x =>
      simp only [hx]
      cases x <;> (show (s.put t _).stack t ≠ _; rw [put]; intro h; simpa using congrArg List.length h)
  | .cb u [] :: fs =>
    show (s.put t fs).stack t ≠ _
    rw [put]; intro h; simpa using congrArg List.length h
  | .cb u (x :: todo) :: fs =>
    cases x <;> (show (s.put t _).stack t ≠ _; rw [put]; intro h; simpa using congrArg List.length h)

/-! ## take_until below a subject

`subject | take_until(subject | filter(…))`, one thread: object `0` is the subject, `1` the filter, `2` take_until.  An emission
passes the filter; take_until completes its observer under its mutex; that observer disposes its upstreams
(observers/observer.hpp 120-145), the registrations with the subject; the subject asks the other observer whether it is disposed
(subjects/details/subject_state.hpp 159-172), which is a question to take_until again (operators/take_until.hpp 61). -/

/-- The network of that example; models no code of its own. -/
def untilNet : Net where
  next := fun i e k =>
    match i, e with
    | 0, .next _ => some (.fn 1 (.calls 1))
    | 0, .leave _ => some (.fn 2 .ask)
    | 1, _ => some (.fn 2 .takeUntil)
    | 2, .takeUntil => if k = 3 then none else some (.user 0)
    | _, _ => none
  user := fun _ _ => [.fn 0 (.leave 1)]

/-- Calls go downstream, the objects have the functions called, and yet the only thread waits for itself. -/
theorem C95_take_until_refutes : ∃ (net : Net) (ri ru : Nat → Nat) (src : Nat → Bool) (progs : List (List Target)) (sched : List Nat),
    Acyclic net ri ru ∧ Everywhere net (Typed src) progs ∧ progs.length = 1 ∧ Chain (run net progs sched) 0 0 := by
  refine ⟨untilNet, id, fun _ => 3, fun i => decide (i = 0), [[.fn 0 (.next (.subject 2))]], List.replicate 16 0, ⟨?_, ?_⟩,
    ⟨?_, ?_, ?_⟩, rfl, ?_⟩
  · intro i e k x h
    simp only [untilNet] at h
    split at h
    · cases h; exact .inr ⟨by decide, fun _ => by decide⟩
    · cases h; exact .inr ⟨by decide, fun _ => by decide⟩
    · cases h; exact .inr ⟨by simp, fun _ => by simp⟩
    · split at h
      · cases h
      · cases h; exact ⟨by simp, fun _ => by simp⟩
    · cases h
  · intro u k x h
    simp only [untilNet, List.mem_singleton] at h
    subst h
    exact .inl rfl
  · intro i e k x h
    simp only [untilNet] at h
    split at h
    · cases h; rfl
    · cases h; rfl
    · cases h; rfl
    · split at h
      · cases h
      · cases h; trivial
    · cases h
  · intro u k x h
    simp only [untilNet, List.mem_singleton] at h
    subst h
    rfl
  · intro p hp x hx
    obtain rfl := List.mem_singleton.1 hp
    obtain rfl := List.mem_singleton.1 hx
    rfl
  · exact .one ⟨2, .ask, 0, [.down, .unlock 0], [], _, rfl, rfl⟩

/-! ## take_until below a scheduler

`a | delay(d, pool) | take_until(b) | delay(d, pool)` with a pool of one thread: object `0` is the queue of that thread, `2` is
take_until, `3` the second delay.  The thread of the pool, its queue locked, asks the first schedulable whether it is disposed
(schedulers/new_thread.hpp 80-90, operators/delay.hpp 63), which is a question to take_until; at that time the thread of `b`
completes take_until's observer under its mutex, and the second delay schedules that. -/

/-- The network of that example; models no code of its own. -/
def workerNet : Net where
  next := fun i e k =>
    match i, e with
    | 0, .pump _ => some (.fn 2 .ask)
    | 2, .takeUntil => if k = 3 then none else some (.fn 3 .delayPut)
    | 3, .delayPut => some (.fn 0 .put)
    | _, _ => none
  user := fun _ _ => []

/-- Calls go downstream, and yet two threads wait for each other. -/
theorem C95_worker_refutes : ∃ (net : Net) (ri ru : Nat → Nat) (src : Nat → Bool) (progs : List (List Target)) (sched : List Nat),
    Acyclic net ri ru ∧ Everywhere net (Typed src) progs ∧ Waits (run net progs sched) 0 1 ∧ Waits (run net progs sched) 1 0 := by
  refine ⟨workerNet, id, fun _ => 0, fun i => decide (i = 0), [[.fn 0 (.pump 1)], [.fn 2 .takeUntil]],
    [0, 0, 0] ++ List.replicate 10 1, ⟨?_, ?_⟩, ⟨?_, ?_, ?_⟩, ?_, ?_⟩
  · intro i e k x h
    simp only [workerNet] at h
    split at h
    · cases h; exact .inr ⟨by decide, fun _ => by decide⟩
    · split at h
      · cases h
      · cases h; exact .inr ⟨by simp, fun _ => by simp⟩
    · cases h; exact .inl rfl
    · cases h
  · intro u k x h; cases h
  · intro i e k x h
    simp only [workerNet] at h
    split at h
    · cases h; rfl
    · split at h
      · cases h
      · cases h; rfl
    · cases h; rfl
    · cases h
  · intro u k x h; cases h
  · intro p hp x hx
    simp only [List.mem_cons, List.not_mem_nil, or_false] at hp
    rcases hp with rfl | rfl <;> (obtain rfl := List.mem_singleton.1 hx; rfl)
  · exact ⟨2, .ask, 0, [.down, .unlock 0], [], _, rfl, rfl⟩
  · exact ⟨0, .put, 0, [.unlock 0], [], _, rfl, rfl⟩

/-! ## Examples -/

/-- `merge` of two subjects, whose subscriber disposes its subscription to the first; another thread emits into the second and a
third completes the first; models no code of its own. -/
def mergeNet : Net where
  next := fun i e _ =>
    match i, e with
    | 0, .next _ | 1, .next _ => some (.fn 2 (.next .merge))
    | 0, .subjectEnd .. => some (.fn 2 (.guarded 1))
    | 2, _ => some (.user 0)
    | _, _ => none
  user := fun _ _ => [.fn 0 (.leave 0)]

/-- The threads of the example; models no code. -/
def mergeProgs : List (List Target) := [[.fn 0 (.next (.subject 1))], [.fn 1 (.next (.subject 1))], [.fn 0 (.subjectEnd false 1 0)]]

theorem mergeNet_acyclic : Acyclic mergeNet id (fun _ => 3) := by
  refine ⟨?_, ?_⟩
  · intro i e k x h
    simp only [mergeNet] at h
    split at h
    · cases h; exact .inr ⟨by decide, fun _ => by decide⟩
    · cases h; exact .inr ⟨by decide, fun _ => by decide⟩
    · cases h; exact .inr ⟨by simp, fun _ => by simp⟩
    · cases h; exact ⟨by simp, fun _ => by simp⟩
    · cases h
  · intro u k x h
    simp only [mergeNet, List.mem_singleton] at h
    subst h
    exact .inl rfl

theorem mergeNet_clean : Clean mergeNet (fun i => decide (i < 2)) mergeProgs := by
  refine ⟨?_, ?_, ?_⟩
  · intro i e k x h
    simp only [mergeNet] at h
    split at h
    · cases h; exact ⟨rfl, rfl⟩
    · cases h; exact ⟨rfl, rfl⟩
    · cases h; exact ⟨rfl, rfl⟩
    · cases h; trivial
    · cases h
  · intro u k x h
    simp only [mergeNet, List.mem_singleton] at h
    subst h
    exact ⟨rfl, rfl⟩
  · intro p hp x hx
    simp only [mergeProgs, List.mem_cons, List.not_mem_nil, or_false] at hp
    rcases hp with rfl | rfl | rfl <;> (obtain rfl := List.mem_singleton.1 hx; exact ⟨rfl, rfl⟩)

/-- The hypotheses are met by an execution in which one thread waits for merge's mutex while another, holding it, waits for that
of the subject, which a third is about to unlock. -/
example : Waits (run mergeNet mergeProgs ([0, 0, 0, 0, 0, 0, 0] ++ [1, 1, 1, 1] ++ [2, 2] ++ [0])) 1 0 ∧
    Waits (run mergeNet mergeProgs ([0, 0, 0, 0, 0, 0, 0] ++ [1, 1, 1, 1] ++ [2, 2] ++ [0])) 0 2 ∧
    Chain (run mergeNet mergeProgs ([0, 0, 0, 0, 0, 0, 0] ++ [1, 1, 1, 1] ++ [2, 2] ++ [0])) 1 2 := by
  have h1 : Waits (run mergeNet mergeProgs ([0, 0, 0, 0, 0, 0, 0] ++ [1, 1, 1, 1] ++ [2, 2] ++ [0])) 1 0 := ⟨2, _, 0, _, _, _, rfl, rfl⟩
  have h2 : Waits (run mergeNet mergeProgs ([0, 0, 0, 0, 0, 0, 0] ++ [1, 1, 1, 1] ++ [2, 2] ++ [0])) 0 2 := ⟨0, _, 0, _, _, _, rfl, rfl⟩
  exact ⟨h1, h2, .more h1 (.one h2)⟩

set_option maxRecDepth 100000 in
/-- … and, to the end, by all three. -/
example : (run mergeNet mergeProgs (List.replicate 30 0 ++ List.replicate 30 1 ++ List.replicate 30 2)).stacks = [[], [], []] := rfl

/-- Two merges feeding each other, each with a subject of its own; models no code of its own. -/
def ringNet : Net where
  next := fun i _ k =>
    match i with
    | 0 => some (.fn 2 (.next .merge))
    | 1 => some (.fn 3 (.next .merge))
    | 2 => if k < 4 then some (.fn 3 (.next .merge)) else none
    | 3 => if k < 4 then some (.fn 2 (.next .merge)) else none
    | _ => none
  user := fun _ _ => []

/-- That there be no cycle is needed: two threads wait for each other. -/
example : Waits (run ringNet [[.fn 2 (.next .merge)], [.fn 3 (.next .merge)]] [0, 1, 0, 1, 0, 1]) 0 1 ∧
    Waits (run ringNet [[.fn 2 (.next .merge)], [.fn 3 (.next .merge)]] [0, 1, 0, 1, 0, 1]) 1 0 :=
  ⟨⟨3, _, 0, _, _, _, rfl, rfl⟩, ⟨2, _, 0, _, _, _, rfl, rfl⟩⟩

/-- A subscriber of a plain subject emits into that subject; models no code of its own. -/
def loopNet : Net where
  next := fun _ e _ => if e = .next (.subject 1) then some (.user 0) else none
  user := fun _ _ => [.fn 0 (.next (.subject 1))]

/-- This is allowed: the subject calls nobody under its mutex. -/
example : Acyclic loopNet (fun _ => 0) (fun _ => 0) := by
  refine ⟨?_, ?_⟩
  · intro i e k x h
    simp only [loopNet] at h
    by_cases he : e = .next (.subject 1)
    · simp only [he, if_true] at h
      cases h
      rw [he]
      exact ⟨Nat.le_refl 0, fun h => by cases h⟩
    · simp only [he, if_false] at h; cases h
  · intro u k x h
    obtain rfl := List.mem_singleton.1 h
    exact .inr ⟨Nat.le_refl 0, fun h => by cases h⟩

end Rpp.Locks
