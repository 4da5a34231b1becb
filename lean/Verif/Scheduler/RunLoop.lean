import Verif.Scheduler.TestScheduler
/-!
# run_loop (C60, C64, C65)

Models schedulers/run_loop.hpp. Any number of threads call `schedule`, `dispatch_if_ready`, `dispatch` and dispose
handlers or the loop, in any interleaving. Every call is an independent state machine, numbered in order of
invocation; user code (what a task does, how long it takes, what it returns) is left to the labels. That calls of
one thread are properly nested is not enforced, so the theorems cover more executions than can happen.

Each critical section is one step. In `pop` the test of `is_disposed` and the removal are one step although the
flag is not protected by the mutex: setting the flag in between is indistinguishable from setting it right after
the removal, because the queue is only cleared under the mutex. The test of the handler in `dispatch_impl` and the
call of the task are one step too: that moment is the start of the task. Waiting on the condition variable is a step
that does nothing (a blocked call may be woken at any time; lost wake-ups are not modelled).
-/

namespace Rpp.Sched.RunLoop
open Rpp.Sched

/-- Parameters: what the program's own functions do and when (schedulers/run_loop.hpp 25-130 calls them). -/
structure Cfg where
  kind : Nat → Kind
  hnd : Nat → Nat

/-- Where a call is. -/
inductive Call where
  | done
  | check (e : Ent)     -- emplace_and_notify, before `is_disposed()` (run_loop.hpp 41)
  | emplace (e : Ent)   -- before the lock (run_loop.hpp 44)
  | pop (wait : Bool)   -- in the `while` of pop (run_loop.hpp 54)
  | popped (e : Ent)    -- dispatch_impl after pop (run_loop.hpp 158)
  | run (e : Ent)       -- inside the user function (run_loop.hpp 163)
  | clear               -- base_dispose_impl before the lock (run_loop.hpp 94)
deriving DecidableEq, Repr

/-- Observable events, `k` is the number of the call. `call` : a task is scheduled for a time; `sched` : it enters
the queue; `take` : it leaves the queue; `start`, `fin` : the user function is entered, left; `skip` : not called
because disposed; `none` : the dispatch found nothing to do; `ldisp` / `cleared` : the loop's disposed flag is set,
its queue is emptied. -/
inductive Ev where
  | call (id : Nat) (due : Int)
  | sched (e : Ent)
  | dispatch (k : Nat)
  | take (k : Nat) (e : Ent) (t : Int)
  | skip (k : Nat) (e : Ent)
  | start (k : Nat) (e : Ent) (t : Int)
  | fin (k : Nat) (id : Nat) (t : Int) (r : Res)
  | err (id : Nat)
  | none (k : Nat) (t : Int)
  | hdisp (h : Nat)
  | ldisp
  | cleared
deriving DecidableEq, Repr

/-- State: the members of the objects of schedulers/run_loop.hpp 25-130, what the running calls are doing, and the log. -/
structure St where
  now : Int := 0
  queue : List Ent := []
  /-- `is_disposed()` of the loop -/
  dead : Bool := false
  disposed : List Nat := []
  calls : Nat → Call := fun _ => .done
  nextCall : Nat := 0
  nextId : Nat := 0
  log : List Ev := []

variable (c : Cfg)

/-- Log an event; no counterpart in /repo. -/
def St.emit (s : St) (ev : Ev) : St := { s with log := s.log ++ [ev] }
/-- Replace one component of the state; no counterpart in /repo. -/
def St.set (s : St) (k : Nat) (x : Call) : St := { s with calls := fun i => if i = k then x else s.calls i }
/-- A new call. (schedulers/run_loop.hpp 25-130) -/
def St.new (s : St) (x : Call) : St := { s.set s.nextCall x with nextCall := s.nextCall + 1 }

/-- `is_disposed()` of a scheduled function's handler at that moment (schedulers/run_loop.hpp 25-130). -/
def isDisposed (s : St) (id : Nat) : Bool := s.disposed.contains (c.hnd id)

/-- What may happen next; the choice is arbitrary; no counterpart in /repo. -/
inductive Lbl where
  | tick (d : Nat)
  | schedule (tp : Int)     -- worker.schedule(time_point, …), run_loop.hpp 119-122; a duration is added to now()
  | dispatch (wait : Bool)  -- dispatch_if_ready / dispatch, run_loop.hpp 138-146
  | disposeHandler (h : Nat)
  | disposeLoop
  | step (k : Nat)
  | ret (k : Nat) (r : Res) -- the user function called by `k` returns
deriving DecidableEq, Repr

/-- One iteration of the loop in `pop`, run_loop.hpp 54-70. -/
def popStep (s : St) (k : Nat) (wait : Bool) : St :=
  if s.dead then (s.emit (.none k s.now)).set k .done
  else
    match s.queue with
    | [] => if wait then s else (s.emit (.none k s.now)).set k .done
    | top :: rest =>
      if isDisposed c s top.id || decide (top.tp ≤ s.now) then
        (({ s with queue := rest }).emit (.take k top s.now)).set k (.popped top)
      else if wait then s
      else (s.emit (.none k s.now)).set k .done

/-- The next step of call `k`. (schedulers/run_loop.hpp 25-130) -/
def callStep (s : St) (k : Nat) : St :=
  match s.calls k with
  | .check e => if s.dead then s.set k .done else s.set k (.emplace e)
  | .emplace e => (({ s with queue := emplace s.queue e }).emit (.sched e)).set k .done
  | .pop wait => popStep c s k wait
  | .popped e =>
    if isDisposed c s e.id then (s.emit (.skip k e)).set k .done
    else (s.emit (.start k e s.now)).set k (.run e)
  | .clear => (({ s with queue := [] }).emit .cleared).set k .done
  | .run _ => s
  | .done => s

/-- The user function returns: `operator()` (queue.hpp 129-141) and run_loop.hpp 163-164. -/
def retStep (s : St) (k : Nat) (r : Res) : St :=
  match s.calls k with
  | .run e =>
    let s := s.emit (.fin k e.id s.now r)
    match r with
    | .stop => s.set k .done
    | .throw => (s.emit (.err e.id)).set k .done
    | .again v => s.set k (.check ⟨match c.kind e.id with
        | .fromNow => s.now + v
        | .fromThis => e.tp + v
        | .to => v, e.id⟩)
  | _ => s

/-- One step; the single cases cite the lines of schedulers/run_loop.hpp 25-130 they model. -/
def step (s : St) : Lbl → St
  | .tick d => { s with now := s.now + d }
  | .schedule tp => { (s.emit (.call s.nextId tp)).new (.check ⟨tp, s.nextId⟩) with nextId := s.nextId + 1 }
  | .dispatch wait => (s.emit (.dispatch s.nextCall)).new (.pop wait)
  | .disposeHandler h => { s with disposed := h :: s.disposed }.emit (.hdisp h)
  | .disposeLoop => if s.dead then s else ({ s with dead := true }.emit .ldisp).new .clear
  | .step k => callStep c s k
  | .ret k r => retStep c s k r

/-- The state after a sequence of steps; no counterpart in /repo. -/
def exec (ls : List Lbl) : St := ls.foldl (step c) {}

/-! ## Specification -/

/-- The tasks in the loop, in the order they entered. -/
def waiting (log : List Ev) : List Ent :=
  log.foldl (fun w ev => match ev with
    | .sched e => w ++ [e]
    | .take _ e _ => w.erase e
    | .cleared => []
    | _ => w) []

/-- How an event changes the requested time of task `id`. -/
def reqStep (kind : Nat → Kind) (id : Nat) (r : Option Int) : Ev → Option Int
  | .call i due => if i = id then some due else r
  | .fin _ i t (.again v) =>
    if i = id then
      match kind id with
      | .fromNow => some (t + v)
      | .fromThis => r.map (· + v)
      | .to => some v
    else r
  | _ => r

/-- The time for which the next run of task `id` is requested (as in `TrampSpec.requested`). -/
def requested (kind : Nat → Kind) (log : List Ev) (id : Nat) : Option Int :=
  log.foldl (reqStep kind id) none

/-! ## Proofs -/

theorem waiting_snoc (l : List Ev) (ev : Ev) : waiting (l ++ [ev]) = (match ev with
    | .sched e => waiting l ++ [e]
    | .take _ e _ => (waiting l).erase e
    | .cleared => []
    | _ => waiting l) := by
  simp only [waiting, List.foldl_append, List.foldl_cons, List.foldl_nil]
  try (cases ev <;> rfl)

theorem requested_snoc (k : Nat → Kind) (l : List Ev) (ev : Ev) (id : Nat) :
    requested k (l ++ [ev]) id = reqStep k id (requested k l id) ev := by
  simp only [requested, List.foldl_append, List.foldl_cons, List.foldl_nil]

variable {c}

/-- What the logs satisfy (for the proofs); models no code. -/
def Ok (c : Cfg) (pre : List Ev) : Ev → Prop
  | .sched e => requested c.kind pre e.id = some e.tp ∧ .err e.id ∉ pre
  | .take k e t => TrampSpec.IsNext (waiting pre) e ∧ .ldisp ∉ pre ∧ .err e.id ∉ pre ∧
      (e.tp ≤ t ∨ .hdisp (c.hnd e.id) ∈ pre) ∧ .dispatch k ∈ pre ∧ ∀ e' t', .take k e' t' ∉ pre
  | .start k e t => .hdisp (c.hnd e.id) ∉ pre ∧ .err e.id ∉ pre ∧ (∀ e' t', .start k e' t' ∉ pre) ∧
      requested c.kind pre e.id = some e.tp ∧ (∃ t', .take k e t' ∈ pre ∧ e.tp ≤ t' ∧ t' ≤ t)
  | .skip k e => .hdisp (c.hnd e.id) ∈ pre ∧ ∃ t', .take k e t' ∈ pre
  | .err id => .err id ∉ pre ∧ ∃ pre' k t, pre = pre' ++ [.fin k id t .throw]
  | .none k t => .ldisp ∈ pre ∨ (∀ e ∈ waiting pre, t < e.tp) ∧ (∀ e t', .take k e t' ∉ pre)
  | .fin k id _ _ => ∃ e t', e.id = id ∧ .start k e t' ∈ pre
  | _ => True

/-- What the logs satisfy (for the proofs); models no code. -/
def Legal (c : Cfg) (log : List Ev) : Prop := ∀ pre ev post, log = pre ++ ev :: post → Ok c pre ev

theorem Legal.snoc {log : List Ev} {ev : Ev} (h : Legal c log) (ho : Ok c log ev) : Legal c (log ++ [ev]) := by
  intro pre ev' post heq
  rcases QueueRun.snoc_eq heq with ⟨rfl, rfl, _⟩ | ⟨post', _, h2⟩
  · exact ho
  · exact h _ _ _ h2

/-- The task a call has in its hands. -/
def Call.holds : Call → Option Ent
  | .check e | .emplace e | .popped e | .run e => some e
  | _ => none

/-- What the logs satisfy (for the proofs); models no code. -/
def Paired (log : List Ev) : Prop :=
  ∀ pre k id t post, log = pre ++ .fin k id t .throw :: post → ∃ post', post = .err id :: post'

theorem Paired.snoc {log : List Ev} {ev : Ev} (h : Paired log) (hev : ∀ k id t, ev ≠ .fin k id t .throw) :
    Paired (log ++ [ev]) := by
  intro pre k id t post heq
  rcases QueueRun.snoc_eq heq with ⟨rfl, rfl, _⟩ | ⟨post', rfl, h2⟩
  · exact absurd rfl (hev k id t)
  · obtain ⟨p, rfl⟩ := h _ _ _ _ _ h2
    exact ⟨p ++ [ev], rfl⟩

theorem Paired.snoc2 {log : List Ev} (h : Paired log) (k id : Nat) (t : Int) :
    Paired (log ++ [.fin k id t .throw] ++ [.err id]) := by
  intro pre k' id' t' post heq
  rcases QueueRun.snoc_eq heq with ⟨_, h2, _⟩ | ⟨post', rfl, h2⟩
  · cases h2
  · rcases QueueRun.snoc_eq h2 with ⟨_, h3, rfl⟩ | ⟨post'', rfl, h3⟩
    · cases h3; exact ⟨[], rfl⟩
    · obtain ⟨p, rfl⟩ := h _ _ _ _ _ h3
      exact ⟨_, rfl⟩

/-- A call's number does not occur in the log yet. -/
def Unused (log : List Ev) (k : Nat) : Prop :=
  .dispatch k ∉ log ∧ (∀ e t, .take k e t ∉ log) ∧ (∀ e t, .start k e t ∉ log) ∧ (∀ i t r, .fin k i t r ∉ log)

/-- Invariant of the proofs; models no code. -/
structure Inv (c : Cfg) (s : St) : Prop where
  rep : isort (waiting s.log) = s.queue
  legal : Legal c s.log
  paired : Paired s.log
  ldead : s.dead = true ↔ .ldisp ∈ s.log
  disp : ∀ h, h ∈ s.disposed ↔ .hdisp h ∈ s.log
  uniq : ∀ k1 k2 e1 e2, (s.calls k1).holds = some e1 → (s.calls k2).holds = some e2 → e1.id = e2.id → k1 = k2
  sep : ∀ k e, (s.calls k).holds = some e → ∀ f ∈ s.queue, f.id ≠ e.id
  nd : (s.queue.map (·.id)).Nodup
  ltq : ∀ f ∈ s.queue, f.id < s.nextId
  lth : ∀ k e, (s.calls k).holds = some e → e.id < s.nextId
  gone : ∀ i, .err i ∈ s.log → i < s.nextId ∧ (∀ f ∈ s.queue, f.id ≠ i) ∧
    ∀ k e, (s.calls k).holds = some e → e.id ≠ i
  reqq : ∀ f ∈ s.queue, requested c.kind s.log f.id = some f.tp
  reqh : ∀ k e, (s.calls k).holds = some e → requested c.kind s.log e.id = some e.tp
  new : ∀ k, s.nextCall ≤ k → s.calls k = .done ∧ Unused s.log k
  popc : ∀ k w, s.calls k = .pop w → .dispatch k ∈ s.log ∧ (∀ e t, .take k e t ∉ s.log) ∧
    ∀ e t, .start k e t ∉ s.log
  popped : ∀ k e, s.calls k = .popped e → (∀ e' t', .start k e' t' ∉ s.log) ∧
    ∃ t', .take k e t' ∈ s.log ∧ t' ≤ s.now ∧ (e.tp ≤ t' ∨ .hdisp (c.hnd e.id) ∈ s.log)
  run : ∀ k e, s.calls k = .run e → ∃ t', .start k e t' ∈ s.log
  asked : ∀ k id t v, .fin k id t (.again v) ∈ s.log →
    (∃ e, e.id = id ∧ (s.calls k = .check e ∨ s.calls k = .emplace e)) ∨ .ldisp ∈ s.log ∨
    ∃ pre post tp, s.log = pre ++ .sched ⟨tp, id⟩ :: post ∧ .fin k id t (.again v) ∈ pre

theorem Inv.init : Inv c {} := by
  constructor <;> simp [waiting, isort, Legal, Paired, Unused, Call.holds]


theorem asked_snoc {log : List Ev} {k id : Nat} {t v : Int} {x : Ev}
    (h : ∃ pre post tp, log = pre ++ .sched ⟨tp, id⟩ :: post ∧ .fin k id t (.again v) ∈ pre) :
    ∃ pre post tp, log ++ [x] = pre ++ .sched ⟨tp, id⟩ :: post ∧ .fin k id t (.again v) ∈ pre := by
  obtain ⟨pre, post, tp, rfl, h2⟩ := h
  exact ⟨pre, post ++ [x], tp, by simp, h2⟩

/-- Proof of a step that neither touches the queue nor takes or gives up a task. -/
macro "rl_case" : tactic => `(tactic|
  (simp only [St.emit, St.set, St.new, waiting_snoc, requested_snoc, reqStep, Unused] at *
   try grind [Call.holds]))

theorem Inv.tick {s : St} (h : Inv c s) (d : Nat) : Inv c (step c s (.tick d)) := by
  obtain ⟨h1, h2, h3, h4, h5, h6, h7, h8, h9, h10, h11, h12, h13, h14, h15, h16, h17, h18⟩ := h
  refine ⟨h1, h2, h3, h4, h5, h6, h7, h8, h9, h10, h11, h12, h13, h14, h15, ?_, h17, h18⟩
  intro k e hk
  obtain ⟨a, t', b, b2, b3⟩ := h16 k e hk
  refine ⟨a, t', b, ?_, b3⟩
  simp only [RunLoop.step]; omega

/-- The last clause of the invariant after one more event that is no request for another run. -/
theorem asked_step {s : St} {x : Ev} {calls : Nat → Call}
    (h : ∀ k id t v, Ev.fin k id t (.again v) ∈ s.log →
      (∃ e, e.id = id ∧ (s.calls k = .check e ∨ s.calls k = .emplace e)) ∨ .ldisp ∈ s.log ∨
      ∃ pre post tp, s.log = pre ++ .sched ⟨tp, id⟩ :: post ∧ .fin k id t (.again v) ∈ pre)
    (hx : ∀ k id t v, x ≠ .fin k id t (.again v))
    (hc : ∀ k e, s.calls k = .check e ∨ s.calls k = .emplace e → calls k = .check e ∨ calls k = .emplace e ∨
      x = .sched e ∨ .ldisp ∈ s.log) :
    ∀ k id t v, Ev.fin k id t (.again v) ∈ s.log ++ [x] →
      (∃ e, e.id = id ∧ (calls k = .check e ∨ calls k = .emplace e)) ∨ .ldisp ∈ s.log ++ [x] ∨
      ∃ pre post tp, s.log ++ [x] = pre ++ .sched ⟨tp, id⟩ :: post ∧ .fin k id t (.again v) ∈ pre := by
  intro k id t v hm
  simp only [List.mem_append, List.mem_singleton] at hm
  rcases hm with hm | hm
  · rcases h k id t v hm with ⟨e, rfl, he⟩ | h | h
    · rcases hc k e he with h | h | rfl | h
      · exact .inl ⟨e, rfl, .inl h⟩
      · exact .inl ⟨e, rfl, .inr h⟩
      · exact .inr (.inr ⟨s.log, [], e.tp, rfl, hm⟩)
      · exact .inr (.inl (by simp [h]))
    · exact .inr (.inl (by simp [h]))
    · exact .inr (.inr (asked_snoc h))
  · exact absurd hm.symm (hx _ _ _ _)

theorem Inv.disposeHandler {s : St} (h : Inv c s) (d : Nat) : Inv c (step c s (.disposeHandler d)) := by
  obtain ⟨h1, h2, h3, h4, h5, h6, h7, h8, h9, h10, h11, h12, h13, h14, h15, h16, h17, h18⟩ := h
  simp only [RunLoop.step]
  refine ⟨?_, h2.snoc trivial, h3.snoc (by simp), ?_, ?_, h6, h7, h8, h9, h10, ?_, ?_, ?_, ?_, ?_, ?_, ?_,
    asked_step h18 (by simp) (by simp only [St.emit]; grind)⟩
  all_goals rl_case

theorem Inv.schedule {s : St} (h : Inv c s) (tp : Int) : Inv c (step c s (.schedule tp)) := by
  obtain ⟨h1, h2, h3, h4, h5, h6, h7, h8, h9, h10, h11, h12, h13, h14, h15, h16, h17, h18⟩ := h
  simp only [RunLoop.step]
  have := (h14 s.nextCall (Nat.le_refl _)).1
  refine ⟨?_, h2.snoc trivial, h3.snoc (by simp), ?_, ?_, ?_, ?_, h8, ?_, ?_, ?_, ?_, ?_, ?_, ?_, ?_, ?_,
    asked_step h18 (by simp) (by intro k e; simp only [St.new, St.set, St.emit]; grind)⟩
  all_goals rl_case

theorem Inv.dispatch {s : St} (h : Inv c s) (w : Bool) : Inv c (step c s (.dispatch w)) := by
  obtain ⟨h1, h2, h3, h4, h5, h6, h7, h8, h9, h10, h11, h12, h13, h14, h15, h16, h17, h18⟩ := h
  simp only [RunLoop.step]
  have := (h14 s.nextCall (Nat.le_refl _)).1
  refine ⟨?_, h2.snoc trivial, h3.snoc (by simp), ?_, ?_, ?_, ?_, h8, ?_, ?_, ?_, ?_, ?_, ?_, ?_, ?_, ?_,
    asked_step h18 (by simp) (by intro k e; simp only [St.new, St.set, St.emit]; grind)⟩
  all_goals rl_case

theorem Inv.disposeLoop {s : St} (h : Inv c s) : Inv c (step c s .disposeLoop) := by
  simp only [RunLoop.step]
  split
  · exact h
  obtain ⟨h1, h2, h3, h4, h5, h6, h7, h8, h9, h10, h11, h12, h13, h14, h15, h16, h17, h18⟩ := h
  have := (h14 s.nextCall (Nat.le_refl _)).1
  refine ⟨?_, h2.snoc trivial, h3.snoc (by simp), ?_, ?_, ?_, ?_, h8, ?_, ?_, ?_, ?_, ?_, ?_, ?_, ?_, ?_,
    asked_step h18 (by simp) (by intro k e; simp only [St.new, St.set, St.emit]; grind)⟩
  all_goals rl_case

theorem Inv.check {s : St} (h : Inv c s) (k : Nat) (e : Ent) (hk : s.calls k = .check e) :
    Inv c (if s.dead then s.set k .done else s.set k (.emplace e)) := by
  obtain ⟨h1, h2, h3, h4, h5, h6, h7, h8, h9, h10, h11, h12, h13, h14, h15, h16, h17, h18⟩ := h
  have hh : (s.calls k).holds = some e := by rw [hk]; rfl
  split
  all_goals
    refine ⟨h1, h2, h3, h4, h5, ?_, ?_, h8, h9, ?_, ?_, h12, ?_, ?_, ?_, ?_, ?_, ?_⟩
    all_goals (simp only [St.set]; grind [Call.holds])

theorem Inv.emplace {s : St} (h : Inv c s) (k : Nat) (e : Ent) (hk : s.calls k = .emplace e) :
    Inv c ((({ s with queue := emplace s.queue e }).emit (.sched e)).set k .done) := by
  obtain ⟨h1, h2, h3, h4, h5, h6, h7, h8, h9, h10, h11, h12, h13, h14, h15, h16, h17, h18⟩ := h
  have hh : (s.calls k).holds = some e := by rw [hk]; rfl
  have hmem : ∀ f, f ∈ Sched.emplace s.queue e ↔ f = e ∨ f ∈ s.queue := fun f => CT.mem_emplace
  refine ⟨?_, h2.snoc ?_, h3.snoc (by simp), ?_, ?_, ?_, ?_, ?_, ?_, ?_, ?_, ?_, ?_, ?_, ?_, ?_, ?_,
    asked_step h18 (by simp) (by intro k e; simp only [St.set, St.emit]; grind)⟩
  · simp only [St.emit, St.set, waiting_snoc, isort_snoc, h1]
  · exact ⟨h13 k e hh, fun hm => (h11 _ hm).2.2 k e hh rfl⟩
  · rl_case
  · rl_case
  · rl_case
  · intro k' e' hk' f hf
    simp only [St.set, St.emit] at hk' hf
    rcases (hmem f).mp hf with rfl | hf
    · intro hid
      have hne : k' ≠ k := by rintro rfl; simp [Call.holds] at hk'
      rw [if_neg hne] at hk'
      exact hne (h6 k' k e' f hk' hh hid.symm)
    · by_cases hne : k' = k
      · rw [if_pos hne] at hk'; simp [Call.holds] at hk'
      · rw [if_neg hne] at hk'; exact h7 k' e' hk' f hf
  · have hp : ((Sched.emplace s.queue e).map (·.id)).Perm ((e :: s.queue).map (·.id)) := (emplace_perm _ _).map _
    simp only [St.set, St.emit]
    rw [hp.nodup_iff, List.map_cons, List.nodup_cons]
    refine ⟨fun hm => ?_, h8⟩
    obtain ⟨f, hf, hid⟩ := List.mem_map.mp hm
    exact h7 k e hh f hf hid
  · rl_case
  · rl_case
  · rl_case
  · rl_case
  · rl_case
  · rl_case
  · rl_case
  · rl_case
  · rl_case

theorem Inv.none {s : St} (h : Inv c s) (k : Nat) (w : Bool) (hk : s.calls k = .pop w)
    (hq : s.dead = true ∨ ∀ e ∈ waiting s.log, s.now < e.tp) : Inv c ((s.emit (.none k s.now)).set k .done) := by
  obtain ⟨h1, h2, h3, h4, h5, h6, h7, h8, h9, h10, h11, h12, h13, h14, h15, h16, h17, h18⟩ := h
  refine ⟨?_, h2.snoc ?_, h3.snoc (by simp), ?_, ?_, ?_, ?_, h8, ?_, ?_, ?_, ?_, ?_, ?_, ?_, ?_, ?_,
    asked_step h18 (by simp) (by intro k e; simp only [St.set, St.emit]; grind)⟩
  · rl_case
  · rcases hq with hq | hq
    · exact .inl (h4.mp hq)
    · exact .inr ⟨hq, (h15 k w hk).2.1⟩
  all_goals rl_case

theorem Inv.take {s : St} (h : Inv c s) (k : Nat) (w : Bool) (hk : s.calls k = .pop w) (hd : s.dead = false)
    (top : Ent) (rest : List Ent) (hq : s.queue = top :: rest)
    (hr : isDisposed c s top.id = true ∨ top.tp ≤ s.now) :
    Inv c ((({ s with queue := rest }).emit (.take k top s.now)).set k (.popped top)) := by
  obtain ⟨h1, h2, h3, h4, h5, h6, h7, h8, h9, h10, h11, h12, h13, h14, h15, h16, h17, h18⟩ := h
  have hn : TrampSpec.IsNext (waiting s.log) top ∧ isort ((waiting s.log).erase top) = rest ∧ _ :=
    Test.IsNext_of_rep (by rw [h1, hq])
  have hr' : top.tp ≤ s.now ∨ .hdisp (c.hnd top.id) ∈ s.log := by
    rcases hr with hr | hr
    · simp only [isDisposed, List.contains_iff_mem] at hr
      exact .inr ((h5 _).mp hr)
    · exact .inl hr
  have hld : Ev.ldisp ∉ s.log := by rw [← h4, hd]; simp
  rw [hq, List.map_cons, List.nodup_cons] at h8
  have hne : ∀ f ∈ rest, f.id ≠ top.id := fun f hf hh => h8.1 (hh ▸ List.mem_map_of_mem hf)
  have h15' := h15 k w hk
  refine ⟨?_, h2.snoc ⟨hn.1, hld, fun hm => (h11 _ hm).2.1 top (by simp [hq]) rfl, hr', h15'.1, h15'.2.1⟩,
    h3.snoc (by simp), ?_, ?_, ?_, ?_, h8.2, ?_, ?_, ?_, ?_, ?_, ?_, ?_, ?_, ?_,
    asked_step h18 (by simp) (by intro k e; simp only [St.set, St.emit]; grind)⟩
  · simp only [St.emit, St.set, waiting_snoc]; exact hn.2.1
  all_goals rl_case

theorem Inv.clear {s : St} (h : Inv c s) (k : Nat) (hk : s.calls k = .clear) :
    Inv c ((({ s with queue := [] }).emit .cleared).set k .done) := by
  obtain ⟨h1, h2, h3, h4, h5, h6, h7, h8, h9, h10, h11, h12, h13, h14, h15, h16, h17, h18⟩ := h
  refine ⟨?_, h2.snoc trivial, h3.snoc (by simp), ?_, ?_, ?_, ?_, by simp [St.emit, St.set], ?_, ?_, ?_, ?_, ?_, ?_,
    ?_, ?_, ?_, asked_step h18 (by simp) (by intro k e; simp only [St.set, St.emit]; grind)⟩
  · simp only [St.emit, St.set, waiting_snoc]; rfl
  all_goals rl_case

theorem Inv.skip {s : St} (h : Inv c s) (k : Nat) (e : Ent) (hk : s.calls k = .popped e)
    (hd : isDisposed c s e.id = true) : Inv c ((s.emit (.skip k e)).set k .done) := by
  obtain ⟨h1, h2, h3, h4, h5, h6, h7, h8, h9, h10, h11, h12, h13, h14, h15, h16, h17, h18⟩ := h
  have hd' : Ev.hdisp (c.hnd e.id) ∈ s.log := by
    simp only [isDisposed, List.contains_iff_mem] at hd; exact (h5 _).mp hd
  refine ⟨?_, h2.snoc ⟨hd', ?_⟩, h3.snoc (by simp), ?_, ?_, ?_, ?_, h8, ?_, ?_, ?_, ?_, ?_, ?_,
    ?_, ?_, ?_, asked_step h18 (by simp) (by intro k e; simp only [St.set, St.emit]; grind)⟩
  · rl_case
  · obtain ⟨_, t', h, _⟩ := h16 k e hk; exact ⟨t', h⟩
  all_goals rl_case

theorem Inv.start {s : St} (h : Inv c s) (k : Nat) (e : Ent) (hk : s.calls k = .popped e)
    (hd : ¬ isDisposed c s e.id = true) : Inv c ((s.emit (.start k e s.now)).set k (.run e)) := by
  obtain ⟨h1, h2, h3, h4, h5, h6, h7, h8, h9, h10, h11, h12, h13, h14, h15, h16, h17, h18⟩ := h
  have hh : (s.calls k).holds = some e := by rw [hk]; rfl
  have hd' : Ev.hdisp (c.hnd e.id) ∉ s.log := by
    simp only [isDisposed, List.contains_iff_mem] at hd; exact fun hm => hd ((h5 _).mpr hm)
  refine ⟨?_, h2.snoc ⟨hd', fun hm => (h11 _ hm).2.2 k e hh rfl, (h16 k e hk).1, h13 k e hh, ?_⟩,
    h3.snoc (by simp), ?_, ?_, ?_, ?_, h8, ?_, ?_, ?_, ?_, ?_, ?_,
    ?_, ?_, ?_, asked_step h18 (by simp) (by intro k e; simp only [St.set, St.emit]; grind)⟩
  · rl_case
  · obtain ⟨_, t', h, h', h''⟩ := h16 k e hk
    exact ⟨t', h, h''.resolve_right hd', h'⟩
  all_goals rl_case

theorem Inv.stop {s : St} (h : Inv c s) (k : Nat) (e : Ent) (hk : s.calls k = .run e) :
    Inv c ((s.emit (.fin k e.id s.now .stop)).set k .done) := by
  obtain ⟨h1, h2, h3, h4, h5, h6, h7, h8, h9, h10, h11, h12, h13, h14, h15, h16, h17, h18⟩ := h
  refine ⟨?_, h2.snoc ?_, h3.snoc (by simp), ?_, ?_, ?_, ?_, h8, ?_, ?_, ?_, ?_, ?_, ?_,
    ?_, ?_, ?_, asked_step h18 (by simp) (by intro k e; simp only [St.set, St.emit]; grind)⟩
  · rl_case
  · obtain ⟨t', h⟩ := h17 k e hk; exact ⟨e, t', rfl, h⟩
  all_goals rl_case

theorem Inv.throw {s : St} (h : Inv c s) (k : Nat) (e : Ent) (hk : s.calls k = .run e) :
    Inv c (((s.emit (.fin k e.id s.now .throw)).emit (.err e.id)).set k .done) := by
  obtain ⟨h1, h2, h3, h4, h5, h6, h7, h8, h9, h10, h11, h12, h13, h14, h15, h16, h17, h18⟩ := h
  have hh : (s.calls k).holds = some e := by rw [hk]; rfl
  have hne : Ev.err e.id ∉ s.log := fun hm => (h11 _ hm).2.2 k e hh rfl
  have hfin : Legal c (s.log ++ [.fin k e.id s.now .throw]) := by
    obtain ⟨t', h⟩ := h17 k e hk; exact h2.snoc ⟨e, t', rfl, h⟩
  refine ⟨?_, hfin.snoc ⟨by simpa using hne, _, _, _, rfl⟩, h3.snoc2 _ _ _, ?_, ?_, ?_, ?_, h8, ?_, ?_, ?_, ?_, ?_, ?_,
    ?_, ?_, ?_, asked_step (s := s.emit (.fin k e.id s.now .throw)) (calls := fun i => if i = k then .done else s.calls i)
      (asked_step h18 (by simp) (by simp [St.emit]; grind)) (by simp)
      (by intro k e; simp only [St.emit]; grind)⟩
  · rl_case
  all_goals rl_case

theorem Inv.again {s : St} (h : Inv c s) (k : Nat) (e : Ent) (hk : s.calls k = .run e) (v tp : Int)
    (htp : tp = match c.kind e.id with
        | .fromNow => s.now + v
        | .fromThis => e.tp + v
        | .to => v) :
    Inv c ((s.emit (.fin k e.id s.now (.again v))).set k (.check ⟨tp, e.id⟩)) := by
  obtain ⟨h1, h2, h3, h4, h5, h6, h7, h8, h9, h10, h11, h12, h13, h14, h15, h16, h17, h18⟩ := h
  have hh : (s.calls k).holds = some e := by rw [hk]; rfl
  have hreq : requested c.kind (s.log ++ [.fin k e.id s.now (.again v)]) e.id = some tp := by
    rw [requested_snoc, htp]
    simp only [reqStep, if_true, h13 k e hh, Option.map_some]
    cases c.kind e.id <;> rfl
  have hreq' : ∀ i, i ≠ e.id → requested c.kind (s.log ++ [.fin k e.id s.now (.again v)]) i =
      requested c.kind s.log i := by
    intro i hi
    rw [requested_snoc]
    simp only [reqStep]
    rw [if_neg (fun h => hi h.symm)]
  have hcl : ∀ i x, ((if i = k then Call.check ⟨tp, e.id⟩ else s.calls i).holds = some x) →
      (i = k ∧ x = ⟨tp, e.id⟩) ∨ (i ≠ k ∧ (s.calls i).holds = some x) := by
    intro i x; split <;> simp_all [Call.holds]
  refine ⟨?_, h2.snoc ?_, h3.snoc (by simp), ?_, ?_, ?_, ?_, h8, ?_, ?_, ?_, ?_, ?_, ?_, ?_, ?_, ?_, ?_⟩
  · rl_case
  · obtain ⟨t', h⟩ := h17 k e hk; exact ⟨e, t', rfl, h⟩
  · rl_case
  · rl_case
  · rl_case
  · rl_case
  · rl_case
  · rl_case
  · rl_case
  · intro f hf
    simp only [St.set, St.emit]
    rw [hreq' _ (h7 k e hh f hf)]; exact h12 f hf
  · intro i x hx
    simp only [St.set, St.emit] at hx ⊢
    rcases hcl i x hx with ⟨rfl, rfl⟩ | ⟨hne, hx⟩
    · exact hreq
    · rw [hreq' _ (fun hid => hne (h6 i k x e hx hh hid))]; exact h13 i x hx
  · rl_case
  · rl_case
  · rl_case
  · rl_case
  · intro k' id t v' hm
    simp only [St.set, St.emit, List.mem_append, List.mem_singleton, Ev.fin.injEq] at hm ⊢
    rcases hm with hm | ⟨rfl, rfl, _⟩
    · rcases h18 k' id t v' hm with ⟨x, hx, hx'⟩ | h | h
      · left
        refine ⟨x, hx, ?_⟩
        rw [if_neg (by rintro rfl; simp [hk] at hx')]; exact hx'
      · exact .inr (.inl (.inl h))
      · exact .inr (.inr (asked_snoc h))
    · left
      exact ⟨⟨tp, e.id⟩, rfl, by simp⟩

theorem Inv.step {s : St} (h : Inv c s) (l : Lbl) : Inv c (RunLoop.step c s l) := by
  cases l with
  | tick d => exact h.tick d
  | schedule tp => exact h.schedule tp
  | dispatch w => exact h.dispatch w
  | disposeHandler d => exact h.disposeHandler d
  | disposeLoop => exact h.disposeLoop
  | step k =>
    simp only [RunLoop.step, callStep]
    cases hk : s.calls k with
    | done => exact h
    | check e => exact h.check k e hk
    | emplace e => exact h.emplace k e hk
    | run e => exact h
    | clear => exact h.clear k hk
    | popped e =>
      dsimp only
      split
      · rename_i hd; exact h.skip k e hk hd
      · rename_i hd; exact h.start k e hk hd
    | pop w =>
      simp only [popStep]
      split
      · rename_i hd; exact h.none k w hk (.inl hd)
      · rename_i hd
        have hd : s.dead = false := by simpa using hd
        split
        · rename_i hq
          split
          · exact h
          · refine h.none k w hk (.inr ?_)
            have := h.rep; rw [hq] at this
            rw [isort_nil this]; simp
        · rename_i top rest hq
          split
          · rename_i hr
            refine h.take k w hk hd top rest hq ?_
            simpa using hr
          · rename_i hr
            split
            · exact h
            · refine h.none k w hk (.inr ?_)
              have := (Test.IsNext_of_rep (by rw [h.rep, hq]) : TrampSpec.IsNext (waiting s.log) top ∧ _ ∧ _).2.2
              simp only [Bool.or_eq_true, decide_eq_true_eq, not_or] at hr
              intro e he; have := this e he; omega
  | ret k r =>
    simp only [RunLoop.step, retStep]
    cases hk : s.calls k with
    | run e =>
      cases r with
      | stop => exact h.stop k e hk
      | throw => exact h.throw k e hk
      | again v => exact h.again k e hk v _ rfl
    | _ => exact h

theorem Inv.exec (ls : List Lbl) : Inv c (RunLoop.exec c ls) := by
  suffices ∀ s, Inv c s → Inv c (ls.foldl (RunLoop.step c) s) from this _ Inv.init
  induction ls with
  | nil => exact fun s h => h
  | cons l ls ih => exact fun s h => ih _ (h.step l)

/-! ## Properties

For all executions: any number of threads, any interleaving. -/

/-- C60: a dispatch takes a task only if it is the earliest (first come among equal times) and due, or its handler
is disposed; never after the loop is disposed. -/
theorem C60_order (ls : List Lbl) (pre post : List Ev) (k : Nat) (e : Ent) (t : Int)
    (h : (exec c ls).log = pre ++ .take k e t :: post) :
    TrampSpec.IsNext (waiting pre) e ∧ (e.tp ≤ t ∨ .hdisp (c.hnd e.id) ∈ pre) ∧ .ldisp ∉ pre :=
  let k := (Inv.exec ls).legal _ _ _ h
  ⟨k.1, k.2.2.2.1, k.2.1⟩

/-- C60: what is run has been taken by the same dispatch when it was due, and runs at the time requested or later. -/
theorem C60_not_early (ls : List Lbl) (pre post : List Ev) (k : Nat) (e : Ent) (t : Int)
    (h : (exec c ls).log = pre ++ .start k e t :: post) :
    requested c.kind pre e.id = some e.tp ∧ ∃ t', .take k e t' ∈ pre ∧ e.tp ≤ t' ∧ t' ≤ t :=
  let k := (Inv.exec ls).legal _ _ _ h
  ⟨k.2.2.2.1, k.2.2.2.2⟩

/-- C60: a dispatch runs at most one task. -/
theorem C60_at_most_one (ls : List Lbl) (pre post : List Ev) (k : Nat) (e e' : Ent) (t t' : Int)
    (h : (exec c ls).log = pre ++ .start k e t :: post) : .start k e' t' ∉ pre ∧ .start k e' t' ∉ post := by
  have hl := (Inv.exec (c := c) ls).legal
  refine ⟨(hl _ _ _ h).2.2.1 e' t', fun hm => ?_⟩
  obtain ⟨a, b, rfl⟩ := List.append_of_mem hm
  exact (hl (pre ++ .start k e t :: a) (.start k e' t') b (by simp [h])).2.2.1 e t (by simp)

/-- C60: a dispatch leaves empty-handed only if no waiting task is due (or the loop is disposed). -/
theorem C60_nothing_only_if_none_due (ls : List Lbl) (pre post : List Ev) (k : Nat) (t : Int)
    (h : (exec c ls).log = pre ++ .none k t :: post) : .ldisp ∈ pre ∨ ∀ e ∈ waiting pre, t < e.tp :=
  ((Inv.exec ls).legal _ _ _ h).imp id And.left

/-- C60: a dispatch that finds a due task takes one, without waiting. -/
theorem C60_takes_ready (ls : List Lbl) (k : Nat) (w : Bool) (hk : (exec c ls).calls k = .pop w)
    (hd : .ldisp ∉ (exec c ls).log) (hr : ∃ e ∈ waiting (exec c ls).log, e.tp ≤ (exec c ls).now) :
    ∃ e t, (step c (exec c ls) (.step k)).log = (exec c ls).log ++ [.take k e t] := by
  have hi := Inv.exec (c := c) ls
  have hdd : (exec c ls).dead = false := by
    cases hx : (exec c ls).dead with
    | false => rfl
    | true => exact absurd (hi.ldead.mp hx) hd
  simp only [step, callStep, hk, popStep, hdd]
  obtain ⟨e, he, hle⟩ := hr
  cases hq : (exec c ls).queue with
  | nil => have := hi.rep; rw [hq] at this; rw [isort_nil this] at he; cases he
  | cons top rest =>
    have := (Test.IsNext_of_rep (by rw [hi.rep, hq]) :
      TrampSpec.IsNext (waiting (exec c ls).log) top ∧ _ ∧ _).2.2 e he
    have : decide (top.tp ≤ (exec c ls).now) = true := by simp; omega
    simp only [this, Bool.or_true, if_true, Bool.false_eq_true, if_false]
    exact ⟨top, _, rfl⟩

/-- C60: a run that asks for another one is entered again, once the dispatch has returned, unless the loop is
disposed; the time is the requested one. -/
theorem C60_rescheduled (ls : List Lbl) (k id : Nat) (t v : Int)
    (h : .fin k id t (.again v) ∈ (exec c ls).log) (hret : (exec c ls).calls k = .done) :
    .ldisp ∈ (exec c ls).log ∨ ∃ pre post tp, (exec c ls).log = pre ++ .sched ⟨tp, id⟩ :: post ∧
      .fin k id t (.again v) ∈ pre ∧ requested c.kind pre id = some tp := by
  have hi := Inv.exec (c := c) ls
  rcases hi.asked k id t v h with ⟨e, _, h | h⟩ | h | ⟨pre, post, tp, h1, h2⟩
  · rw [hret] at h; cases h
  · rw [hret] at h; cases h
  · exact .inl h
  · exact .inr ⟨pre, post, tp, h1, h2, (hi.legal _ _ _ h1).1⟩

/-- C60: a dispatch called after the disposal of the loop runs nothing. -/
theorem C60_after_dispose (ls : List Lbl) (pre post : List Ev) (k : Nat) (e : Ent) (t : Int)
    (h : (exec c ls).log = pre ++ .ldisp :: post) (hk : .dispatch k ∉ pre) : .start k e t ∉ (exec c ls).log := by
  have hl := (Inv.exec (c := c) ls).legal
  intro hm
  obtain ⟨a, b, hab⟩ := List.append_of_mem hm
  obtain ⟨t', ht, _⟩ := (hl _ _ _ hab).2.2.2.2
  obtain ⟨a', b', rfl⟩ := List.append_of_mem ht
  have h' : (exec c ls).log = a' ++ .take k e t' :: (b' ++ .start k e t :: b) := by simp [hab]
  have hok := hl _ _ _ h'
  have hnl := hok.2.1
  have hdis := hok.2.2.2.2.1
  -- the removal lies before the disposal
  rw [h] at h'
  rcases List.append_eq_append_iff.mp h' with ⟨x, rfl, hx⟩ | ⟨x, rfl, hx⟩
  · cases x with
    | nil => simp at hx
    | cons y x => simp at hx; exact hnl (by simp [hx.1])
  · exact hk (by simp [hdis])

/-- C64 for the run loop: a task whose handler is disposed is not started. -/
theorem C64_run_loop (ls : List Lbl) (pre post : List Ev) (k : Nat) (e : Ent) (t : Int)
    (h : (exec c ls).log = pre ++ .start k e t :: post) : .hdisp (c.hnd e.id) ∉ pre :=
  ((Inv.exec ls).legal _ _ _ h).1

/-- C65 for the run loop: a throw is reported at once to the handler, once for the task, and the task neither
enters the queue nor is started again. -/
theorem C65_run_loop (ls : List Lbl) (pre post : List Ev) (k id : Nat) (t : Int)
    (h : (exec c ls).log = pre ++ .fin k id t .throw :: post) :
    ∃ p, post = .err id :: p ∧ .err id ∉ pre ∧ .err id ∉ p ∧
      (∀ e ∈ p.filterMap (fun | .sched e => some e | .start _ e _ => some e | _ => Option.none), e.id ≠ id) := by
  have hi := Inv.exec (c := c) ls
  obtain ⟨p, rfl⟩ := hi.paired _ _ _ _ _ h
  have h' : (exec c ls).log = (pre ++ [.fin k id t .throw]) ++ .err id :: p := by simp [h]
  refine ⟨p, rfl, ?_, ?_, ?_⟩
  · have := (hi.legal _ _ _ h').1
    intro hm; exact this (by simp [hm])
  · intro hm
    obtain ⟨a, b, rfl⟩ := List.append_of_mem hm
    exact (hi.legal (pre ++ .fin k id t .throw :: .err id :: a) (.err id) b (by simp [h])).1 (by simp)
  · intro e he hid
    obtain ⟨ev, hev, hx⟩ := List.mem_filterMap.mp he
    obtain ⟨a, b, rfl⟩ := List.append_of_mem hev
    have hl := hi.legal (pre ++ .fin k id t .throw :: .err id :: a) ev b (by simp [h])
    cases ev <;> simp at hx
    · subst hx; exact hl.2 (by simp [hid])
    · subst hx; exact hl.2.1 (by simp [hid])

/-- Non-vacuity: two tasks, dispatched one by one; a repetition; a handler disposed by another call between
removal and start; a throw; the loop disposed; a dispatch after that. -/
def exCfg : Cfg := { kind := fun _ => .fromThis, hnd := id }

example : (exec exCfg [.schedule 5, .step 0, .step 0, .schedule 3, .step 1, .step 1, .dispatch false, .step 2, .tick 5,
      .dispatch false, .step 3, .step 3, .ret 3 (.again 10), .step 3, .step 3, .dispatch true, .step 4,
      .disposeHandler 0, .step 4, .tick 20, .dispatch false, .step 5, .step 5, .ret 5 .throw, .disposeLoop, .step 6,
      .dispatch true, .step 7]).log =
    [.call 0 5, .sched ⟨5, 0⟩, .call 1 3, .sched ⟨3, 1⟩, .dispatch 2, .none 2 0, .dispatch 3, .take 3 ⟨3, 1⟩ 5,
     .start 3 ⟨3, 1⟩ 5, .fin 3 1 5 (.again 10), .sched ⟨13, 1⟩, .dispatch 4, .take 4 ⟨5, 0⟩ 5, .hdisp 0,
     .skip 4 ⟨5, 0⟩, .dispatch 5, .take 5 ⟨13, 1⟩ 25, .start 5 ⟨13, 1⟩ 25, .fin 5 1 25 .throw, .err 1, .ldisp,
     .cleared, .dispatch 7, .none 7 25] := by decide

end Rpp.Sched.RunLoop
