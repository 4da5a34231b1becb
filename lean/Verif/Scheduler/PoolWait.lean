/-!
# C117: tasks of thread pools that wait for other tasks

Models what happens when the body of a task subscribes to `source | subscribe_on(scheduler) | as_blocking()` (observables/blocking_observable.hpp 63-73: subscribe, then wait for the end) or just subscribes to `source |
subscribe_on(scheduler)`, for the schedulers `new_thread` (a new thread per worker, new_thread.hpp 65-117) and `thread_pool` / `computational` (the threads of the pool in turn, thread_pool.hpp 66-88).  A thread runs
the tasks of its queue one after the other, in the order in which they were scheduled (new_thread.hpp 69-114); all tasks here are due at once.

Simplified: `get` of a pool is one step (C116 has its race); a source is the task that emits and ends; only the end of the source matters for the wait (C56 has `as_blocking` itself).
-/

namespace Rpp.Sched.PoolWait

/-- The scheduler of a task: `new_thread{}` or pool number `p` (new_thread.hpp 145-148, thread_pool.hpp 66-69). -/
inductive Where where
  | fresh
  | pool (p : Nat)
deriving DecidableEq

/-- The body of a task: `spawn w b k` subscribes to a source with body `b` on scheduler `w` and goes on with `k`; `join w b k` waits for the end of that source first (blocking_observable.hpp 63-73). -/
inductive Prog where
  | done
  | spawn (w : Where) (b k : Prog)
  | join (w : Where) (b k : Prog)
deriving DecidableEq

/-- A thread: number `i` of pool `p`, or the `n`-th thread that is not of a pool. -/
inductive Th where
  | pool (p i : Nat)
  | own (n : Nat)
deriving DecidableEq

/-- A task that is queued or running: the first one of a thread is running.  `wait`: the task it is waiting for (blocking_observable.hpp 25-29).  `lv` is bookkeeping for the proofs: no step looks at it. -/
structure Task where
  id : Nat
  th : Th
  prog : Prog
  wait : Option Nat
  lv : Nat

/-- `tasks`: the tasks of all queues, in the order of scheduling; `index`: `m_index` of each pool (thread_pool.hpp 87); `own`, `next`: number of threads outside of pools and of tasks so far; `fin`: tasks that have ended;
`log`: the threads that have made a step. -/
structure St where
  tasks : List Task := []
  index : Nat → Nat := fun _ => 0
  own : Nat := 0
  next : Nat := 0
  fin : Nat → Bool := fun _ => false
  log : List Th := []

/-- The running task of a thread: the first of its queue (new_thread.hpp 69-114). -/
def St.head (s : St) (th : Th) : Option Task := s.tasks.find? (fun t => decide (t.th = th))

/-- A worker is created and the task scheduled with it (subscribe_on.hpp 49-54; new_thread.hpp 145-148; thread_pool.hpp 83). -/
def St.schedule (size : Nat → Nat) (s : St) (w : Where) (b : Prog) (lv : Nat) : St :=
  match w with
  | .fresh => { s with tasks := s.tasks ++ [⟨s.next, .own s.own, b, none, lv⟩], own := s.own + 1, next := s.next + 1 }
  | .pool p => { s with tasks := s.tasks ++ [⟨s.next, .pool p (s.index p % size p), b, none, lv⟩], index := fun q => if q = p then s.index p + 1 else s.index q, next := s.next + 1 }

/-- The running task of a thread goes on with `k` and waits for `j` (no counterpart in /repo: the program counter of the thread). -/
def St.goOn (s : St) (id : Nat) (k : Prog) (j : Option Nat) : St :=
  { s with tasks := s.tasks.map fun t => if t.id = id then { t with prog := k, wait := j } else t }

/-- The level of a task for the proofs: 0 if it is not of a pool and nobody waits for it, `p + 1` for pool `p`, that of the waiting task for a thread of its own.  No counterpart in /repo. -/
def level (lv : Nat) : Where → Nat
  | .fresh => lv
  | .pool p => p + 1

/-- One step of thread `th`: the running task starts a source, waits or ends (new_thread.hpp 69-114, blocking_observable.hpp 63-73). -/
def step (size : Nat → Nat) (s : St) (th : Th) : St :=
  match s.head th with
  | none => s
  | some t =>
    match t.wait with
    | some j => if s.fin j = true then { s.goOn t.id t.prog none with log := s.log ++ [th] } else s
    | none =>
      match t.prog with
      | .done => { s with tasks := s.tasks.filter (fun u => decide (u.id ≠ t.id)), fin := fun i => if i = t.id then true else s.fin i, log := s.log ++ [th] }
      | .spawn w b k => { (s.goOn t.id k none).schedule size w b (level 0 w) with log := s.log ++ [th] }
      | .join w b k => { (s.goOn t.id k (some s.next)).schedule size w b (level t.lv w) with log := s.log ++ [th] }

/-- The program starts with some threads of its own (no counterpart in /repo: user code). -/
def start : List Prog → St
  | [] => {}
  | b :: bs => (start bs).schedule (fun _ => 1) .fresh b 0

/-- The state after steps of these threads; no counterpart in /repo. -/
def exec (size : Nat → Nat) (bs : List Prog) (ls : List Th) : St := ls.foldl (step size) (start bs)

/-! ## Specification -/

/-- What is left of a task: the number of its steps, with those of the sources it starts.  Specification; models no code. -/
def Prog.size : Prog → Nat
  | .done => 1
  | .spawn _ b k => 1 + b.size + k.size
  | .join _ b k => 2 + b.size + k.size

/-- A thread can make a step: it has a task that is not waiting, or what it is waiting for has ended.  Specification; models no code. -/
def Enabled (s : St) (th : Th) : Prop := ∃ t, s.head th = some t ∧ (t.wait = none ∨ ∃ j, t.wait = some j ∧ s.fin j = true)

/-- A task with waits in order: with the tasks of pool `p` at level `p + 1`, it waits only for tasks of pools of a higher level, or for threads of their own that (as somebody of its level waits for them) do the same;
it may start anything.  Specification; models no code. -/
def Layered : Nat → Prog → Prop
  | _, .done => True
  | lv, .spawn .fresh b k => Layered 0 b ∧ Layered lv k
  | lv, .spawn (.pool p) b k => Layered (p + 1) b ∧ Layered lv k
  | lv, .join .fresh b k => Layered lv b ∧ Layered lv k
  | lv, .join (.pool p) b k => lv < p + 1 ∧ Layered (p + 1) b ∧ Layered lv k

/-- A program that uses `new_thread` only.  Specification; models no code. -/
def NewThreadsOnly : Prog → Prop
  | .done => True
  | .spawn w b k => w = .fresh ∧ NewThreadsOnly b ∧ NewThreadsOnly k
  | .join w b k => w = .fresh ∧ NewThreadsOnly b ∧ NewThreadsOnly k

/-- A program that waits nowhere.  Specification; models no code. -/
def NeverWaits : Prog → Prop
  | .done => True
  | .spawn _ b k => NeverWaits b ∧ NeverWaits k
  | .join _ _ _ => False

end Rpp.Sched.PoolWait
