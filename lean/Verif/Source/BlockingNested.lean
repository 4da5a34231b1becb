/-!
# `as_blocking` on a thread which owns the queue of `current_thread`

`blocking_strategy::subscribe` (observables/blocking_observable.hpp 63-73) subscribes to the original
observable and then waits on a condition variable until its observer is disposed of.  A source such
as `just` or `from_iterable` is given to `current_thread` (sources/from.hpp 124-125, schedulers/
fwd.hpp 168), which runs it at once on a thread that owns no queue, and puts it into the queue of the
thread otherwise (schedulers/current_thread.hpp 148-167).  This file is a machine of ONE thread with
its queue, the code that runs on it, and the waits of `as_blocking`.

Simplified: tasks are due at once, hence the queue is first in, first out; nobody disposes of a
subscription early; the sources are on `current_thread` — a source on another thread is ended by that
thread and is the subject of `Verif/Source/Blocking.lean`; exceptions are left out.
-/

namespace Rpp.BlkNest

/-- One call of `subscribe` on an observable put together from `current_thread` sources.
`srcs` are the sources in the order in which the chain subscribes to them; `true` marks a source
which the chain has under `as_blocking()` (`just(1) | as_blocking() | merge_with(…)`).
`own`: an operator of the chain takes the queue for the duration of the subscription
(`own_current_queue`: merge.hpp 140, with_latest_from.hpp 139, take_until.hpp 102,
combining_strategy.hpp 89, timeout.hpp 114, window_toggle.hpp 200;
observables/details/chain_strategy.hpp 48, 59-65).
`outer`: the whole chain is under `as_blocking()` (operators/as_blocking.hpp 20-34). -/
structure Sub where
  outer : Bool
  own : Bool
  srcs : List Bool
  deriving DecidableEq, Repr

/-- What is on the call stack of the thread. -/
inductive Frame where
  /-- the code of task `k`: what is left of this turn, and the turns to come; a task of
  `from_iterable` makes one turn per value (sources/from.hpp 51-81).  Task 0 is the code the thread
  was started with. -/
  | run (k : Nat) (todo : List Sub) (turns : List (List Sub))
  /-- a subscription under way: the sources still to be subscribed to, those that were,
  `outer` of `Sub`, and whether the subscription took the queue itself (`own_queue_guard`,
  current_thread.hpp 189-215) -/
  | subs (srcs : List Bool) (acc : List Nat) (outer guard : Bool)
  /-- `drain_queue`, current_thread.hpp 105-142 -/
  | drain
  /-- `locked->wait()` for the end of the given sources, blocking_observable.hpp 70-72 -/
  | wait (js : List Nat)
  deriving DecidableEq, Repr

/-- The thread.  `owned` is `get_queue() != nullptr` (current_thread.hpp 91-95), `queue` the tasks in
it with the turns they still have to make, `next` numbers the sources subscribed to so far,
`ended` are the tasks which are over. -/
structure St where
  stack : List Frame
  owned : Bool := false
  queue : List (Nat × List (List Sub)) := []
  next : Nat := 1
  ended : List Nat := []
  deriving DecidableEq, Repr

/-- The call of a task: its first turn starts (`make_advanced_call`, current_thread.hpp 117;
`immediate_scheduling_while_condition`, line 158). -/
def call (k : Nat) : List (List Sub) → Frame
  | [] => .run k [] []
  | t :: ts => .run k t ts

/-- One step of the thread.  `user k` is the code of task `k`: for each turn the subscriptions its
callbacks make.  In the order of the cases:
* `subscribe` is called; an operator with `own_current_queue` takes the queue unless it is owned
  (chain_strategy.hpp 48, current_thread.hpp 192-197);
* a turn is over: the task goes on at once when the queue is empty, and goes to its end otherwise
  (current_thread.hpp 117-137 and, for the first task, 158-163);
* the task is over: `on_completed` disposes of the observer and with it of the `blocking_disposable`;
* the next source is scheduled: to the queue when there is one (line 166), else it is run at once and
  the queue drained afterwards (153-163); under `as_blocking()` its end is waited for then;
* all sources are subscribed to: the guard drains the queue (current_thread.hpp 198-202), the outer
  `as_blocking()` waits;
* `drain_queue`;
* the wait: it is over when all it waits for has ended, and nothing happens before. -/
def step (user : Nat → List (List Sub)) (s : St) : St :=
  match s.stack with
  | [] => s
  | .run k (a :: todo) turns :: rest =>
    { s with owned := s.owned || a.own
             stack := .subs a.srcs [] a.outer (a.own && !s.owned) :: .run k todo turns :: rest }
  | .run k [] (t :: ts) :: rest =>
    if s.queue.isEmpty then { s with stack := .run k t ts :: rest }
    else { s with queue := s.queue ++ [(k, t :: ts)], stack := rest }
  | .run k [] [] :: rest => { s with ended := k :: s.ended, stack := rest }
  | .subs (b :: srcs) acc outer g :: rest =>
    if s.owned then
      { s with queue := s.queue ++ [(s.next, user s.next)], next := s.next + 1
               stack := (if b then [.wait [s.next]] else []) ++
                        .subs srcs (s.next :: acc) outer g :: rest }
    else
      { s with owned := true, next := s.next + 1
               stack := call s.next (user s.next) :: .drain ::
                        ((if b then [.wait [s.next]] else []) ++
                          .subs srcs (s.next :: acc) outer g :: rest) }
  | .subs [] acc outer g :: rest =>
    { s with stack := (if g then [.drain] else []) ++
                      ((if outer then [.wait acc] else []) ++ rest) }
  | .drain :: rest =>
    match s.queue with
    | [] => { s with owned := false, stack := rest }
    | (k, ts) :: q => { s with queue := q, stack := call k ts :: .drain :: rest }
  | .wait js :: rest =>
    if js.all (s.ended.contains ·) then { s with stack := rest } else s

/-- The thread at its start: `inTask = false` is a thread which owns no queue, as `main`;
`inTask = true` is a task of `current_thread`, or of `new_thread` and of the schedulers built on it,
whose thread makes its own queue the queue of `current_thread` (new_thread.hpp 67). -/
def init (user : Nat → List (List Sub)) (inTask : Bool) : St :=
  { stack := call 0 (user 0) :: (if inTask then [.drain] else []), owned := inTask }

/-- The thread after `n` steps (models no code of its own). -/
def at_ (user : Nat → List (List Sub)) (inTask : Bool) : Nat → St
  | 0 => init user inTask
  | n + 1 => step user (at_ user inTask n)

/-- Specification: the thread hangs — from some moment on nothing happens any more although there is
code left to run (no counterpart in /repo). -/
def Hangs (user : Nat → List (List Sub)) (inTask : Bool) : Prop :=
  ∃ n, (at_ user inTask n).stack ≠ [] ∧ ∀ m, n ≤ m → at_ user inTask m = at_ user inTask n

/-- Specification: the next thing the thread does is a `subscribe` which will wait while the queue is
owned: the whole chain is under `as_blocking()` and the thread owns the queue already, or a source
inside is under `as_blocking()` and the queue is owned already or taken by the chain itself
(no counterpart in /repo). -/
def BlocksOwned (s : St) : Prop :=
  ∃ k a todo turns rest, s.stack = .run k (a :: todo) turns :: rest ∧
    (((s.owned = true ∨ a.own = true) ∧ true ∈ a.srcs) ∨
      (s.owned = true ∧ a.outer = true ∧ a.srcs ≠ []))

/-! ## Invariants -/

/-- Frames which keep the queue owned (part of the proof). -/
def Frame.owner : Frame → Bool
  | .drain => true
  | .subs _ _ _ g => g
  | _ => false

/-- Somebody further down owns the queue (part of the proof). -/
def owner (l : List Frame) : Bool := l.any Frame.owner

/-- The queue has one owner at a time (part of the proof). -/
def One : List Frame → Prop
  | [] => True
  | f :: r => (f.owner = true → owner r = false) ∧ One r

/-- Shape of the stack as long as nobody waited while the queue was owned (part of the proof). -/
def Good : List Frame → Prop
  | [] => True
  | .run k _ _ :: r => (k ≠ 0 → owner r = true) ∧ Good r
  | .drain :: r => Good r
  | .subs srcs acc outer g :: r =>
    (true ∈ srcs → g = false ∧ owner r = false) ∧
      (outer = true → owner r = false ∨ (srcs = [] ∧ acc = [])) ∧ Good r
  | .wait js :: r => (owner r = false ∨ js = []) ∧ Good r

/-- The numbers a frame speaks of exist (part of the proof). -/
def Frame.below (n : Nat) : Frame → Prop
  | .run k _ _ => k < n
  | .subs _ acc _ _ => ∀ j ∈ acc, 0 < j ∧ j < n
  | .drain => True
  | .wait js => ∀ j ∈ js, 0 < j ∧ j < n

/-- What holds after every step (part of the proof). -/
structure Inv (s : St) : Prop where
  own : s.owned = owner s.stack
  one : One s.stack
  q : s.owned = false → s.queue = []
  pos : 0 < s.next
  fr : ∀ f ∈ s.stack, f.below s.next
  qn : ∀ x ∈ s.queue, x.1 < s.next
  en : ∀ j ∈ s.ended, j < s.next
  all : ∀ j, 0 < j → j < s.next →
    j ∈ s.ended ∨ (∃ x ∈ s.queue, x.1 = j) ∨ ∃ t ts, .run j t ts ∈ s.stack

end Rpp.BlkNest
