import Verif.Scheduler.Queue
/-!
# current_thread scheduler: model (C56, C57, C64, C65)

Models schedulers/current_thread.hpp (`drain_queue` 105-142, `worker_strategy` 144-186, `own_queue_guard`
189-215), schedulers/details/utils.hpp (`now`, `sleep_until`, the three overloads of
`immediate_scheduling_while_condition`, 20-161) and schedulers/details/queue.hpp (`specific_schedulable`
115-172).

One thread. A task is known by the number of its `schedule` call; what its `n`-th invocation does (a list of
actions and a result) is an arbitrary function of task number and `n`, so every deterministic or adaptive user
program is covered by a suitable choice of that function. Time is a virtual clock: it moves while a task runs
(`elapse`) and while the thread sleeps (possibly longer than asked, `lag`); the scheduler's own instructions
take no time. Other threads may dispose a task's handler at any moment (`ext`).
-/

namespace Rpp.Sched

/-- Which of `optional_delay_from_now`, `optional_delay_from_this_timepoint`, `optional_delay_to` the
schedulable returns (fwd.hpp 36-80); fixed by its C++ type. -/
inductive Kind where
  | fromNow | fromThis | to
deriving DecidableEq, Repr

/-- Outcome of one invocation: `nullopt`, a value (a duration or a time point, depending on `Kind`), or an
exception. (schedulers/fwd.hpp 26-78) -/
inductive Res where
  | stop | again (v : Int) | throw
deriving DecidableEq, Repr

/-- What user code does between scheduler calls. -/
inductive Act where
  | elapse (d : Nat)      -- time passes
  | deferFor (d : Int)    -- worker.schedule(duration, …)
  | deferTo (tp : Int)    -- worker.schedule(time_point, …)
  | dispose (h : Nat)     -- dispose a handler
deriving DecidableEq, Repr

/-- The world around the scheduler; all of it is universally quantified in the theorems. -/
structure Cfg where
  /-- what the `n`-th invocation of task `id` does -/
  body : Nat → Nat → List Act × Res
  kind : Nat → Kind
  /-- the handler passed with task `id` -/
  hnd : Nat → Nat
  /-- when (if ever) another thread disposes a handler -/
  ext : Nat → Option Int
  /-- how much longer than asked the `n`-th logged sleep takes -/
  lag : Nat → Nat

namespace CT

/-- Observable events. `call` : user code asks the worker to run task `id` at time `due`; `sched` : a run of a task was requested for a time; `drop` : the request was discarded
because the handler is disposed; `start` / `fin` : the user function is entered / left; `err` : the handler's
`on_error` is called; `disp` : the thread disposes a handler. -/
inductive Ev where
  | call (id : Nat) (due : Int)
  | sched (e : Ent)
  | drop (e : Ent)
  | start (e : Ent) (t : Int)
  | fin (id : Nat) (t : Int) (r : Res)
  | err (id : Nat)
  | disp (h : Nat)
deriving DecidableEq, Repr

/-- The loop variable of `immediate_scheduling_while_condition`: an absolute time (`timepoint`) or a duration
still to be slept (`duration`). (schedulers/details/utils.hpp 27-160) -/
inductive Wait where
  | till (tp : Int)
  | dur (d : Int)
deriving DecidableEq, Repr

/-- Program counter of the thread. (schedulers/current_thread.hpp 30-150, details/utils.hpp 27-160) -/
inductive Mode where
  | user                       -- outside the scheduler (inside an `own_queue_guard` scope if `owned`)
  | imm (id : Nat) (w : Wait)  -- in the while loop of immediate_scheduling_while_condition
  | drain                      -- in the outer while loop of drain_queue
  | inner (top : Ent) (due : Int)  -- in the inner `while (true)` of drain_queue, about to call again; `top`
                                   -- keeps its `m_time_point`, `due` is the time slept until (ghost)
deriving DecidableEq, Repr

/-- State: the members of the objects of schedulers/current_thread.hpp 30-150, details/utils.hpp 27-160, what the running calls are doing, and the log. -/
structure St where
  now : Int := 0
  /-- `s_last_now_time`, utils.hpp 20 -/
  last : Int := 0
  /-- `get_queue() != nullptr` -/
  owned : Bool := false
  queue : List Ent := []
  mode : Mode := .user
  /-- number of `schedule` calls so far -/
  next : Nat := 0
  /-- invocations so far, per task -/
  inv : Nat → Nat := fun _ => 0
  disposed : List Nat := []
  log : List Ev := []

variable (c : Cfg)

/-- Log an event; no counterpart in /repo. -/
def St.emit (s : St) (ev : Ev) : St := { s with log := s.log ++ [ev] }

/-- `handler.is_disposed()`: disposed by this thread or by another one. (schedulers/current_thread.hpp 30-150, details/utils.hpp 27-160) -/
def isDisposed (s : St) (id : Nat) : Bool :=
  s.disposed.contains (c.hnd id) || (match c.ext (c.hnd id) with | none => false | some t => t ≤ s.now)

/-- `details::now()`, utils.hpp 22-25: reads the clock and caches the value. -/
def readNow (s : St) : St := { s with last := s.now }

/-- `std::this_thread::sleep_for(d)`: returns at once for `d ≤ 0`. (schedulers/details/utils.hpp 27-160) -/
def sleepFor (s : St) (d : Int) : St :=
  if d > 0 then { s with now := s.now + d + c.lag s.log.length } else s

/-- `details::sleep_until`, utils.hpp 27-36. -/
def sleepUntil (s : St) (tp : Int) : St × Bool :=
  if tp ≤ s.last then (s, false)
  else
    let s' := sleepFor c s (tp - s.now)
    ({ s' with last := max s.now tp }, tp > s.now)

/-- `get_queue()->emplace(tp, …)`, queue.hpp 220-235. -/
def St.enqueue (s : St) (e : Ent) : St := { s with queue := emplace s.queue e }.emit (.sched e)

/-- `worker_strategy::defer_for`, current_thread.hpp 147-167; the entry of
`immediate_scheduling_while_condition` (utils.hpp 48 / 79 / 126) if there is no queue yet. The call is a new
task, numbered `next`. -/
def deferFor (s : St) (d : Int) : St :=
  let id := s.next
  let s := { s with next := id + 1 }
  if isDisposed c s id then s
  else if s.owned then
    let s := readNow s
    s.enqueue ⟨s.now + d, id⟩
  else
    let s := { s with owned := true, queue := [] }
    match c.kind id with
    | .fromThis => let s := readNow s; { s with mode := .imm id (.till (s.now + d)) }
    | _ => { s with mode := .imm id (.dur d) }

/-- `worker_strategy::defer_to`, current_thread.hpp 169-183. -/
def deferTo (s : St) (tp : Int) : St :=
  if isDisposed c s s.next then { s with next := s.next + 1 }
  else if s.owned then ({ s with next := s.next + 1 }).enqueue ⟨tp, s.next⟩
  else deferFor c (readNow s) (tp - s.now)

/-- User code. -/
def doAct (s : St) : Act → St
  | .elapse d => { s with now := s.now + d }
  | .deferFor d => deferFor c (s.emit (.call s.next (s.now + d))) d
  | .deferTo tp => deferTo c (s.emit (.call s.next tp)) tp
  | .dispose h => { s with disposed := h :: s.disposed }.emit (.disp h)

/-- One call of the user function with the exception handling of `make_advanced_call` (queue.hpp 143-155) or
of the `try` blocks in utils.hpp 57-69: an exception goes to the handler's `on_error`. -/
def runTask (s : St) (e : Ent) : St × Res :=
  let b := c.body e.id (s.inv e.id)
  let s := { s with inv := fun i => if i = e.id then s.inv e.id + 1 else s.inv i }.emit (.start e s.now)
  let s := b.1.foldl (doAct c) s
  let s := s.emit (.fin e.id s.now b.2)
  (match b.2 with | .throw => s.emit (.err e.id) | _ => s, b.2)

/-- One iteration of the `while (condition())` loop of `immediate_scheduling_while_condition`
(utils.hpp 49-72, 86-113, 127-160) with `condition` = queue is empty, and what `defer_for` does with its result
(current_thread.hpp 157-162). -/
def immStep (s : St) (id : Nat) (w : Wait) : St :=
  if !s.queue.isEmpty then
    -- condition failed: the loop returns the time point of the next run
    let (s, tp) : St × Int := match w with
      | .till tp => (s, tp)
      | .dur d => let s := readNow s; (s, s.now + d)
    if isDisposed c s id then { s with mode := .drain }
    else { s.enqueue ⟨tp, id⟩ with mode := .drain }
  else if isDisposed c s id then { s with mode := .drain }
  else
    let (s, slept, due) : St × Bool × Int := match w with
      | .till tp => let r := sleepUntil c s tp; (r.1, r.2, tp)
      | .dur d => (sleepFor c s d, d > 0, s.now + d)
    if slept && isDisposed c s id then { s with mode := .drain }
    else
      let e : Ent := ⟨due, id⟩
      let (s, r) := runTask c (s.emit (.sched e)) e
      match r with
      | .again v =>
        { s with mode := .imm id (match c.kind id with
          | .fromThis => .till (due + v)
          | .fromNow => .dur v
          | .to => .till v) }
      | _ => { s with mode := .drain }

/-- The result of one call inside `drain_queue`, current_thread.hpp 117-136. -/
def afterCall (s : St) (top : Ent) (r : Res) : St :=
  match r with
  | .again v =>
    if isDisposed c s top.id then { s with mode := .drain }
    else if s.queue.isEmpty then
      -- 121-131: sleep here and call again; `top->m_time_point` is not updated
      match c.kind top.id with
      | .fromNow =>
        let due := s.now + v
        let s := sleepFor c (s.emit (.sched ⟨due, top.id⟩)) v
        { s with mode := .inner top due }
      | .fromThis =>
        let due := top.tp + v
        let s := (sleepUntil c (s.emit (.sched ⟨due, top.id⟩)) due).1
        { s with mode := .inner top due }
      | .to =>
        let s := (sleepUntil c (s.emit (.sched ⟨v, top.id⟩)) v).1
        { s with mode := .inner top v }
    else
      -- 132-133: `handle_advanced_call` (queue.hpp 96-109) and `emplace`
      match c.kind top.id with
      | .fromNow => let s := readNow s; { s.enqueue ⟨s.now + v, top.id⟩ with mode := .drain }
      | .fromThis => { s.enqueue ⟨top.tp + v, top.id⟩ with mode := .drain }
      | .to => { s.enqueue ⟨v, top.id⟩ with mode := .drain }
  | _ => { s with mode := .drain }

/-- One iteration of the outer `while` of `drain_queue` (current_thread.hpp 107-115 and the first pass of the
inner loop), and its exit (141). -/
def drainStep (s : St) : St :=
  match s.queue with
  | [] => { s with owned := false, mode := .user }
  | top :: rest =>
    let s := { s with queue := rest }
    if isDisposed c s top.id then s.emit (.drop top)
    else
      let s := (sleepUntil c s top.tp).1
      let (s, r) := runTask c s top
      afterCall c s top r

/-- A further pass of the inner `while (true)`, current_thread.hpp 115-136. -/
def innerStep (s : St) (top : Ent) (due : Int) : St :=
  let (s, r) := runTask c s ⟨due, top.id⟩
  afterCall c s top r

/-- What happens on the thread. `act` : user code outside any task; `own` / `release` : constructor and
destructor of the outermost `own_queue_guard` (current_thread.hpp 192-203); `run` : the scheduler makes its next
step. User code outside tasks only runs while the scheduler does not. -/
inductive Lbl where
  | act (a : Act)
  | own
  | release
  | run
deriving DecidableEq, Repr

/-- One step; the single cases cite the lines of schedulers/current_thread.hpp 30-150, details/utils.hpp 27-160 they model. -/
def step (s : St) : Lbl → St
  | .act a => match s.mode with
    | .user => doAct c s a
    | _ => s
  | .own => match s.mode with
    | .user => if s.owned then s else { s with owned := true, queue := [] }
    | _ => s
  | .release => match s.mode with
    | .user => if s.owned then { s with mode := .drain } else s
    | _ => s
  | .run => match s.mode with
    | .user => s
    | .imm id w => immStep c s id w
    | .drain => drainStep c s
    | .inner top due => innerStep c s top due

/-- The state after a sequence of steps; no counterpart in /repo. -/
def exec (ls : List Lbl) : St := ls.foldl (step c) {}

end CT

/-! ## Specification -/

namespace TrampSpec
open CT

/-- The requested runs that have neither started nor been discarded, in order of request. -/
def waiting (log : List Ev) : List Ent :=
  log.foldl (fun w ev => match ev with
    | .sched e => w ++ [e]
    | .drop e => w.erase e
    | .start e _ => w.erase e
    | _ => w) []

/-- The tasks whose user function is being executed, innermost first. -/
def running (log : List Ev) : List Nat :=
  log.foldl (fun r ev => match ev with
    | .start e _ => e.id :: r
    | .fin _ _ _ => r.tail
    | _ => r) []

/-- How an event changes the requested time of task `id`, see `requested`. -/
def reqStep (kind : Nat → Kind) (id : Nat) (r : Option Int) : Ev → Option Int
  | .call i due => if i = id then some due else r
  | .fin i t (.again v) =>
    if i = id then
      match kind id with
      | .fromNow => some (t + v)
      | .fromThis => r.map (· + v)
      | .to => some v
    else r
  | _ => r

/-- The time for which the next run of task `id` is requested by user code: the time given to `schedule`, and
after each run that asks for another one, the end of the run plus the delay (`delay_from_now`), the time of the
run before plus the delay (`delay_from_this_timepoint`), or the given time (`delay_to`). -/
def requested (kind : Nat → Kind) (log : List Ev) (id : Nat) : Option Int :=
  log.foldl (reqStep kind id) none

/-- `e` has the least time of all waiting requests and was requested first among those of equal time. -/
def IsNext (w : List Ent) (e : Ent) : Prop :=
  ∃ pre post, w = pre ++ e :: post ∧ (∀ f ∈ pre, e.tp < f.tp) ∧ (∀ f ∈ post, e.tp ≤ f.tp)

end TrampSpec

end Rpp.Sched
