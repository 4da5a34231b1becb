/-!
# `delay` and `observe_on` (M5)

Models `src/rpp/rpp/operators/delay.hpp` (state 37-56, strategy 69-162, `lift` 179-186) and
`src/rpp/rpp/operators/observe_on.hpp` (the same operator with `ClearOnError = true`).

Source calls (`on_next`, `on_error`, `on_completed` of the operator's observer) and the tasks the
worker was given are machines that an arbitrary scheduler interleaves; the clock advances
arbitrarily.  Nothing is assumed about the scheduler of the tasks: it may run a task late, or
early, or never.
-/

namespace Rpp.Time.Delay

/-- What `emission` (delay.hpp 23-34) carries: a value, an error, or `none` for completion. -/
inductive Item (α ε : Type) where
  | val (a : α)
  | err (e : ε)
  | done
  deriving DecidableEq, Repr

/-- Terminal notifications. -/
def Item.term {α ε} : Item α ε → Bool
  | .val _ => false
  | _ => true

/-- Errors. -/
def Item.isErr {α ε} : Item α ε → Bool
  | .err _ => true
  | _ => false

/-- Observable events, in the order in which they happen.
* `arrived x t`: the operator put `x` into its queue at time `t`;
* `failed e t`: (`observe_on` only) an error arrived at time `t` and the queue was thrown away;
* `took x`: the draining task removed `x` from the queue; `left x`: it is done with `x`;
* `beg x t`: a callback of the observer starts at time `t`; `fin x`: that callback returned;
* `gone`: somebody disposed of the observer. -/
inductive Ev (α ε : Type) where
  | arrived (x : Item α ε) (t : Nat)
  | failed (e : ε) (t : Nat)
  | took (x : Item α ε)
  | left (x : Item α ε)
  | beg (x : Item α ε) (t : Nat)
  | fin (x : Item α ε)
  | gone
  deriving DecidableEq, Repr

/-- A call of the operator's observer.
* `checked x`: passed `is_disposed` in `observer_impl` (observer.hpp 84-144);
* `sched tp`: `emplace_safe` returned `tp`, about to call `worker.schedule` (delay.hpp 102-109);
* `clearing e`: in `emplace_safe`, queue cleared, about to call `observer.on_error` (117-118),
  mutex held;  `inErr e`: inside that `on_error`, mutex held. -/
inductive CPc (α ε : Type) where
  | idle
  | checked (x : Item α ε)
  | sched (tp : Nat)
  | clearing (e : ε)
  | inErr (e : ε)
  deriving DecidableEq, Repr

/-- A task given to the worker.  `waiting tp`: queued for `tp`; `loop`: at the head of the loop of
`drain_queue` (delay.hpp 137); `hold x tp`: item popped, mutex released (149-151); `inCall x`:
inside the observer's callback (153-158); `over`: finished. -/
inductive TPc (α ε : Type) where
  | none
  | waiting (tp : Nat)
  | loop
  | hold (x : Item α ε) (tp : Nat)
  | inCall (x : Item α ε)
  | over
  deriving DecidableEq, Repr

/-- `delay_state` (delay.hpp 37-56) with the clock, the calls and the tasks.  `mutex` is the call
that keeps `state->mutex` across an observer callback; all other critical sections are single
steps.  `disposed` is `observer.is_disposed()` of the subscriber. -/
structure St (α ε : Type) where
  now : Nat := 0
  mutex : Option Nat := none
  queue : List (Item α ε × Nat) := []
  active : Bool := false
  disposed : Bool := false
  calls : Nat → CPc α ε := fun _ => .idle
  tasks : Nat → TPc α ε := fun _ => .none
  fresh : Nat := 0
  log : List (Ev α ε) := []

/-- Scheduler's choices. -/
inductive Lbl (α ε : Type) where
  | tick (k : Nat)
  | dispose
  | arrive (i : Nat) (x : Item α ε)
  | call (i : Nat)
  | task (t : Nat)

variable {α ε : Type}

/-- Log an event; no counterpart in /repo. -/
def St.emit (s : St α ε) (e : Ev α ε) : St α ε := { s with log := s.log ++ [e] }
/-- Replace one component of the state; no counterpart in /repo. -/
def St.setCall (s : St α ε) (i : Nat) (p : CPc α ε) : St α ε :=
  { s with calls := fun j => if j = i then p else s.calls j }
/-- Replace one component of the state; no counterpart in /repo. -/
def St.setTask (s : St α ε) (i : Nat) (p : TPc α ε) : St α ε :=
  { s with tasks := fun j => if j = i then p else s.tasks j }

/-- `emplace_safe` without the error branch (delay.hpp 123-131): take the time, push, and ask for
a task unless one is active. -/
def St.emplace (d : Nat) (s : St α ε) (i : Nat) (x : Item α ε) : St α ε :=
  let s1 := { s with queue := s.queue ++ [(x, s.now + d)] }.emit (.arrived x s.now)
  if s.active then s1.setCall i .idle
  else { s1 with active := true }.setCall i (.sched (s.now + d))

/-- One step of the source call `i` (delay.hpp 100-133). -/
def stepCall (clr : Bool) (d : Nat) (s : St α ε) (i : Nat) : St α ε :=
  match s.calls i with
  | .idle => s
  | .checked x =>
    match s.mutex with
    | some _ => s                                        -- line 115: blocked
    | none =>
      match x, clr with
      | .err e, true =>                                  -- lines 116-117
        { s with mutex := some i, queue := [] }.emit (.failed e s.now) |>.setCall i (.clearing e)
      | x, _ => s.emplace d i x
  | .sched tp =>                                         -- lines 104-107
    { s with fresh := s.fresh + 1 }.setTask s.fresh (.waiting tp) |>.setCall i .idle
  | .clearing e =>                                       -- line 118, `observer_impl::on_error`
    if s.disposed then { s with mutex := none }.setCall i .idle
    else (s.emit (.beg (.err e) s.now)).setCall i (.inErr e)
  | .inErr e =>                                          -- callback returned: observer disposed
    { s with mutex := none, disposed := true }.emit (.fin (.err e)) |>.setCall i .idle

/-- One step of the task `t`: the scheduler drops a task whose handler is disposed, otherwise runs
`drain_queue` (delay.hpp 135-161). -/
def stepTask (s : St α ε) (t : Nat) : St α ε :=
  match s.tasks t with
  | .none => s
  | .over => s
  | .waiting _ => s.setTask t (if s.disposed then .over else .loop)
  | .loop =>
    match s.mutex with
    | some _ => s                                        -- line 139: blocked
    | none =>
      match s.queue with
      | [] => { s with active := false }.setTask t .over -- lines 140-144
      | (x, tp) :: q =>
        if s.now < tp then s.setTask t (.waiting tp)     -- lines 147-148
        else ({ s with queue := q }.emit (.took x)).setTask t (.hold x tp)  -- lines 150-152
  | .hold x _ =>                                         -- lines 154-159
    if s.disposed then (s.emit (.left x)).setTask t .loop
    else (s.emit (.beg x s.now)).setTask t (.inCall x)
  | .inCall x =>
    (({ s with disposed := s.disposed || x.term }.emit (.fin x)).emit (.left x)).setTask t .loop

/-- One step of the whole system.  `clr` is `ClearOnError`, `d` the duration. (operators/delay.hpp 25-200, observe_on.hpp) -/
def step (clr : Bool) (d : Nat) (s : St α ε) : Lbl α ε → St α ε
  | .tick k => { s with now := s.now + k }
  | .dispose => { s with disposed := true }.emit .gone
  | .arrive i x =>                       -- the check of `is_disposed` in `observer_impl`
    match s.calls i with
    | .idle => if s.disposed then s else s.setCall i (.checked x)
    | _ => s
  | .call i => stepCall clr d s i
  | .task t => stepTask s t

/-- The run of a schedule from the initial state. -/
def exec (clr : Bool) (d : Nat) (ls : List (Lbl α ε)) : St α ε := ls.foldl (step clr d) {}

/-! ## Specification vocabulary: what happened, read off the log -/

/-- What went into the queue, and when. -/
def arrivals : List (Ev α ε) → List (Item α ε × Nat)
  | [] => []
  | .arrived x t :: r => (x, t) :: arrivals r
  | _ :: r => arrivals r

/-- The callbacks of the observer, and when they started. -/
def delivered : List (Ev α ε) → List (Item α ε × Nat)
  | [] => []
  | .beg x t :: r => (x, t) :: delivered r
  | _ :: r => delivered r

/-- Only the values among the callbacks. -/
def values : List (Item α ε × Nat) → List α
  | [] => []
  | (.val a, _) :: r => a :: values r
  | _ :: r => values r

/-- Number of observer callbacks in progress. -/
def running : List (Ev α ε) → Int
  | [] => 0
  | .beg _ _ :: r => 1 + running r
  | .fin _ :: r => -1 + running r
  | _ :: r => running r

/-- Number of items that left the queue and whose delivery is not over. -/
def onWay : List (Ev α ε) → Int
  | [] => 0
  | .took _ :: r => 1 + onWay r
  | .left _ :: r => -1 + onWay r
  | _ :: r => onWay r

end Rpp.Time.Delay
