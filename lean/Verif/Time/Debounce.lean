/-!
# `debounce` (M5)

Models `src/rpp/rpp/operators/debounce.hpp`: the shared state 33-109 (`emplace_safe` 47-58,
`extract_value` 60-64, `schedule` 69-84, `extract_value_or_time` 86-99), the observer 111-145,
`lift` 163-171.

The source's calls (any number of threads) and the tasks given to the worker are machines that an
arbitrary scheduler interleaves; the clock advances arbitrarily.  Assumed of the worker: it runs its
tasks one at a time (so do `new_thread`, `thread_pool` and a `run_loop` dispatched by one thread), and
`schedule` only puts the task into its queue.  (With `immediate`, or `current_thread` outside of its
own queue, `schedule` would run the task inside `emplace_safe`, which holds `m_mutex`: see C123.)
-/

namespace Rpp.Time.Debounce

/-- Notifications. (observers/observer.hpp 84-145) -/
inductive Item (α ε : Type) where
  | val (a : α)
  | err (e : ε)
  | done
  deriving DecidableEq, Repr

/-- Is it a terminal notification? -/
def Item.term {α ε} : Item α ε → Bool
  | .val _ => false
  | _ => true

/-- Observable events.
* `arrived v t`: the source's value `v` is accepted at time `t`;
* `took v t`: the timer finds the period over, at time `t`, and takes `v` to emit it; `left v`: it is
  done with it;
* `recv x`: the source's terminal notification `x` has the observer's mutex;
* `flush o`: the completion takes the value that is waiting (or finds none);
* `beg x`, `fin x`: the subscriber's callback for `x` starts, returns;
* `gone`: the subscriber disposed of the subscription. -/
inductive Ev (α ε : Type) where
  | arrived (v : α) (t : Nat)
  | took (v : α) (t : Nat)
  | left (v : α)
  | recv (x : Item α ε)
  | flush (o : Option α)
  | beg (x : Item α ε)
  | fin (x : Item α ε)
  | gone
  deriving DecidableEq, Repr

/-- A call of the operator's observer.  `put v`: `on_next(v)` passed `is_disposed`; `want x`: a terminal
call waits for the observer's mutex; `have x`: has it; `flushed v`: `on_completed` extracted `v` (line
141); `inVal v`: inside the callback for it (142); `fire x`: about to call the terminal callback;
`inT x`: inside it; `rel`: about to release the mutex. (operators/debounce.hpp 25-150) -/
inductive CPc (α ε : Type) where
  | idle
  | put (v : α)
  | want (x : Item α ε)
  | have (x : Item α ε)
  | flushed (v : α)
  | inVal (v : α)
  | fire (x : Item α ε)
  | inT (x : Item α ε)
  | rel
  deriving DecidableEq, Repr

/-- A task.  `waiting tp`: queued; `started`: about to call `extract_value_or_time` (line 74);
`hold v`: got the value, waits for the observer's mutex (79); `have v`: has it; `inCall v`: inside
the callback; `rel v`: about to release the mutex and return; `over`: finished. (operators/debounce.hpp 25-150) -/
inductive TPc (α : Type) where
  | none
  | waiting (tp : Nat)
  | started
  | hold (v : α)
  | have (v : α)
  | inCall (v : α)
  | rel (v : α)
  | over
  deriving DecidableEq, Repr

/-- Who acts; no counterpart in /repo. -/
inductive Who where
  | call (i : Nat)
  | task (t : Nat)
  deriving DecidableEq, Repr

/-- `value`: `m_value_to_be_emitted`; `due`: `m_time_when_value_should_be_emitted`; `lock`: holder of
the observer's mutex; `dead`: the state's disposable is disposed; `gone`: the subscriber's observer
is; `worker`: the task the worker is running. (operators/debounce.hpp 25-150) -/
structure St (α ε : Type) where
  now : Nat := 0
  value : Option α := none
  due : Option Nat := none
  lock : Option Who := none
  dead : Bool := false
  gone : Bool := false
  worker : Option Nat := none
  calls : Nat → CPc α ε := fun _ => .idle
  tasks : Nat → TPc α := fun _ => .none
  fresh : Nat := 0
  log : List (Ev α ε) := []

/-- What may happen next; the choice is arbitrary; no counterpart in /repo. -/
inductive Lbl (α ε : Type) where
  | tick (k : Nat)
  | dispose
  | shut
  | arrive (i : Nat) (x : Item α ε)
  | call (i : Nat)
  | task (t : Nat)
  deriving DecidableEq

variable {α ε : Type}

/-- Log an event; no counterpart in /repo. -/
def St.emit (s : St α ε) (e : Ev α ε) : St α ε := { s with log := s.log ++ [e] }
/-- Replace one component of the state; no counterpart in /repo. -/
def St.setCall (s : St α ε) (i : Nat) (p : CPc α ε) : St α ε :=
  { s with calls := fun j => if j = i then p else s.calls j }
/-- Replace one component of the state; no counterpart in /repo. -/
def St.setTask (s : St α ε) (i : Nat) (p : TPc α) : St α ε :=
  { s with tasks := fun j => if j = i then p else s.tasks j }

/-- One step of call `i` (debounce.hpp 47-64, 127-145).  A critical section of `m_mutex` is one step.
After a terminal callback the subscriber's observer marks itself disposed and disposes of its upstream,
which is the state (set in line 169). -/
def stepCall (d : Nat) (s : St α ε) (i : Nat) : St α ε :=
  match s.calls i with
  | .idle => s
  | .put v =>                                       -- `emplace_safe`, lines 50-57
    let s1 := { s with value := some v, due := some (s.now + d) }.emit (.arrived v s.now) |>.setCall i .idle
    match s.due with
    | some _ => s1
    | none => { s1 with fresh := s.fresh + 1 }.setTask s.fresh (.waiting (s.now + d))
  | .want x =>                                      -- lines 134, 139
    match s.lock with
    | some _ => s
    | none => { s with lock := some (.call i) }.emit (.recv x) |>.setCall i (.have x)
  | .have x =>
    match x with
    | .done =>                                      -- line 140, `extract_value`
      let s1 := { s with value := none }.emit (.flush s.value)
      match s.value with
      | some v => s1.setCall i (.flushed v)
      | none => s1.setCall i (.fire .done)
    | x => s.setCall i (.fire x)
  | .flushed v =>                                   -- line 141
    if s.gone then s.setCall i (.fire .done)
    else (s.emit (.beg (.val v))).setCall i (.inVal v)
  | .inVal v => (s.emit (.fin (.val v))).setCall i (.fire .done)
  | .fire x =>                                      -- lines 134, 142
    if s.gone then s.setCall i .rel else (s.emit (.beg x)).setCall i (.inT x)
  | .inT x => { s with gone := true, dead := true }.emit (.fin x) |>.setCall i .rel
  | .rel => { s with lock := none }.setCall i .idle

/-- One step of task `t` (debounce.hpp 73-82, 86-99). -/
def stepTask (s : St α ε) (t : Nat) : St α ε :=
  match s.tasks t with
  | .none => s
  | .over => s
  | .waiting _ =>                                   -- the worker picks the task
    match s.worker with
    | some _ => s
    | none => if s.dead then s.setTask t .over else { s with worker := some t }.setTask t .started
  | .started =>
    match s.due, s.value with
    | some tp, some v =>
      if s.now < tp then { s with worker := none }.setTask t (.waiting tp)            -- lines 92-93
      else { s with due := none, value := none }.emit (.took v s.now) |>.setTask t (.hold v)  -- 95-98
    | _, _ => { s with worker := none }.setTask t .over                               -- lines 89-90
  | .hold v =>
    match s.lock with
    | some _ => s
    | none => { s with lock := some (.task t) }.setTask t (.have v)
  | .have v =>
    if s.gone then s.setTask t (.rel v) else (s.emit (.beg (.val v))).setTask t (.inCall v)
  | .inCall v => (s.emit (.fin (.val v))).setTask t (.rel v)
  | .rel v => { s with lock := none, worker := none }.emit (.left v) |>.setTask t .over

/-- One step.  `dispose`/`shut`: the subscriber disposes of its observer, which then disposes of the
state. (operators/debounce.hpp 25-150) -/
def step (d : Nat) (s : St α ε) : Lbl α ε → St α ε
  | .tick k => { s with now := s.now + k }
  | .dispose => { s with gone := true }.emit .gone
  | .shut => if s.gone then { s with dead := true } else s
  | .arrive i x =>
    match s.calls i with
    | .idle => if s.dead then s else s.setCall i (match x with | .val v => .put v | x => .want x)
    | _ => s
  | .call i => stepCall d s i
  | .task t => stepTask s t

/-- The state after a sequence of steps; no counterpart in /repo. -/
def exec (d : Nat) (ls : List (Lbl α ε)) : St α ε := ls.foldl (step d) {}

/-! ## Specification vocabulary -/

/-- The values that arrived. -/
def arrivals : List (Ev α ε) → List α
  | [] => []
  | .arrived v _ :: r => v :: arrivals r
  | _ :: r => arrivals r

/-- The values chosen for emission, by the timer or by the completion. -/
def chosen : List (Ev α ε) → List α
  | [] => []
  | .took v _ :: r => v :: chosen r
  | .flush (some v) :: r => v :: chosen r
  | _ :: r => chosen r

/-- The callbacks of the subscriber. -/
def delivered : List (Ev α ε) → List (Item α ε)
  | [] => []
  | .beg x :: r => x :: delivered r
  | _ :: r => delivered r

/-- The values among them. -/
def values : List (Ev α ε) → List α
  | [] => []
  | .beg (.val v) :: r => v :: values r
  | _ :: r => values r

/-- The newest value, with its arrival time, if it has not been chosen for emission. -/
def pending (log : List (Ev α ε)) : Option (α × Nat) :=
  log.foldl (fun p e => match e with
    | .arrived v t => some (v, t)
    | .took _ _ => none
    | .flush _ => none
    | _ => p) none

/-- Number of callbacks in progress. -/
def running : List (Ev α ε) → Int
  | [] => 0
  | .beg _ :: r => 1 + running r
  | .fin _ :: r => -1 + running r
  | _ :: r => running r

/-- Number of values the timer has taken and is not done with. -/
def onWay : List (Ev α ε) → Int
  | [] => 0
  | .took _ _ :: r => 1 + onWay r
  | .left _ :: r => -1 + onWay r
  | _ :: r => onWay r

end Rpp.Time.Debounce
