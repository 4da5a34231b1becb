/-!
# `timeout` (M5)

Models `src/rpp/rpp/operators/timeout.hpp`: the shared state 23-49, the observer of the source 65-101,
the timer 137-148, `lift` 121-152.

The source's calls (any number of threads) and the timer task are machines that an arbitrary
scheduler interleaves; the clock advances arbitrarily, the scheduler may run the timer early, late
or never.
-/

namespace Rpp.Time.Timeout

/-- Notifications. (observers/observer.hpp 84-145) -/
inductive Item (α ε : Type) where
  | val (a : α)
  | err (e : ε)
  | done
  deriving DecidableEq, Repr

/-- Read off the state or the log, for statements and proofs; no counterpart in /repo. -/
def Item.term {α ε} : Item α ε → Bool
  | .val _ => false
  | _ => true

/-- Observable events.
* `enter i x`: the source makes call `i` and it is not turned away; `leave i`: the call returns;
* `recv x`: a call has the mutex and is about to deal with `x`;
* `beg x`: the subscriber's callback for the source's `x` starts; `fin x`: it returned;
* `stamp t`: the deadline was moved, at time `t`, because a value was handed over;
* `stale i v`: call `i` invoked `on_next(v)` on the observer that has been moved into the fallback's
  subscription — a value of the source after the switch, formally a call on a moved-from object;
* `switched t`: the operator gave up the source, at time `t`;
* `fb x`: the fallback's notification reaches the subscriber;
* `gone`: the subscriber disposed of the subscription. -/
inductive Ev (α ε : Type) where
  | enter (i : Nat) (x : Item α ε)
  | leave (i : Nat)
  | recv (x : Item α ε)
  | beg (x : Item α ε)
  | fin (x : Item α ε)
  | stamp (t : Nat)
  | stale (i : Nat) (v : α)
  | switched (t : Nat)
  | fb (x : Item α ε)
  | gone
  deriving DecidableEq, Repr

/-- A call of the operator's observer.  `want x`: passed `is_disposed` (observer.hpp 84-144), waits
for the mutex; `have x`: has it; `inCall x`: inside the subscriber's callback; `stamp`: about to
move the deadline (timeout.hpp 86); `rel`: about to release the mutex and return. -/
inductive CPc (α ε : Type) where
  | idle
  | want (x : Item α ε)
  | have (x : Item α ε)
  | inCall (x : Item α ε)
  | stamp
  | rel
  deriving DecidableEq, Repr

/-- The timer task.  `waiting tp`: queued; `want`: started, waits for the mutex (line 140);
`have`: has it (141); `kill`: deadline passed and not disposed (146); `sub`: about to subscribe to
the fallback (147); `insub`: inside that `subscribe`, mutex held; `over`: finished. (operators/timeout.hpp 25-160) -/
inductive TPc where
  | waiting (tp : Nat)
  | want
  | have
  | kill
  | sub
  | insub
  | over
  deriving DecidableEq, Repr

/-- Who acts; no counterpart in /repo. -/
inductive Who where
  | call (i : Nat)
  | timer
  deriving DecidableEq, Repr

/-- `lock`: holder of the mutex of `value_with_mutex`; `deadline`: `timeout`; `moved`: the observer
was moved out (147); `dead`: the disposable is disposed; `gone`: the subscriber's observer is. (operators/timeout.hpp 25-160) -/
structure St (α ε : Type) where
  now : Nat := 0
  lock : Option Who := none
  deadline : Nat
  moved : Bool := false
  dead : Bool := false
  gone : Bool := false
  calls : Nat → CPc α ε := fun _ => .idle
  timer : TPc
  log : List (Ev α ε) := []

/-- What may happen next; the choice is arbitrary; no counterpart in /repo. -/
inductive Lbl (α ε : Type) where
  | tick (k : Nat)
  | dispose
  | shut
  | arrive (i : Nat) (x : Item α ε)
  | call (i : Nat)
  | timer
  | fb (x : Item α ε)
  deriving DecidableEq

variable {α ε : Type}

/-- Log an event; no counterpart in /repo. -/
def St.emit (s : St α ε) (e : Ev α ε) : St α ε := { s with log := s.log ++ [e] }
/-- Replace one component of the state; no counterpart in /repo. -/
def St.setCall (s : St α ε) (i : Nat) (p : CPc α ε) : St α ε :=
  { s with calls := fun j => if j = i then p else s.calls j }

/-- `lift_with_disposable_strategy` (timeout.hpp 121-152) at time 0: the deadline is `now + period`
and the timer is scheduled for it. -/
def init (d : Nat) : St α ε := { deadline := d, timer := .waiting d }

/-- One step of call `i` (timeout.hpp 81-101).  When the subscriber's callback for a terminal event
returns, its observer marks itself disposed and disposes of its upstream, which is the operator's
disposable (set in line 131). -/
def stepCall (d : Nat) (s : St α ε) (i : Nat) : St α ε :=
  match s.calls i with
  | .idle => s
  | .want x =>
    match s.lock with
    | some _ => s
    | none => { s with lock := some (.call i) }.emit (.recv x) |>.setCall i (.have x)
  | .have x =>
    match x with
    | .val v =>                                     -- line 85: no look at `is_disposed`
      if s.moved then (s.emit (.stale i v)).setCall i .stamp
      else if s.gone then s.setCall i .stamp
      else (s.emit (.beg x)).setCall i (.inCall x)
    | x =>                                          -- lines 92-93, 99-100
      if s.dead then s.setCall i .rel
      else if s.gone then s.setCall i .rel
      else (s.emit (.beg x)).setCall i (.inCall x)
  | .inCall x =>
    if x.term then { s with gone := true, dead := true }.emit (.fin x) |>.setCall i .rel
    else (s.emit (.fin x)).setCall i .stamp
  | .stamp => { s with deadline := s.now + d }.emit (.stamp s.now) |>.setCall i .rel
  | .rel => { s with lock := none }.emit (.leave i) |>.setCall i .idle

/-- One step of the timer (timeout.hpp 139-149); the scheduler drops a task whose handler is
disposed. -/
def stepTimer (s : St α ε) : St α ε :=
  match s.timer with
  | .over => s
  | .waiting _ => { s with timer := if s.dead then .over else .want }
  | .want =>
    match s.lock with
    | some _ => s
    | none => { s with lock := some .timer, timer := .have }
  | .have =>
    if s.now < s.deadline then { s with lock := none, timer := .waiting s.deadline }
    else if s.dead then { s with lock := none, timer := .over }
    else { s with timer := .kill }
  | .kill => { s with dead := true, timer := .sub }
  | .sub => { s with moved := true, timer := .insub }.emit (.switched s.now)
  | .insub => { s with lock := none, timer := .over }

/-- One step.  `dispose`/`shut`: the subscriber disposes of its observer, which then disposes of the
operator's disposable. (operators/timeout.hpp 25-160) -/
def step (d : Nat) (s : St α ε) : Lbl α ε → St α ε
  | .tick k => { s with now := s.now + k }
  | .dispose => { s with gone := true }.emit .gone
  | .shut => if s.gone then { s with dead := true } else s
  | .arrive i x =>
    match s.calls i with
    | .idle => if s.dead then s else (s.emit (.enter i x)).setCall i (.want x)
    | _ => s
  | .call i => stepCall d s i
  | .timer => stepTimer s
  | .fb x => if s.moved && !s.gone then { s with gone := x.term }.emit (.fb x) else s

/-- The state after a sequence of steps; no counterpart in /repo. -/
def exec (d : Nat) (ls : List (Lbl α ε)) : St α ε := ls.foldl (step d) (init d)

/-! ## Specification vocabulary -/

/-- What the operator received, in the order in which it dealt with it. -/
def received : List (Ev α ε) → List (Item α ε)
  | [] => []
  | .recv x :: r => x :: received r
  | _ :: r => received r

/-- What of it reached the subscriber. -/
def delivered : List (Ev α ε) → List (Item α ε)
  | [] => []
  | .beg x :: r => x :: delivered r
  | _ :: r => delivered r

/-- When the last value was handed over; 0 (the subscription) if there was none. -/
def lastAt (log : List (Ev α ε)) : Nat :=
  log.foldl (fun t e => match e with | .stamp u => u | _ => t) 0

end Rpp.Time.Timeout
