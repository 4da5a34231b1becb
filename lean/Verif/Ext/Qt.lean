/-!
# The Qt main thread scheduler: the model

/repo/src/extensions/rppqt/rppqt/schedulers/main_thread.hpp.

Qt is the environment.  What the model assumes of it (its documented behaviour): the function given to `QTimer::singleShot(ms, context, f)`
is called once by the event loop of the thread of `context`, not before `ms` milliseconds passed (precise timers; Qt allows coarse timers
of more than two seconds to be 5% early, which is not modelled), unless `context` is destroyed before.  Scheduled functions do not spin
event loops of their own.

Time in nanoseconds, unbounded integers.  Handlers are numbered; functions are numbered in the order of their first scheduling.
-/

namespace Rpp.Qt

/-- schedulers/fwd.hpp 36-78. -/
inductive Delay where
  | fromNow (d : Int)
  | fromThis (d : Int)
  | to (tp : Int)
deriving DecidableEq, Repr

/-- How a scheduled function ends (schedulers/fwd.hpp 26-78). -/
inductive Res where
  | done
  | again (w : Delay)
  | throws
deriving DecidableEq, Repr

/-- Events of the log; no counterpart in /repo. -/
inductive Ev where
  /-- at time `at'` a run of `id` is asked for, not before `due` -/
  | asked (id h : Nat) (at' due : Int)
  /-- the handler's `on_error` is called: there is no application -/
  | noApp (id h : Nat)
  /-- given up, the handler is disposed of -/
  | dropped (id : Nat)
  /-- given up, the application is gone -/
  | lost (id : Nat)
  | began (id : Nat) (at' : Int)
  | ended (id : Nat) (at' : Int) (r : Res)
  /-- an exception leaves Qt's event loop -/
  | escaped (id : Nat)
  | disposed (h : Nat)
deriving DecidableEq, Repr

/-- One pending `singleShot`. (rppqt/schedulers/main_thread.hpp 30-80) -/
structure Job where
  id : Nat
  h : Nat
  at' : Int
  due : Int
  /-- when Qt calls it at the earliest -/
  fire : Int
deriving DecidableEq, Repr

/-- State: the members of the objects of rppqt/schedulers/main_thread.hpp 30-80, what the running calls are doing, and the log. -/
structure St where
  now : Int := 0
  app : Bool := true
  count : Nat := 0
  timers : List Job := []
  /-- the running function and the time it was entered -/
  run : Option (Job × Int) := none
  gone : List Nat := []
  log : List Ev := []

/-- Log an event; no counterpart in /repo. -/
def St.say (s : St) (e : Ev) : St := { s with log := s.log ++ [e] }

/-- `duration_cast<milliseconds>(max(duration{}, d))`, main_thread.hpp 47, in nanoseconds. -/
def millis (d : Int) : Int := (max 0 d / 1000000) * 1000000

/-- `defer_for`, main_thread.hpp 38-51. (Overload for time points: worker.hpp, `defer_for(tp - now(), …)`.) -/
def deferFor (s : St) (id h : Nat) (d : Int) : St :=
  let s := s.say (.asked id h s.now (s.now + d))
  if s.app then
    { s with timers := s.timers ++ [{ id, h, at' := s.now, due := s.now + d, fire := s.now + millis d }] }
  else s.say (.noApp id h)

/-- The lambda of line 43-46 is called. -/
def fire (s : St) (i : Nat) : St :=
  match s.run, s.timers[i]? with
  | none, some j =>
    if j.fire ≤ s.now then
      let s := { s with timers := s.timers.eraseIdx i }
      if j.h ∈ s.gone then s.say (.dropped j.id)
      else { s with run := some (j, s.now) }.say (.began j.id s.now)
    else s
  | _, _ => s

/-- `invoke`, main_thread.hpp 56-76: the three overloads. -/
def finish (s : St) (r : Res) : St :=
  match s.run with
  | none => s
  | some (j, t) =>
    let s := { s with run := none }.say (.ended j.id s.now r)
    match r with
    | .done => s
    | .throws => s.say (.escaped j.id)
    | .again (.fromNow d) => deferFor s j.id j.h d
    | .again (.fromThis d) => deferFor s j.id j.h (t + d - s.now)
    | .again (.to tp) => deferFor s j.id j.h (tp - s.now)

/-- What may happen next; the choice is arbitrary; no counterpart in /repo. -/
inductive Lbl where
  | schedule (h : Nat) (d : Int)
  | dispose (h : Nat)
  | tick (k : Nat)
  | fire (i : Nat)
  | finish (r : Res)
  /-- the application object is destroyed: pending calls are cancelled by Qt -/
  | quit
  /-- an application object is created -/
  | launch
deriving DecidableEq, Repr

/-- The application object is destroyed: pending timers are lost (QTimer::singleShot with a context object, main_thread.hpp 56-76). -/
def loseAll (s : St) : List Job → St
  | [] => s
  | j :: js => loseAll (s.say (.lost j.id)) js

/-- One step; the single cases cite the lines of rppqt/schedulers/main_thread.hpp 30-80 they model. -/
def step (s : St) : Lbl → St
  | .schedule h d => deferFor { s with count := s.count + 1 } (s.count + 1) h d
  | .dispose h => { s with gone := h :: s.gone }.say (.disposed h)
  | .tick k => { s with now := s.now + k }
  | .fire i => fire s i
  | .finish r => finish s r
  | .quit => { loseAll s s.timers with timers := [], app := false }
  | .launch => { s with app := true }

/-- The state after a sequence of steps; no counterpart in /repo. -/
def exec (ls : List Lbl) : St := ls.foldl step {}

/-! ## Specification: reads only the log -/

/-- The function an event is about; no counterpart in /repo. -/
def Ev.about : Ev → Option Nat
  | .asked id .. | .noApp id _ | .dropped id | .lost id | .began id _ | .ended id .. | .escaped id => some id
  | .disposed _ => none

/-- A request for a run, read off the log: the function, when it was asked for, when it is due; no counterpart in /repo. -/
structure Req where
  h : Nat
  at' : Int
  due : Int
deriving DecidableEq, Repr

/-- Read off the state or the log, for statements and proofs; no counterpart in /repo. -/
def waitStep (id : Nat) (w : Option Req) : Ev → Option Req
  | .asked i h a due => if i = id then some ⟨h, a, due⟩ else w
  | .noApp i _ | .dropped i | .lost i | .began i _ => if i = id then none else w
  | _ => w

/-- The outstanding request for a run of `id`. -/
def waiting (id : Nat) (log : List Ev) : Option Req := log.foldl (waitStep id) none

/-- Read off the state or the log, for statements and proofs; no counterpart in /repo. -/
def lastStep (id : Nat) (w : Option Req) : Ev → Option Req
  | .asked i h a due => if i = id then some ⟨h, a, due⟩ else w
  | _ => w

/-- The latest request for a run of `id`. -/
def lastReq (id : Nat) (log : List Ev) : Option Req := log.foldl (lastStep id) none

/-- The documented meaning of the delays (schedulers/fwd.hpp 26-78). -/
def wanted (at' due : Int) : Delay → Int
  | .fromNow d => at' + d
  | .fromThis d => due + d
  | .to tp => tp

/-- Functions are entered and left one at a time. -/
def serial : Option Nat → List Ev → Bool
  | _, [] => true
  | none, .began id _ :: l => serial (some id) l
  | some _, .began .. :: _ => false
  | some a, .ended b .. :: l => a == b && serial none l
  | none, .ended .. :: _ => false
  | c, _ :: l => serial c l

/-- Every millisecond counted. -/
def Whole (r : Req) : Prop := r.due ≤ r.at' ∨ (r.due - r.at') % 1000000 = 0

end Rpp.Qt
