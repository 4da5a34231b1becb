import Verif.Ext.Strand

/-!
# The asio strand scheduler: specification

Everything here reads only the log of events.
-/

namespace Rpp.Strand

/-- The function an event is about. -/
def Ev.about : Ev → Option Nat
  | .asked id .. | .refused id _ | .dropped id _ | .handed id | .outer id | .began id .. | .ended id .. | .onError id _
  | .escaped id => some id
  | .disposed _ => none

/-- Part of the specification, read off the log; models no code. -/
def waitStep (id : Nat) (w : Option (Nat × Int)) : Ev → Option (Nat × Int)
  | .asked i h due _ => if i = id then some (h, due) else w
  | .refused i _ | .dropped i _ | .outer i | .began i .. => if i = id then none else w
  | _ => w

/-- The outstanding request for a run of `id`, if there is one: its handler and the time before which it must not start. -/
def waiting (id : Nat) (log : List Ev) : Option (Nat × Int) := log.foldl (waitStep id) none

/-- Part of the specification, read off the log; models no code. -/
def lastStep (id : Nat) (w : Option Int) : Ev → Option Int
  | .asked i _ due _ => if i = id then some due else w
  | _ => w

/-- The time point of the latest request for a run of `id`. -/
def lastDue (id : Nat) (log : List Ev) : Option Int := log.foldl (lastStep id) none

/-- `id` was scheduled on `current_thread` by a running task (and not on the worker). -/
def OnCurrent (id : Nat) (log : List Ev) : Prop := ∃ h due, Ev.asked id h due .queued ∈ log

/-- The documented meaning of the delays (schedulers/fwd.hpp 26-78): `at'` is the time at which the function returned, `due` the
time point it had been scheduled for. -/
def wanted (at' due : Int) : Delay → Int
  | .fromNow d => at' + d
  | .fromThis d => due + d
  | .to tp => tp

/-- Functions are entered and left one at a time: none is entered before the previous one is left. -/
def serial : Option Nat → List Ev → Bool
  | _, [] => true
  | none, .began id .. :: l => serial (some id) l
  | some _, .began .. :: _ => false
  | some a, .ended b .. :: l => a == b && serial none l
  | none, .ended .. :: _ => false
  | c, _ :: l => serial c l

/-- Part of the specification, read off the log; models no code. -/
def postStep (acc : List Nat) : Ev → List Nat
  | .asked id _ _ .posted => acc ++ [id]
  | .refused id .posted => acc.filter (· ≠ id)
  | _ => acc

/-- Requests with zero delay that were accepted, in order. -/
def posted (log : List Ev) : List Nat := log.foldl postStep []

/-- Requests with zero delay whose turn has come, in order: the function was entered, or skipped as its handler is disposed of. -/
def served : List Ev → List Nat
  | [] => []
  | .began id _ _ .posted :: l => id :: served l
  | .dropped id .posted :: l => id :: served l
  | _ :: l => served l

/-- The `on_error` calls made for function `id`: the handlers called. -/
def errors (id : Nat) : List Ev → List Nat
  | [] => []
  | .onError i h :: l => if i = id then h :: errors id l else errors id l
  | _ :: l => errors id l

/-- The exceptions thrown by function `id`. -/
def throwsOf (id : Nat) : List Ev → Nat
  | [] => 0
  | .ended i _ .throws :: l => if i = id then throwsOf id l + 1 else throwsOf id l
  | _ :: l => throwsOf id l

/-- Who still refers to a scheduled function, with its handler and everything it captured: the strand, a timer, the call stack,
the guard's queue, and the `m_next` pointers of schedulables that are referred to themselves. -/
inductive Held (s : St) : Nat → Prop where
  | ready {j : Job} : j ∈ s.ready → Held s j.id
  | timer {j : Job} : j ∈ s.timers → Held s j.id
  | queue {j : Job} : j ∈ s.queue → Held s j.id
  | run {f : Frame} : f ∈ s.run → Held s f.job.id
  | next {a b : Nat} : Held s a → s.link a = some b → Held s b

/-- `io_context::run()` is not called from inside a `current_thread` task. -/
def NoOuter (ls : List Lbl) : Prop := ∀ t, Lbl.own t ∉ ls

end Rpp.Strand
