import Verif.Ext.Grpc

/-!
# gRPC reactors: the specification

About logs only.
-/

namespace Rpp.Grpc

variable {α β : Type}

/-! ## Specification: what a log says -/

/-- Messages that reached the writer, in order. -/
def taken : List (Ev α β) → List α
  | [] => []
  | .took (.next a) :: l => a :: taken l
  | _ :: l => taken l

/-- Messages handed to gRPC, in order. -/
def written : List (Ev α β) → List α
  | [] => []
  | .write a :: l => a :: written l
  | _ :: l => written l

/-- Number of writes gRPC reported as done. -/
def acks : List (Ev α β) → Nat
  | [] => 0
  | .wrote true :: l => acks l + 1
  | _ :: l => acks l

/-- Terminal events that reached the writer (`true`: on_completed). -/
def ends : List (Ev α β) → List Bool
  | [] => []
  | .took .error :: l => false :: ends l
  | .took .completed :: l => true :: ends l
  | _ :: l => ends l

/-- Statuses the writer closed with. -/
def closes : List (Ev α β) → List Status
  | [] => []
  | .close st :: l => st :: closes l
  | _ :: l => closes l

/-- gRPC's rules for writing: one write at a time, none after the end of writes, the end once and not during a write. -/
inductive Wire where
  | idle | writing | broken | closed
deriving DecidableEq, Repr

/-- Part of the specification, read off the log; models no code. -/
def wireStep : Option Wire → Ev α β → Option Wire
  | some .idle, .write _ => some .writing
  | _, .write _ => none
  | some .writing, .wrote true => some .idle
  | some .writing, .wrote false => some .broken
  | _, .wrote _ => none
  | some .idle, .close _ => some .closed
  | _, .close _ => none
  | w, _ => w

/-- The rules are kept by this log. -/
def wire (l : List (Ev α β)) : Option Wire := l.foldl wireStep (some .idle)

/-- Messages read from the stream, in order. -/
def received : List (Ev α β) → List β
  | [] => []
  | .got (some b) :: l => b :: received l
  | _ :: l => received l

/-- Messages shown to the subscribers, in order. -/
def shown : List (Ev α β) → List β
  | [] => []
  | .nextBegin b :: l => b :: shown l
  | _ :: l => shown l

/-- Terminal events shown to the subscribers. -/
def terms : List (Ev α β) → List Bool
  | [] => []
  | .term b :: l => b :: terms l
  | _ :: l => terms l

/-- The observable's contract: on_next calls one after another, nothing during one, nothing after a terminal event. -/
inductive Phase where
  | idle | inside | over
deriving DecidableEq, Repr

/-- Part of the specification, read off the log; models no code. -/
def phaseStep : Option Phase → Ev α β → Option Phase
  | some .idle, .nextBegin _ => some .inside
  | _, .nextBegin _ => none
  | some .inside, .nextEnd => some .idle
  | _, .nextEnd => none
  | some .idle, .term _ => some .over
  | _, .term _ => none
  | p, _ => p

/-- Part of the specification, read off the log; models no code. -/
def phase (l : List (Ev α β)) : Option Phase := l.foldl phaseStep (some .idle)

/-- gRPC's rule for reading: one read at a time (`true`: outstanding). -/
def readStep : Option Bool → Ev α β → Option Bool
  | some false, .read => some true
  | _, .read => none
  | some true, .got _ => some false
  | _, .got _ => none
  | r, _ => r

/-- Part of the specification, read off the log; models no code. -/
def reads (l : List (Ev α β)) : Option Bool := l.foldl readStep (some false)

/-- Statuses `Finish` was called with; a client has no `Finish`. -/
def finishes (k : Kind) : List (Ev α β) → List Status
  | [] => []
  | .finish st :: l => st :: finishes k l
  | .close st :: l => if k.server then st :: finishes k l else finishes k l
  | _ :: l => finishes k l

/-- The log up to the first terminal event. -/
def beforeEnd : List (Ev α β) → List (Ev α β)
  | [] => []
  | .term _ :: _ => []
  | e :: l => e :: beforeEnd l

/-- on_next is running at some `OnCancel`. -/
def CancelInside (l : List (Ev α β)) : Prop := ∃ l1 l2, l = l1 ++ .cancel :: l2 ∧ phase l1 = some .inside

/-! ### Counting -/

/-- `OnCancel` -/
def cancels : List (Ev α β) → Nat
  | [] => 0
  | .cancel :: l => cancels l + 1
  | _ :: l => cancels l

/-- `OnWriteDone(false)` -/
def failed : List (Ev α β) → Nat
  | [] => 0
  | .wrote false :: l => failed l + 1
  | _ :: l => failed l

/-- `OnReadDone(false)` -/
def eofs : List (Ev α β) → Nat
  | [] => 0
  | .got none :: l => eofs l + 1
  | _ :: l => eofs l

/-! ### One emitting thread -/

/-- A user who emits from one thread, each call returning before the next (so that gRPC's reactions happen between the
calls; nothing is cancelled and the call is not over). -/
inductive Turn (α β : Type) where
  | user (e : Emit α)
  | wrote (ok : Bool)
  | got (m : Option β)
  | returned
deriving DecidableEq, Repr

/-- Part of the specification, read off the log; models no code. -/
def Turn.labels : Turn α β → List (Lbl α β)
  | .user (.next a) => [.emit (.next a), .deliver 0]
  | .user e => [.emit e, .deliverEnd]
  | .wrote ok => [.onWriteDone ok]
  | .got m => [.onReadDone m]
  | .returned => [.readReturns]

/-- The emissions of the user. -/
def emits : List (Turn α β) → List (Emit α)
  | [] => []
  | .user e :: l => e :: emits l
  | _ :: l => emits l

/-- Values before the first terminal emission. -/
def valuesOf : List (Emit α) → List α
  | .next a :: l => a :: valuesOf l
  | _ => []

/-- The first terminal emission. -/
def endOf : List (Emit α) → List Bool
  | [] => []
  | .next _ :: l => endOf l
  | .error :: _ => [false]
  | .completed :: _ => [true]

end Rpp.Grpc
