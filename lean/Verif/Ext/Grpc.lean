/-!
# gRPC reactors: the model

/repo/src/extensions/rppgrpc/rppgrpc: `details/base.hpp`, `client_reactor.hpp`, `server_reactor.hpp` (line numbers below refer
to these three as base, client, server).

gRPC itself is the environment.  What the model assumes of it (its documented callback API): `OnWriteDone`/`OnReadDone` come
once per `StartWrite`/`StartRead`, later and on a thread of gRPC's; `OnDone` comes once, after every other reaction has
returned, for a server only after `Finish`; `OnCancel` comes at most once, at any time before `OnDone`, concurrently with
other reactions.

Simplifications: `StartCall`/`StartSendInitialMetadata` and the first `StartRead` (client 45-49, 120-123, 183-187,
server 44-48, 122-125, 189-193) have happened in the initial state; contents of statuses and error messages are dropped,
except for the kind of status.
-/

namespace Rpp.Grpc

/-- The six reactors: client 36-93, 111-159, 175-214, server 37-101, 115-170, 183-226. -/
inductive Kind where
  | clientBidi | clientWrite | clientRead | serverBidi | serverWrite | serverRead
deriving DecidableEq, Repr

/-- The reactors of server_reactor.hpp (the others are in client_reactor.hpp). -/
def Kind.server : Kind → Bool
  | .serverBidi | .serverWrite | .serverRead => true
  | _ => false

/-- Derives from `base_writer`. (rppgrpc details/base.hpp, client_reactor.hpp, server_reactor.hpp) -/
def Kind.writes : Kind → Bool
  | .clientRead | .serverRead => false
  | _ => true

/-- Derives from `base_reader` and reads from the stream (the write reactors have a `base_reader<none>` that never reads). (rppgrpc details/base.hpp, client_reactor.hpp, server_reactor.hpp) -/
def Kind.reads : Kind → Bool
  | .clientWrite | .serverWrite => false
  | _ => true

/-- grpc::Status, as far as the reactors distinguish (rppgrpc details/base.hpp). -/
inductive Status where
  | ok | internal | cancelled
deriving DecidableEq, Repr

/-- What is emitted into the observer of `get_observer()` (base 37-40). -/
inductive Emit (α : Type) where
  | next (a : α)
  | error
  | completed
deriving DecidableEq, Repr

/-- What happens, in order. `α`: messages written, `β`: messages read. -/
inductive Ev (α β : Type) where
  /-- an emission reached the writer -/
  | took (e : Emit α)
  /-- `StartWrite` -/
  | write (a : α)
  /-- `OnWriteDone(ok)` -/
  | wrote (ok : Bool)
  /-- `finish_writes`: `StartWritesDone()` of a client (client 65-68, 138-141), `Finish(status)` of a server (server 64-67, 138-141) -/
  | close (st : Status)
  /-- `Finish(status)` called directly -/
  | finish (st : Status)
  /-- `StartRead` -/
  | read
  /-- `OnReadDone(true)` with a message, `OnReadDone(false)` -/
  | got (m : Option β)
  /-- on_next of the subscribers of `get_observable()` begins and ends -/
  | nextBegin (b : β)
  | nextEnd
  /-- on_completed (`true`) or on_error (`false`) of the subscribers of `get_observable()` -/
  | term (ok : Bool)
  /-- `OnCancel` -/
  | cancel
  /-- `OnDone(ok)`, then `delete this` -/
  | done (ok : Bool)
  /-- an emission touched the deleted reactor -/
  | useAfterFree
deriving DecidableEq, Repr

/-- The reader: no `StartRead` outstanding and none to come; `StartRead` outstanding; inside `handle_read_done`, with the
subscribers' on_next running or (subject terminated) not. (rppgrpc details/base.hpp, client_reactor.hpp, server_reactor.hpp) -/
inductive Reading where
  | none | waiting | delivering (shown : Bool)
deriving DecidableEq, Repr

/-- State: the members of the objects of rppgrpc details/base.hpp, client_reactor.hpp, server_reactor.hpp, what the running calls are doing, and the log. -/
structure St (α β : Type) where
  /-- `m_subject` of the writer still has its observer (neither terminated nor disposed) -/
  accepting : Bool := true
  /-- on_next calls that found the observer in `m_subject` and did not reach it yet (subject_state.hpp 112-131: snapshot
  first, then `m_serialized_mutex`) -/
  pending : List α := []
  /-- an on_error (`false`) or on_completed (`true`) call that holds `m_serialized_mutex`, took the observer out of `m_subject`
  and did not reach it yet (subject_state.hpp 133-151) -/
  ending : Option Bool := none
  /-- the observer of the writer got a terminal event and is disposed (observer.hpp) -/
  obsDone : Bool := false
  /-- `m_write` -/
  queue : List α := []
  /-- `m_finished` -/
  finished : Bool := false
  /-- a `StartWrite` without its `OnWriteDone` -/
  outstanding : Bool := false
  /-- `m_observer` of the reader is not terminated -/
  live : Bool := true
  reading : Reading := .none
  cancelled : Bool := false
  /-- some `Finish` was called -/
  finishedCall : Bool := false
  deleted : Bool := false
  log : List (Ev α β) := []
deriving Repr

/-- What may happen next; the choice is arbitrary; no counterpart in /repo. -/
inductive Lbl (α β : Type) where
  /-- a thread of the user's calls the observer of `get_observer()` -/
  | emit (e : Emit α)
  /-- the `i`-th of the pending on_next calls gets `m_serialized_mutex` and `m_write_mutex` -/
  | deliver (i : Nat)
  /-- the terminal call gets `m_write_mutex` -/
  | deliverEnd
  | onWriteDone (ok : Bool)
  | onReadDone (m : Option β)
  /-- the subscribers' on_next returns -/
  | readReturns
  | onCancel
  | onDone (ok : Bool)
deriving DecidableEq, Repr

variable {α β : Type}

/-- Log an event; no counterpart in /repo. -/
def St.say (s : St α β) (e : Ev α β) : St α β := { s with log := s.log ++ [e] }

/-- `start_write` (client 60-63, 133-136, server 54-57, 133-136). -/
def St.startWrite (s : St α β) (a : α) : St α β := { s with outstanding := true }.say (.write a)

/-- `finish_writes`. (rppgrpc details/base.hpp, client_reactor.hpp, server_reactor.hpp) -/
def St.close (k : Kind) (st : Status) (s : St α β) : St α β :=
  { s with finishedCall := s.finishedCall || k.server }.say (.close st)

/-- `Base::Finish`. (rppgrpc details/base.hpp, client_reactor.hpp, server_reactor.hpp) -/
def St.finish (st : Status) (s : St α β) : St α β := { s with finishedCall := true }.say (.finish st)

/-- `observer_strategy` (base 66-99), under `m_write_mutex`. -/
def St.take (k : Kind) (s : St α β) : Emit α → St α β
  | .next a =>
    let s := { s with queue := s.queue ++ [a] }.say (.took (.next a))
    if s.queue.length == 1 then s.startWrite a else s
  | .error =>
    let s := { s with finished := true, obsDone := true }.say (.took .error)
    if s.queue.length == 0 then s.close k .internal else s
  | .completed =>
    let s := { s with finished := true, obsDone := true }.say (.took .completed)
    if s.queue.length == 0 then s.close k .ok else s

/-- An emission reaches the writer's observer (observer.hpp 76-144: nothing if it is disposed); the observer's strategy has a
plain reference to the reactor (base 68). -/
def St.reach (k : Kind) (e : Emit α) (s : St α β) : St α β :=
  if s.obsDone then s
  else if s.deleted then s.say .useAfterFree
  else s.take k e

/-- `handle_write_done` (base 51-64). -/
def St.writeDone (k : Kind) (s : St α β) : St α β :=
  let s := { s with queue := s.queue.drop 1 }
  match s.queue with
  | a :: _ => s.startWrite a
  | [] => if s.finished then s.close k .ok else s

/-- `base_reader::handle_on_done` (base 130-136); a terminated subject ignores it. -/
def St.readerDone (ok : Bool) (s : St α β) : St α β :=
  if s.live then { s with live := false }.say (.term ok) else s

/-- One step; a label that is not possible in a state changes nothing. -/
def step (k : Kind) (s : St α β) : Lbl α β → St α β
  | .emit e =>
    if k.writes && s.accepting then
      match e with
      | .next a => { s with pending := s.pending ++ [a] }
      | .error => { s with accepting := false, ending := some false }
      | .completed => { s with accepting := false, ending := some true }
    else s
  | .deliver i =>
    match s.pending[i]?, s.ending with
    | some a, none => St.reach k (.next a) { s with pending := s.pending.eraseIdx i }
    | _, _ => s
  | .deliverEnd =>
    match s.ending with
    | some ok => St.reach k (if ok then .completed else .error) { s with ending := none }
    | none => s
  -- client 81-87, 145-151, server 77-83, 143-152
  | .onWriteDone ok =>
    if s.outstanding then
      let s := { s with outstanding := false }.say (.wrote ok)
      if ok then s.writeDone k
      else if k = .serverWrite then s.finish .ok else s
    else s
  -- client 73-79, 200-206, server 69-75, 203-212, base 123-128
  | .onReadDone m =>
    if s.reading = .waiting then
      match m with
      | none =>
        let s := { s with reading := .none }.say (.got none)
        if k = .serverRead then s.finish .ok else s
      | some b =>
        let s := { s with reading := .delivering s.live }.say (.got (some b))
        if s.live then s.say (.nextBegin b) else s
    else s
  | .readReturns =>
    match s.reading with
    | .delivering shown =>
      let s := if shown then s.say .nextEnd else s
      { s with reading := .waiting }.say .read
    | _ => s
  -- server 93-100, 162-169, 221-225
  | .onCancel =>
    if k.server && !s.cancelled && !s.deleted then
      let s := { s with cancelled := true, accepting := false }.say .cancel
      let s := s.readerDone false
      if k.writes then s.finish .cancelled else s
    else s
  -- client 89-94, 153-159, 208-212, server 85-91, 154-160, 214-219
  | .onDone ok =>
    if !s.deleted && !s.outstanding && s.reading = .none && (!k.server || s.finishedCall) then
      let s := { s with accepting := false }.say (.done ok)
      { s.readerDone (k.server || ok) with deleted := true }
    else s

/-- After `init()` or the constructor. (rppgrpc details/base.hpp, client_reactor.hpp, server_reactor.hpp) -/
def init (k : Kind) : St α β :=
  if k.reads then { reading := .waiting, log := [.read] } else {}

/-- The state after a sequence of steps; no counterpart in /repo. -/
def exec (k : Kind) (ls : List (Lbl α β)) : St α β := ls.foldl (step k) (init k)

end Rpp.Grpc
