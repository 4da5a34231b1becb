/-!
# The call stack of operators which subscribe to observables while running

One thread and one operator. The stack consists of the program's code (`body`: the function given to `create`, a factory given to `defer`, a notifier or selector together with the subscription to what it returned) and of the operator's functions between them, as far as they catch exceptions, must not let them pass, or loop.
What the program's code does is decided by the labels: it may emit to any observer it was given, return, or throw. When the stack is empty, somebody (a scheduler, another source) calls an observer.

Downstream only matters by what it is told (`over`: it has ended or has been disposed); its callbacks return at once and do not throw (C01, C02).
-/

namespace Rpp.Stack

/-- Which operator. `cat`: source::concat, repeat, start_with with that many observables (`none`: repeat without end); `retry` with that many further attempts. (sources/concat.hpp 25-131, operators/retry.hpp 20-132, retry_when.hpp 25-167, on_error_resume_next.hpp 22-80, merge.hpp 25-100, switch_on_next.hpp 40-116, concat.hpp 28-190) -/
inductive Kind where
  | cat (n : Option Nat) | retry (n : Option Nat) | retryWhen | resume | merge | switch | concat
  deriving DecidableEq, Repr

/-- What a subscription is for: the (next) source, the notifier of retry_when, the observable used instead by on_error_resume_next, the observable of observables, one of those. (sources/concat.hpp 25-131, operators/retry.hpp 20-132, retry_when.hpp 25-167, on_error_resume_next.hpp 22-80, merge.hpp 25-100, switch_on_next.hpp 40-116, concat.hpp 28-190) -/
inductive Role where
  | src | notif | fall | outer | inner
  deriving DecidableEq, Repr

/-- Activation records: the program's code and the functions of sources/concat.hpp 25-131, operators/retry.hpp 20-132, retry_when.hpp 25-167, on_error_resume_next.hpp 22-80, merge.hpp 25-100, switch_on_next.hpp 40-116, concat.hpp 28-190 as far as they catch, are noexcept, or loop. -/
inductive Frame where
  /-- the program's code, run by subscribing -/
  | body (k : Nat) (r : Role)
  /-- `drain` with its try block (sources/concat.hpp 88-114, retry.hpp 89-111, retry_when.hpp 124-144); `after`: `subscribe` has been called, otherwise at the head of the loop -/
  | loop (after : Bool)
  /-- concat.hpp 54-71 `drain`, 73-91 `handle_observable`: no try block -/
  | pump (after : Bool)
  /-- the try block of retry_when.hpp 102-112, on_error_resume_next.hpp 69-79 -/
  | guard
  /-- `observer::on_next` (observer.hpp 84-113): noexcept, catches and calls its own `on_error` -/
  | next
  /-- `observer::on_error`, `on_completed` (observer.hpp 120-145): noexcept, does not catch -/
  | term
  deriving DecidableEq, Repr

/-- concat.hpp 28-34. -/
inductive Stage where
  | none | draining | ended | processing
  deriving DecidableEq, Repr

/-- What happens: subscription `k` is made; an observable is put into concat's queue; subscription `k`'s code throws `x`; the subscriber is told of the end (`some x`: by an error); the exception leaves the subscriber's own `subscribe()`; it is dropped because the subscriber has ended; `std::terminate`. -/
inductive Ev where
  | made (k : Nat) (r : Role) | waits | threw (k : Nat) (r : Role) (x : Nat) | told (x : Option Nat) | out (x : Nat) | dropped (x : Nat) | died (x : Nat) | disposed
  deriving DecidableEq, Repr

/-- State: the members of the objects of sources/concat.hpp 25-131, operators/retry.hpp 20-132, retry_when.hpp 25-167, on_error_resume_next.hpp 22-80, merge.hpp 25-100, switch_on_next.hpp 40-116, concat.hpp 28-190, what the running calls are doing, and the log. -/
structure St where
  started : Bool := false
  stack : List Frame := []
  /-- `is_inside_drain` -/
  flag : Bool := false
  stage : Stage := .none
  /-- observables in concat's queue -/
  queue : Nat := 0
  /-- attempts left (`count`, or the distance of `itr` to the end) -/
  left : Option Nat := none
  /-- subscriptions which have not ended -/
  live : List (Nat × Role) := []
  /-- how many subscriptions there have been -/
  subs : Nat := 0
  /-- the subscriber has ended or has been disposed, and with it everything upstream (C91) -/
  over : Bool := false
  dead : Bool := false
  log : List Ev := []
  deriving Repr

/-- The notifications an observer is given (observers/observer.hpp 80-145). -/
inductive Note where
  | next | error (x : Nat) | completed
  deriving DecidableEq, Repr

/-- What may happen next; the choice is arbitrary; no counterpart in /repo. -/
inductive Lbl where
  | start
  /-- the code running (or whoever calls in) notifies the observer of subscription `k` -/
  | emit (k : Nat) (r : Role) (n : Note)
  | ret
  | throw (x : Nat)
  /-- the operator's code on top of the stack goes on -/
  | tick
  | dispose
  deriving DecidableEq, Repr

/-- Log an event; no counterpart in /repo. -/
def St.say (s : St) (e : Ev) : St := { s with log := s.log ++ [e] }

/-- The subscriber's `on_error` or `on_completed`: ignored when it has ended; afterwards everything upstream is disposed (observer.hpp 120-145). -/
def St.tell (s : St) (x : Option Nat) : St :=
  if s.over then s else { s with over := true, live := [] }.say (.told x)

/-- Calls of functions: frames put on the stack; no counterpart in /repo. -/
def St.push (s : St) (fs : List Frame) : St := { s with stack := fs ++ s.stack }

/-- `observable.subscribe(observer)` from the operator's function on top of the stack (observable.hpp 57-61). -/
def St.subscribe (s : St) (r : Role) : St :=
  { s with stack := .body s.subs r :: s.stack, live := (s.subs, r) :: s.live, subs := s.subs + 1 }.say (.made s.subs r)

/-- A subscription has ended: its observer is told nothing more (observers/observer.hpp 80-145). -/
def St.endOf (s : St) (k : Nat) (r : Role) : St := { s with live := s.live.erase (k, r) }

/-- The end which asks for another attempt: handed over to the loop if that is inside `subscribe` (sources/concat.hpp 76-85, retry.hpp 67-72, retry_when.hpp 59-68), otherwise the loop runs inside this notification. -/
def St.again (s : St) (scope : Frame) : St :=
  if s.flag then { s with flag := false } else s.push [.loop false, scope]

/-- Is it sources/concat.hpp, whose loop checks for the end of the container (sources/concat.hpp 90-94)? -/
def Kind.isCat : Kind → Bool
  | .cat _ => true
  | _ => false

/-- One turn of `drain`: sources/concat.hpp 91-113, retry.hpp 92-110, retry_when.hpp 127-143. The loop frame is on top of the stack. `retry` has checked `count` before (retry.hpp 61), so that the decrement does not wrap. -/
def St.turn (kind : Kind) (s : St) : St :=
  let s := { s with stack := s.stack.tail }
  if s.over then s
  else if kind.isCat && s.left == some 0 then s.tell none
  else { s.push [.loop true] with flag := true, left := s.left.map (· - 1) }.subscribe .src

/-- One turn of concat's `drain` (concat.hpp 54-71) and `handle_observable_impl` (83-91); the frame is on top of the stack. The subscriber is told when all references are gone (63). -/
def St.pumpTurn (s : St) : St :=
  let s := { s with stack := s.stack.tail }
  if s.over then s
  else if s.queue = 0 then
    let s := { s with stage := .none }
    if s.live.isEmpty then s.tell none else s
  else { s.push [.pump true] with queue := s.queue - 1, stage := .draining }.subscribe .inner

/-- merge.hpp 80-93, switch_on_next.hpp 68-73, 111-116: the last one to end ends the whole. -/
def St.last (s : St) : St := if s.live.isEmpty then s.tell none else s

/-- A notification of subscription `k`. Observers are told nothing after their end (C01), also where the operator's own strategy does not look (retry_when.hpp 97-100). Values go downstream and change nothing here. -/
def St.notify (kind : Kind) (s : St) (k : Nat) (r : Role) : Note → St
  | .next =>
    match kind, r with
    | .retryWhen, .notif => (s.endOf k r).again .next
    | .merge, .outer => (s.push [.next]).subscribe .inner
    | .switch, .outer => ({ s with live := s.live.filter (fun p => p.2 != Role.inner) }.push [.next]).subscribe .inner
    | .concat, .outer =>
        if s.stage = .none then { s.push [.pump true, .next] with stage := .draining }.subscribe .inner
        else { s with queue := s.queue + 1 }.say .waits
    | _, _ => s
  | .error x =>
    match kind, r with
    | .retry _, .src => if s.left = some 0 then s.tell (some x) else (s.endOf k r).again .term
    | .retryWhen, .src => ((s.endOf k r).push [.guard, .term]).subscribe .notif
    | .resume, .src => ((s.endOf k r).push [.guard, .term]).subscribe .fall
    | _, _ => s.tell (some x)
  | .completed =>
    match kind, r with
    | .cat _, .src => (s.endOf k r).again .term
    | .merge, _ | .switch, _ => (s.endOf k r).last
    | .concat, .outer => if s.stage = .none then (s.endOf k r).last else s.endOf k r
    | .concat, _ =>
        let s := s.endOf k r
        if s.stage = .draining then { s with stage := .ended } else s.push [.pump false, .term]
    | _, _ => s.tell none

/-- How an exception goes up the stack: to the first frame which catches it (which then returns) or must not let it pass. (sources/concat.hpp 25-131, operators/retry.hpp 20-132, retry_when.hpp 25-167, on_error_resume_next.hpp 22-80, merge.hpp 25-100, switch_on_next.hpp 40-116, concat.hpp 28-190) -/
def St.unwind (s : St) (x : Nat) : List Frame → St
  | [] => { s with stack := [] }.say (.out x)
  | .body .. :: fs | .pump _ :: fs => s.unwind x fs
  | .loop _ :: fs | .guard :: fs | .next :: fs =>
      let s := { s with stack := fs }
      if s.over then s.say (.dropped x) else s.tell (some x)
  | .term :: _ => { s with dead := true }.say (.died x)

/-- One step; the single cases cite the lines of sources/concat.hpp 25-131, operators/retry.hpp 20-132, retry_when.hpp 25-167, on_error_resume_next.hpp 22-80, merge.hpp 25-100, switch_on_next.hpp 40-116, concat.hpp 28-190 they model. -/
def step (kind : Kind) (s : St) (l : Lbl) : St :=
  if s.dead then s
  else match l, s.stack with
    -- the subscriber's `subscribe()`: sources/concat.hpp 130-134, retry.hpp 126-131, retry_when.hpp 160-165 start the loop, the others subscribe to the source
    | .start, [] =>
        if s.started || s.over then s
        else
          let s := { s with started := true }
          match kind with
          | .cat n => ({ s with left := n }.push [.loop false])
          | .retry n => ({ s with left := n.map (· + 1) }.push [.loop false])
          | .retryWhen => s.push [.loop false]
          | .resume => s.subscribe .src
          | .merge | .switch | .concat => s.subscribe .outer
    | .emit k r n, [] | .emit k r n, .body .. :: _ => if (k, r) ∈ s.live then s.notify kind k r n else s
    | .dispose, [] | .dispose, .body .. :: _ => if s.over then s else { s with over := true, live := [] }.say .disposed
    | .ret, .body .. :: fs => { s with stack := fs }
    | .throw x, .body k r :: fs => (s.say (.threw k r x)).unwind x fs
    | .tick, .loop false :: _ => s.turn kind
    -- `is_inside_drain.exchange(false)` after `subscribe`
    | .tick, .loop true :: fs => if s.flag then { s with stack := fs, flag := false } else s.turn kind
    | .tick, .pump false :: _ => s.pumpTurn
    | .tick, .pump true :: fs => if s.stage = .draining then { s with stack := fs, stage := .processing } else s.pumpTurn
    | .tick, .guard :: fs | .tick, .next :: fs | .tick, .term :: fs => { s with stack := fs }
    | _, _ => s

/-- The state after a sequence of steps; no counterpart in /repo. -/
def exec (kind : Kind) (ls : List Lbl) : St := ls.foldl (step kind) {}

end Rpp.Stack
