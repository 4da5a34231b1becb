import Verif.Core.Spec

/-!
# Operators that combine several sources under one mutex

`merge`, `zip`, `combine_latest`, `with_latest_from` and `take_until` have the same shape: several sources, each notifying
from its own thread, one observer behind a mutex (`value_with_mutex`, utils/utils.hpp 258-311).  The machine below is the
shape; each operator is a value of `Hub` (see `Verif.Combine.Operators`).

A source obeys the Rx contract: its own notifications do not overlap and stop after its terminal one.  Notifications of
different sources interleave in any way, at the granularity of the steps of `St.advance`.
Not modelled: which disposables are handed upstream, and the `own_current_queue` trampoline.
-/

namespace Rpp.Comb

/-- The notifications: `on_next`, `on_error`, `on_completed` (observers/observer.hpp 93-144). -/
inductive Sig (α ε : Type) where
  | next (v : α)
  | term (t : Term ε)
deriving DecidableEq

/-- What an operator does with a notification: nothing, pass something on, or (the user's selector) throw. (operators/merge.hpp, zip.hpp, combine_latest.hpp, with_latest_from.hpp, take_until.hpp with utils/utils.hpp 258-311 and observers/observer.hpp 84-144) -/
inductive Act (β ε : Type) where
  | silent
  | out (o : Sig β ε)
  | throw (e : ε)
deriving DecidableEq

/-- An operator.  `act i c` is what the observer of source `i` does when notified of `c`; `early i c`: it is done before the
observer's mutex is taken (otherwise while holding it); `dyn`: the main source 0 brings inner sources; `opn`: the effect of a new one. (operators/merge.hpp, zip.hpp, combine_latest.hpp, with_latest_from.hpp, take_until.hpp with utils/utils.hpp 258-311 and observers/observer.hpp 84-144) -/
structure Hub (α β ε σ : Type) where
  start : List Nat
  init : σ
  act : Nat → Sig α ε → σ → Act β ε × σ
  early : Nat → Sig α ε → Bool
  dyn : Bool
  opn : Nat → σ → σ

/-- Events.  `recv i c`: source `i` notifies and is not turned away at once; `act i c`: the notification is processed (see `Hub.act`);
`actE i e`: the error thrown by the selector in `i`'s notification is processed; `opened k`: inner source `k` is subscribed;
`beg i c`: the downstream observer's callback is entered, from source `i`; `own i e`: its `on_error` is entered
because its own `on_next` threw `e`; `fin i`: it returns; `gone`: the downstream observer is disposed by somebody (not by its end). -/
inductive Ev (α β ε : Type) where
  | recv (i : Nat) (c : Sig α ε)
  | act (i : Nat) (c : Sig α ε)
  | actE (i : Nat) (e : ε)
  | opened (k : Nat)
  | beg (i : Nat) (o : Sig β ε)
  | own (i : Nat) (e : ε)
  | fin (i : Nat)
  | gone
deriving DecidableEq

/-- Where source `i`'s notification is.  From `inn` to `rel` it holds the mutex. -/
inductive Pc (α β ε : Type) where
  | idle
  | pre (c : Sig α ε)
  | preE (e : ε)          -- observer.hpp 93-96: `on_error` with the selector's exception
  | out (o : Sig β ε)     -- waits for the mutex
  | inn (o : Sig β ε)
  | cb (o : Sig β ε)
  | err (e : ε)
  | cbErr
  | mark                  -- observer.hpp 124-127: `dispose()` after the terminal callback
  | rel
  | relThrow (e : ε)
  | opening
deriving DecidableEq

/-- No call is in progress; no counterpart in /repo. -/
def Pc.isIdle {α β ε : Type} : Pc α β ε → Bool
  | .idle => true
  | _ => false

/-- State: the members of the objects of operators/merge.hpp, zip.hpp, combine_latest.hpp, with_latest_from.hpp, take_until.hpp with utils/utils.hpp 258-311 and observers/observer.hpp 84-144, what the running calls are doing, and the log. -/
structure St (α β ε σ : Type) where
  st : σ
  lock : Option Nat := none
  gone : Bool := false
  shut : Bool := false
  done : Nat → Bool := fun _ => false
  active : Nat → Bool
  calls : Nat → Pc α β ε := fun _ => .idle
  log : List (Ev α β ε) := []

/-- What the downstream observer's callback does: it returns, throws, or disposes (observers/observer.hpp 93-110). -/
inductive Res (ε : Type) where
  | ok
  | throw (e : ε)
deriving DecidableEq

/-- What may happen next; the choice is arbitrary; no counterpart in /repo. -/
inductive Lbl (α ε : Type) where
  | next (i : Nat) (v : α)
  | term (i : Nat) (t : Term ε)
  | opn (k : Nat)
  | run (i : Nat)
  | ret (i : Nat) (r : Res ε)
  | gone      -- the downstream observer is disposed, by anybody
  | shut      -- the disposal reaches the operator's own state
deriving DecidableEq

variable {α β ε σ : Type}

/-- Log an event; no counterpart in /repo. -/
def St.emit (s : St α β ε σ) (ev : Ev α β ε) : St α β ε σ := { s with log := s.log ++ [ev] }
/-- Replace one component of the state; no counterpart in /repo. -/
def St.goto (s : St α β ε σ) (i : Nat) (p : Pc α β ε) : St α β ε σ :=
  { s with calls := fun j => if j = i then p else s.calls j }

/-- Process notification `c` of source `i`; `ev` is the event to log. (operators/merge.hpp, zip.hpp, combine_latest.hpp, with_latest_from.hpp, take_until.hpp with utils/utils.hpp 258-311 and observers/observer.hpp 84-144) -/
def St.process (H : Hub α β ε σ) (s : St α β ε σ) (i : Nat) (c : Sig α ε) (ev : Ev α β ε) : St α β ε σ :=
  let r := H.act i c s.st
  if H.early i c then
    let s1 := { s with st := r.2 }.emit ev
    match r.1 with
    | .silent => s1.goto i .idle
    | .out o => s1.goto i (.out o)
    | .throw e => s1.goto i (.preE e)
  else
    match s.lock with
    | some _ => s
    | none =>
      let s1 := { s with st := r.2, lock := some i }.emit ev
      match r.1 with
      | .silent => s1.goto i .rel
      | .out o => s1.goto i (.inn o)
      | .throw e => s1.goto i (.relThrow e)

/-- The next step of source `i`'s notification. -/
def St.advance (H : Hub α β ε σ) (s : St α β ε σ) (i : Nat) : St α β ε σ :=
  match s.calls i with
  | .idle | .cb _ | .cbErr => s
  | .pre c => s.process H i c (.act i c)
  | .preE e => if s.shut then s.goto i .idle else s.process H i (.term (.error e)) (.actE i e)
  | .out o =>
    match s.lock with
    | some _ => s
    | none => { s with lock := some i }.goto i (.inn o)
  -- observer.hpp 84-90, 120-123, 135-138: nothing reaches a disposed observer
  | .inn o => if s.gone then s.goto i .rel else (s.goto i (.cb o)).emit (.beg i o)
  | .err e => if s.gone then s.goto i .rel else (s.goto i .cbErr).emit (.own i e)
  | .mark => { s with gone := true }.goto i .rel
  | .rel => { s with lock := none }.goto i .idle
  | .relThrow e => { s with lock := none }.goto i (.preE e)
  | .opening => s.goto i .idle

/-- One step; the single cases cite the lines of operators/merge.hpp, zip.hpp, combine_latest.hpp, with_latest_from.hpp, take_until.hpp with utils/utils.hpp 258-311 and observers/observer.hpp 84-144 they model. -/
def step (H : Hub α β ε σ) (s : St α β ε σ) : Lbl α ε → St α β ε σ
  | .next i v =>
    if (s.calls i).isIdle && s.active i && !s.done i && !s.shut then (s.goto i (.pre (.next v))).emit (.recv i (.next v)) else s
  | .term i t =>
    if (s.calls i).isIdle && s.active i && !s.done i && !s.shut then
      { s with done := fun j => if j = i then true else s.done j }.goto i (.pre (.term t)) |>.emit (.recv i (.term t))
    else s
  | .opn k =>
    if H.dyn && (s.calls 0).isIdle && s.active 0 && !s.done 0 && !s.shut && !s.active k then
      { s with st := H.opn k s.st, active := fun j => if j = k then true else s.active j }.goto 0 .opening |>.emit (.opened k)
    else s
  | .run i => s.advance H i
  | .ret i r =>
    match s.calls i, r with
    | .cb (.next _), .ok => (s.goto i .rel).emit (.fin i)
    | .cb (.next _), .throw e => (s.goto i (.err e)).emit (.fin i)
    -- terminal callbacks do not throw (observer.hpp 120, 135 are noexcept)
    | .cb (.term _), _ => (s.goto i .mark).emit (.fin i)
    | .cbErr, _ => (s.goto i .mark).emit (.fin i)
    | _, _ => s
  | .gone => if s.gone then s else { s with gone := true }.emit .gone
  | .shut => if s.gone then { s with shut := true } else s

/-- The state after subscribing; the constructors of the operators (operators/merge.hpp, zip.hpp, combine_latest.hpp, with_latest_from.hpp, take_until.hpp with utils/utils.hpp 258-311 and observers/observer.hpp 84-144). -/
def Hub.initSt (H : Hub α β ε σ) : St α β ε σ := { st := H.init, active := fun i => decide (i ∈ H.start) }

/-- The state after a sequence of steps; no counterpart in /repo. -/
def exec (H : Hub α β ε σ) (ls : List (Lbl α ε)) : St α β ε σ := ls.foldl (step H) H.initSt

/-! ## What can be read off a history -/

/-- What the operator has produced for the downstream observer, in the order in which the notifications were processed,
with the source, and the operator's state. -/
def replayStep (H : Hub α β ε σ) (p : List (Nat × Sig β ε) × σ) : Ev α β ε → List (Nat × Sig β ε) × σ
  | .act i c =>
    let r := H.act i c p.2
    (match r.1 with | .out o => p.1 ++ [(i, o)] | _ => p.1, r.2)
  | .actE i e =>
    let r := H.act i (.term (.error e)) p.2
    (match r.1 with | .out o => p.1 ++ [(i, o)] | _ => p.1, r.2)
  | .opened k => (p.1, H.opn k p.2)
  | _ => p

/-- `replayStep` over a whole log; no counterpart in /repo. -/
def replay (H : Hub α β ε σ) (log : List (Ev α β ε)) : List (Nat × Sig β ε) × σ := log.foldl (replayStep H) ([], H.init)

/-- Everything the downstream observer was told (apart from its own exceptions), with the source. -/
def begs (log : List (Ev α β ε)) : List (Nat × Sig β ε) := log.filterMap fun | .beg i o => some (i, o) | _ => none

/-- The values the downstream observer got. -/
def values (log : List (Ev α β ε)) : List β := log.filterMap fun | .beg _ (.next v) => some v | _ => none

/-- What source `i` has notified. -/
def received (i : Nat) (log : List (Ev α β ε)) : List (Sig α ε) :=
  log.filterMap fun | .recv j c => if j = i then some c else none | _ => none

/-- Which of it has been processed. -/
def processed (i : Nat) (log : List (Ev α β ε)) : List (Sig α ε) :=
  log.filterMap fun | .act j c => if j = i then some c else none | _ => none

/-- A callback is running. -/
def busy (log : List (Ev α β ε)) : Bool :=
  log.foldl (fun b ev => match ev with | .beg _ _ | .own _ _ => true | .fin _ => false | _ => b) false

/-- The downstream observer has been told the end. -/
def Ended (log : List (Ev α β ε)) : Prop := (∃ i t, .beg i (.term t) ∈ log) ∨ ∃ i e, .own i e ∈ log

end Rpp.Comb
