import Verif.Core.CrossSim
import Verif.Core.Algebra
import Verif.Time.DelayProps
import Verif.Time.ObserveOnProps

/-!
# Pipelines cut into stages by `delay` and `observe_on` (M30)

`source | p0 | delay(d1) | p1 | observe_on(s2) | p2 | … | subscribe(react)`: the pieces `p0`, `p1`, … are pipelines of
the operators of `Verif.Core`, every cut is the machine of `Verif.Time.Delay`, and the subscriber is the one of
`Verif.Core` with arbitrary callbacks.

One step of a piece (everything its operators do during one call of its first observer) is one step here: the calls it
makes at its end are computed at once and then handed to the next cut one by one.  The operators' functions do not
touch the other pieces, so nothing in between can tell.  A piece is represented by the notifications it has been given;
the state of its operators is a function of these (`Pipe.trans`, observables/details/chain_strategy.hpp 20-60).
-/

namespace Rpp.Stages
open Rpp.Time (Delay.St Delay.Item Delay.CPc Delay.TPc)

/-- A notification as a call of an observer (observers/observer.hpp 84-144). -/
def toCall {α ε : Type} : Delay.Item α ε → Call α ε
  | .val a => .next a
  | .err e => .error e
  | .done => .completed

/-- A call as a notification.  `set_upstream` is handed through at once (delay.hpp 73-76) and plays no part here. -/
def ofCall {α ε : Type} : Call α ε → Option (Delay.Item α ε)
  | .next a => some (.val a)
  | .error e => some (.err e)
  | .completed => some .done
  | .up _ => none

/-- The notifications the pipeline `p` makes at its end when it is given `ins` (observables/details/chain_strategy.hpp 20-60). -/
def outs {ε α β : Type} (p : Pipe ε α β) (ins : List (Delay.Item α ε)) : List (Delay.Item β ε) :=
  (p.trans (ins.map toCall)).filterMap ofCall

/-- `p0 | delay | p1 | delay | …`: `clr` tells `observe_on` (true) from `delay` (operators/delay.hpp 179-186,
observe_on.hpp 20-45). -/
inductive Chain (ε : Type) : Type → Type → Type 1 where
  | last {α γ} (p : Pipe ε α γ) : Chain ε α γ
  | stage {α β γ} (p : Pipe ε α β) (clr : Bool) (d : Nat) (rest : Chain ε β γ) : Chain ε α γ

/-- A piece and the cut behind it: what the piece was given, how many of its notifications it has handed to the cut,
and the `delay_state` (delay.hpp 37-56). -/
structure Link (α β ε : Type) where
  ins : List (Delay.Item α ε) := []
  sent : Nat := 0
  st : Delay.St β ε := {}

/-- State of a chain: a `Link` per cut, and what the last piece was given (no counterpart in /repo as one object). -/
def Chain.State {ε : Type} : {α γ : Type} → Chain ε α γ → Type
  | _, _, .last (α := α) _ => List (Delay.Item α ε)
  | _, _, .stage (α := α) (β := β) _ _ _ rest => Link α β ε × rest.State

/-- The state right after `subscribe`; a seeded `scan` has made its first notification already. -/
def Chain.init {ε : Type} : {α γ : Type} → (c : Chain ε α γ) → c.State
  | _, _, .last _ => []
  | _, _, .stage _ _ _ rest => ({}, rest.init)

/-- What the first piece of the chain was given; models no code. -/
def Chain.ins {ε : Type} : {α γ : Type} → (c : Chain ε α γ) → c.State → List (Delay.Item α ε)
  | _, _, .last _, s => s
  | _, _, .stage .., s => s.1.ins

/-- A notification for the first piece (observers/observer.hpp 84-144). -/
def Chain.offer {ε : Type} : {α γ : Type} → (c : Chain ε α γ) → c.State → Delay.Item α ε → c.State
  | α, _, .last _, s, x => (show List (Delay.Item α ε) from s) ++ [x]
  | _, _, .stage .., s, x => ({ s.1 with ins := s.1.ins ++ [x] }, s.2)

/-- The notifications a piece has still to hand to the cut behind it. -/
def pending {ε α β : Type} (p : Pipe ε α β) (k : Link α β ε) : List (Delay.Item β ε) := (outs p k.ins).drop k.sent

/-- No call is in progress; a test on the constructor. -/
def isIdle {α ε : Type} : Delay.CPc α ε → Bool
  | .idle => true
  | _ => false

/-- The last call of the chain's first observer has not returned: its piece is still handing over (the subscriber's
callbacks at the end of the chain are one step). -/
def Chain.busy {ε : Type} : {α γ : Type} → (c : Chain ε α γ) → c.State → Bool
  | _, _, .last _, _ => false
  | _, _, .stage p _ _ _, s => !(pending p s.1).isEmpty || !isIdle (s.1.st.calls 0)

/-- The callback of the observer behind the cut that this step starts (delay.hpp 118, 154-159). -/
def starts {α ε : Type} (st : Delay.St α ε) : Time.Delay.Lbl α ε → Option (Delay.Item α ε)
  | .call i =>
    match st.calls i with
    | .clearing e => if st.disposed then none else some (.err e)
    | _ => none
  | .task t =>
    match st.tasks t with
    | .hold x _ => if st.disposed then none else some x
    | _ => none
  | _ => none

/-- This step is the return of such a callback (delay.hpp 118, 154-159). -/
def returns {α ε : Type} (st : Delay.St α ε) : Time.Delay.Lbl α ε → Bool
  | .call i => match st.calls i with | .inErr _ => true | _ => false
  | .task t => match st.tasks t with | .inCall _ => true | _ => false
  | _ => false

/-- Notifications seen by the subscriber at the end (`Verif.Core`: `subscriberSees`); `react` are its callbacks. -/
def Chain.seen {ε : Type} [DecidableEq ε] (ov : ε) : {α γ : Type} → [DecidableEq γ] → (react : List (Call γ ε) → Reaction ε) →
    (c : Chain ε α γ) → c.State → List (Call γ ε)
  | _, _, _, react, .last p, s => subscriberSees none ov react p (s.map toCall)
  | _, _, _, react, .stage _ _ _ rest, s => rest.seen ov react s.2

/-- `is_disposed` of the chain's first observer, as far as the chain itself is the reason: the subscriber is disposed,
or a terminal notification was handed to the cut, whose observer disposes itself with it (observer.hpp 118-144), or the
observer behind the cut is disposed (delay.hpp 78-81). -/
def Chain.closed {ε : Type} [DecidableEq ε] (ov : ε) : {α γ : Type} → [DecidableEq γ] → (react : List (Call γ ε) → Reaction ε) →
    (c : Chain ε α γ) → c.State → Bool
  | _, _, _, react, .last p, s => (subscriber none ov react p (s.map toCall)).disposed
  | _, _, _, _, .stage p _ _ _, s => ((outs p s.1.ins).take s.1.sent).any Time.Delay.Item.term || s.1.st.disposed

/-- What can happen at a cut.
* `push`: the piece hands over its next notification; `call`: a step of that call (delay.hpp 100-133);
* `task t`: a step of a task of the cut's worker (delay.hpp 135-161); `tick k`: time passes;
* `close`: the observer behind the cut becomes disposed because the chain behind it is over;
* `dispose`: it becomes disposed for any other reason (the user disposes of the subscription). -/
inductive Act where
  | push
  | call
  | task (t : Nat)
  | tick (k : Nat)
  | close
  | dispose
  deriving DecidableEq, Repr

/-- The source calls, or something happens at the `n`-th cut. -/
inductive Lbl (α ε : Type) where
  | src (x : Delay.Item α ε)
  | act (n : Nat) (a : Act)

/-- A step of the cut's machine, together with the chain behind it: a callback that starts is a call of that chain, and
it returns when that call has. (delay.hpp 100-161) -/
def advance {ε α β γ : Type} (clr : Bool) (d : Nat) (rest : Chain ε β γ) (s : Link α β ε × rest.State)
    (l : Time.Delay.Lbl β ε) : Link α β ε × rest.State :=
  if returns s.1.st l && rest.busy s.2 then s
  else ({ s.1 with st := Time.Delay.step clr d s.1.st l },
    match starts s.1.st l with
    | some x => rest.offer s.2 x
    | none => s.2)

/-- One step at a cut: the piece `p` before it, the chain `rest` behind it. (delay.hpp 100-161) -/
def cutAct {ε α β γ : Type} [DecidableEq ε] (ov : ε) [DecidableEq γ] (react : List (Call γ ε) → Reaction ε) (p : Pipe ε α β)
    (clr : Bool) (d : Nat) (rest : Chain ε β γ) (s : Link α β ε × rest.State) : Act → Link α β ε × rest.State
  | .push =>
    match pending p s.1 with
    | [] => s
    | y :: _ =>
      if isIdle (s.1.st.calls 0) then
        ({ s.1 with sent := s.1.sent + 1, st := Time.Delay.step clr d s.1.st (.arrive 0 y) }, s.2)
      else s
  | .call => advance clr d rest s (.call 0)
  | .task t => advance clr d rest s (.task t)
  | .tick k => ({ s.1 with st := Time.Delay.step clr d s.1.st (.tick k) }, s.2)
  | .close => if rest.closed ov react s.2 then ({ s.1 with st := Time.Delay.step clr d s.1.st .dispose }, s.2) else s
  | .dispose => ({ s.1 with st := Time.Delay.step clr d s.1.st .dispose }, s.2)

/-- One step at the `n`-th cut. (delay.hpp 100-161) -/
def Chain.act {ε : Type} [DecidableEq ε] (ov : ε) : {α γ : Type} → [DecidableEq γ] → (react : List (Call γ ε) → Reaction ε) →
    (c : Chain ε α γ) → c.State → Nat → Act → c.State
  | _, _, _, _, .last _, s, _, _ => s
  | _, _, _, react, .stage p clr d rest, s, 0, a => cutAct ov react p clr d rest s a
  | _, _, _, react, .stage _ _ _ rest, s, n + 1, a => (s.1, rest.act ov react s.2 n a)

/-- One step of the chain.  The source makes one call at a time. -/
def Chain.step {ε : Type} [DecidableEq ε] (ov : ε) {α γ : Type} [DecidableEq γ] (react : List (Call γ ε) → Reaction ε)
    (c : Chain ε α γ) (s : c.State) : Lbl α ε → c.State
  | .src x => if c.busy s then s else c.offer s x
  | .act n a => c.act ov react s n a

/-- The run of a schedule from the subscription on. -/
def Chain.run {ε : Type} [DecidableEq ε] (ov : ε) {α γ : Type} [DecidableEq γ] (react : List (Call γ ε) → Reaction ε)
    (c : Chain ε α γ) (ls : List (Lbl α ε)) : c.State := ls.foldl (c.step ov react) c.init

/-! ## Specification vocabulary -/

/-- The same pipeline without the cuts. -/
def Chain.flat {ε : Type} : {α γ : Type} → Chain ε α γ → Pipe ε α γ
  | _, _, .last p => p
  | _, _, .stage p _ _ rest => p.append rest.flat

/-- An operator that does not look at the clock.  (`throttle` does: behind a cut it sees other times.) -/
def timeless {ε : Type} : {α β : Type} → Op ε α β → Prop
  | _, _, .throttle _ => False
  | _, _, _ => True

/-- No operator of the pipeline looks at the clock. -/
def Timeless {ε : Type} : {α β : Type} → Pipe ε α β → Prop
  | _, _, .nil => True
  | _, _, .cons o p => timeless o ∧ Timeless p

/-- The parameters of the operators are in range (`Pipe.WF`), and none of them looks at the clock. -/
def Chain.WF {ε : Type} : {α γ : Type} → Chain ε α γ → Prop
  | _, _, .last p => p.WF ∧ Timeless p
  | _, _, .stage p _ _ rest => p.WF ∧ Timeless p ∧ rest.WF

/-- No error has reached an `observe_on`: it overtakes the values waiting there (C37). -/
def Chain.NoError {ε : Type} : {α γ : Type} → (c : Chain ε α γ) → c.State → Prop
  | _, _, .last _, _ => True
  | _, _, .stage _ _ _ rest, s => (∀ e t, .failed e t ∉ s.1.st.log) ∧ rest.NoError s.2

/-- All the cuts are `delay`s. -/
def Chain.delays {ε : Type} : {α γ : Type} → Chain ε α γ → Prop
  | _, _, .last _ => True
  | _, _, .stage _ clr _ rest => clr = false ∧ rest.delays

/-- Nothing is left to do at any cut: no notification is being handed over, no task is queued or running. -/
def Chain.Quiet {ε : Type} : {α γ : Type} → (c : Chain ε α γ) → c.State → Prop
  | _, _, .last _, _ => True
  | _, _, .stage p _ _ rest, s => pending p s.1 = [] ∧ Time.Delay.Quiescent s.1.st ∧ rest.Quiet s.2

/-- What the source has told the chain, as calls of its observer. -/
def Chain.given {ε α γ : Type} (c : Chain ε α γ) (s : c.State) : List (Call α ε) := (c.ins s).map toCall

end Rpp.Stages
