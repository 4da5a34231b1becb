import Verif.Combine.Hub

/-!
# concat

operators/concat.hpp: the machine of the operator, with the outer source (0), inner sources `1, 2, …`, each notifying from its
own thread.  A source obeys the Rx contract.  Which thread subscribes an inner source depends on the schedule: the outer one's
(`on_next`), or that of an inner source that has just completed (`drain`).
Not modelled: which disposables are handed upstream (`refcounted.clear()` 86 only disposes of a finished source's).
-/

namespace Rpp.Cat

open Rpp.Comb (Sig Res)

/-- concat.hpp 28-34 -/
inductive Stage where
  | none
  | draining
  | completed
  | processing
deriving DecidableEq

/-- Events.  `arrive k`: the outer source emits inner source `k`; `opened k`: `k` is subscribed; `closed k`: the operator takes note of `k`'s completion;
the others as in `Rpp.Comb.Ev`. -/
inductive Ev (α ε : Type) where
  | arrive (k : Nat)
  | opened (k : Nat)
  | closed (k : Nat)
  | recv (i : Nat) (c : Sig α ε)
  | beg (i : Nat) (o : Sig α ε)
  | own (i : Nat) (e : ε)
  | fin (i : Nat)
  | gone
deriving DecidableEq

/-- Where the thread of a source is inside operators/concat.hpp 25-190. -/
inductive Pc (α ε : Type) where
  | idle
  | cas (k : Nat)         -- 177-178
  | push (k : Nat)        -- 181
  | sub (k : Nat)         -- 85-87
  | insub                 -- inside `subscribe`, 87
  | casP                  -- 89-90
  | chk                   -- 56
  | pop                   -- 58
  | empty                 -- 61: `get_observable` found the queue empty
  | disp                  -- 62
  | test                  -- 63, 187
  | casC                  -- 153-155
  | odisp                 -- 186
  | out (o : Sig α ε)     -- waits for the observer's mutex
  | inn (o : Sig α ε)
  | cb (o : Sig α ε)
  | err (e : ε)
  | cbErr
  | mark
  | rel
deriving DecidableEq

/-- No call is in progress; no counterpart in /repo. -/
def Pc.isIdle {α ε : Type} : Pc α ε → Bool
  | .idle => true
  | _ => false

/-- `refs`: references of the shared `refcount_disposable` (the outer observer's one from the start, 120-123); `dead`: it is disposed. -/
structure St (α ε : Type) where
  stage : Stage := .none
  queue : List Nat := []
  refs : Nat := 1
  dead : Bool := false
  lock : Option Nat := none
  gone : Bool := false
  done : Nat → Bool := fun _ => false
  active : Nat → Bool := fun i => i == 0
  seen : Nat → Bool := fun i => i == 0
  calls : Nat → Pc α ε := fun _ => .idle
  log : List (Ev α ε) := []

/-- What may happen next; the choice is arbitrary; no counterpart in /repo. -/
inductive Lbl (α ε : Type) where
  | next (i : Nat) (v : α)
  | term (i : Nat) (t : Term ε)
  | arrive (k : Nat)
  | run (i : Nat)
  | ret (i : Nat) (r : Res ε)
  | gone
  | shut
deriving DecidableEq

variable {α ε : Type}

/-- Log an event; no counterpart in /repo. -/
def St.emit (s : St α ε) (ev : Ev α ε) : St α ε := { s with log := s.log ++ [ev] }
/-- Replace one component of the state; no counterpart in /repo. -/
def St.goto (s : St α ε) (i : Nat) (p : Pc α ε) : St α ε := { s with calls := fun j => if j = i then p else s.calls j }

/-- Where a notification of source `i` goes: 145-149 (`on_next`), 128-131 (`on_error`), 151-160 and 184-189 (`on_completed`). -/
def entry (i : Nat) : Sig α ε → Pc α ε
  | .next v => .out (.next v)
  | .term (.error e) => .out (.term (.error e))
  | .term .completed => if i = 0 then .odisp else .casC

/-- The next step of source `i`'s thread. -/
def St.advance (s : St α ε) (i : Nat) : St α ε :=
  match s.calls i with
  | .idle | .cb _ | .cbErr => s
  -- 174-182; the new reference (179) is taken in the same step
  | .cas k => if s.stage = .none then { s with stage := .draining, refs := s.refs + 1 }.goto i (.sub k) else s.goto i (.push k)
  | .push k => { s with queue := s.queue ++ [k] }.goto i .idle
  -- 83-91
  | .sub k => { s with stage := .draining, active := fun j => if j = k then true else s.active j }.goto i .insub |>.emit (.opened k)
  | .insub => s.goto i .casP
  | .casP => if s.stage = .draining then { s with stage := .processing }.goto i .idle else s.goto i .chk
  -- 54-71
  | .chk => if s.dead then s.goto i .idle else s.goto i .pop
  | .pop =>
    match s.queue with
    | [] => s.goto i .empty
    | k :: q => { s with queue := q }.goto i (.sub k)
  | .empty => { s with stage := .none }.goto i .disp
  -- refcount_disposable.hpp 33-46: after the disposal the counter is not looked at any more
  | .disp | .odisp => { s with refs := s.refs - 1, dead := s.dead || s.refs - 1 == 0 }.goto i .test
  | .test => if s.dead then s.goto i (.out (.term .completed)) else s.goto i .idle
  -- 151-160
  | .casC =>
    if s.stage = .draining then { s with stage := .completed }.goto i .idle |>.emit (.closed i)
    else s.goto i .chk |>.emit (.closed i)
  -- the downstream observer, behind its mutex
  | .out o =>
    match s.lock with
    | some _ => s
    | none => { s with lock := some i }.goto i (.inn o)
  | .inn o => if s.gone then s.goto i .rel else (s.goto i (.cb o)).emit (.beg i o)
  | .err e => if s.gone then s.goto i .rel else (s.goto i .cbErr).emit (.own i e)
  | .mark => { s with gone := true }.goto i .rel
  | .rel => { s with lock := none }.goto i .idle

/-- One step; the single cases cite the lines of operators/concat.hpp 25-190 they model. -/
def step (s : St α ε) : Lbl α ε → St α ε
  | .next i v =>
    if (s.calls i).isIdle && s.active i && !s.done i && !s.dead && i != 0 then (s.goto i (entry i (.next v))).emit (.recv i (.next v)) else s
  | .term i t =>
    if (s.calls i).isIdle && s.active i && !s.done i && !s.dead then
      { s with done := fun j => if j = i then true else s.done j }.goto i (entry i (.term t)) |>.emit (.recv i (.term t))
    else s
  | .arrive k =>
    if (s.calls 0).isIdle && !s.done 0 && !s.dead && !s.seen k then
      { s with seen := fun j => if j = k then true else s.seen j }.goto 0 (.cas k) |>.emit (.arrive k)
    else s
  | .run i => s.advance i
  | .ret i r =>
    match s.calls i, r with
    | .cb (.next _), .ok => (s.goto i .rel).emit (.fin i)
    | .cb (.next _), .throw e => (s.goto i (.err e)).emit (.fin i)
    | .cb (.term _), _ => (s.goto i .mark).emit (.fin i)
    | .cbErr, _ => (s.goto i .mark).emit (.fin i)
    | _, _ => s
  | .gone => if s.gone then s else { s with gone := true }.emit .gone
  | .shut => if s.gone then { s with dead := true } else s

/-- The state after a sequence of steps; no counterpart in /repo. -/
def exec (ls : List (Lbl α ε)) : St α ε := ls.foldl step {}

/-! ## What can be read off a history -/

/-- The inner sources emitted by the outer one, read off the log; no counterpart in /repo. -/
def arrivals (log : List (Ev α ε)) : List Nat := log.filterMap fun | .arrive k => some k | _ => none
/-- The inner sources subscribed, read off the log; no counterpart in /repo. -/
def openings (log : List (Ev α ε)) : List Nat := log.filterMap fun | .opened k => some k | _ => none
/-- The values the downstream observer got, read off the log; no counterpart in /repo. -/
def values (log : List (Ev α ε)) : List α := log.filterMap fun | .beg _ (.next v) => some v | _ => none
/-- The values source `i` has notified. -/
def sent (i : Nat) (log : List (Ev α ε)) : List α := log.filterMap fun | .recv j (.next v) => if j = i then some v else none | _ => none
/-- A callback of the downstream observer is running. -/
def busy (log : List (Ev α ε)) : Bool := log.foldl (fun b ev => match ev with | .beg _ _ | .own _ _ => true | .fin _ => false | _ => b) false
/-- The downstream observer has been told the end. -/
def Ended (log : List (Ev α ε)) : Prop := (∃ i t, .beg i (.term t) ∈ log) ∨ ∃ i e, .own i e ∈ log

end Rpp.Cat
