import Verif.Combine.Hub

/-!
# switch_on_next, atomic operation by atomic operation

In `Verif.Combine.Switch` the disposal of a reference, the release of the shared state that it leads to and the test of `is_disposed`
are one step.  Here they are not: every access to an atomic variable is a step of its own, and the calls of the outer observable and of
all inner ones interleave in any way.  What an inner observable emits while it is being subscribed to comes here after the outer observable's call, which then
may be followed by others: that is more than can happen in the code.  A call of the subscriber's observer is one step here (that the calls do not overlap is the
subject of `Verif.Combine.Hub`).
-/

namespace Rpp.SwFine

open Comb (Sig)

/-- What follows the disposal of a reference: `add_ref` (operators/switch_on_next.hpp 101), the test of `is_disposed` (69, 114), or the end of
`add_ref` for reference `k` (disposables/refcount_disposable.hpp 105). -/
inductive After where
  | ref
  | test
  | give (k : Nat)
deriving DecidableEq

/-- Where the call of a source is.  `exch`: about to dispose of a reference (the exchange of its flag; none: the wrapper is empty); `rel`: has
done so first, about to lower the count; `flag`: has lowered it to nothing, about to set the flag of the shared state; `ref`: about to raise the count;
`reg k`: about to add the new reference to the shared state; `test`: about to read the flag of the shared state; `call c`: about to call the
observer, waits for the mutex.  (operators/switch_on_next.hpp 57-77, 98-116; disposables/refcount_disposable.hpp 33-46, 74-83, 92-109) -/
inductive Pc (α ε : Type) where
  | idle
  | exch (r : Option Nat) (n : After)
  | rel (r : Nat) (n : After)
  | flag (n : After)
  | ref
  | reg (k : Nat)
  | test
  | call (c : Sig α ε)
deriving DecidableEq

/-- Events: source `i` notifies and is not turned away; inner observable `k` is subscribed to; the observer is called, from source `i`; it is
disposed of by somebody.  No counterpart in /repo. -/
inductive Ev (α ε : Type) where
  | recv (i : Nat) (c : Sig α ε)
  | opened (k : Nat)
  | told (i : Nat) (c : Sig α ε)
  | gone
deriving DecidableEq

/-- Source 0 is the outer one, the inner ones are 1, 2, ….  `flags r`: reference `r` is disposed of (0: `m_this_refcount`); `cnt`: `m_refcount`, none
stands for `s_disposed`; `dead`: the shared state is disposed of; `cur`: `m_last_refcount`; `next`: the number of the next reference; `over`: the
observer has ended or is disposed of.  (operators/switch_on_next.hpp 21-43, 131-134; disposables/refcount_disposable.hpp 30-64) For the proofs:
`held`, the references that have not lowered the count; `ended i`: source `i` has ended; `log`. -/
structure St (α ε : Type) where
  flags : Nat → Bool := fun _ => false
  cnt : Option Nat := some 1
  dead : Bool := false
  cur : Option Nat := none
  next : Nat := 1
  over : Bool := false
  pc : Nat → Pc α ε := fun _ => .idle
  held : List Nat := [0]
  ended : Nat → Bool := fun _ => false
  log : List (Ev α ε) := []

/-- What the environment and the scheduler can do: the outer observable emits; inner observable `i` emits; source `i` ends; source `i`'s call
makes a step; the observer is disposed of; after the observer's end the shared state, which is its upstream, is disposed of step by
step: its flag, its count, its references (disposables/composite_disposable.hpp 37-60).  No counterpart in /repo. -/
inductive Lbl (α ε : Type) where
  | outer
  | emit (i : Nat) (v : α)
  | fin (i : Nat) (t : Term ε)
  | run (i : Nat)
  | gone
  | shut
  | wipe
  | kill (k : Nat)

variable {α ε : Type}

/-- Set where the call of source `i` is; no counterpart in /repo. -/
def St.goto (s : St α ε) (i : Nat) (p : Pc α ε) : St α ε := { s with pc := fun j => if j = i then p else s.pc j }

/-- Add an event; no counterpart in /repo. -/
def St.emit (s : St α ε) (e : Ev α ε) : St α ε := { s with log := s.log ++ [e] }

/-- The call of source `i` goes on after the disposal of a reference; `m_last_refcount` is assigned and the inner observable subscribed to when `add_ref`
returns (operators/switch_on_next.hpp 69, 101-102, 114). -/
def St.after (s : St α ε) (i : Nat) : After → St α ε
  | .ref => s.goto i .ref
  | .test => s.goto i .test
  | .give k => { s with cur := some k }.goto i .idle |>.emit (.opened k)

/-- Inner observable `k` was subscribed to; read off the history, models no code. -/
def isOpen (log : List (Ev α ε)) (k : Nat) : Bool := log.any fun | .opened j => j == k | _ => false

/-- No call is in progress; no counterpart in /repo. -/
def Pc.isIdle : Pc α ε → Bool
  | .idle => true
  | _ => false

/-- Source `i` may notify: its calls do not overlap and stop with its end; it was subscribed to; its observer is not disposed of, which is whether the
reference is (observers/observer.hpp 84-144; operators/switch_on_next.hpp 74, 119). -/
def St.ready (s : St α ε) (i : Nat) : Bool := (s.pc i).isIdle && !s.ended i && !s.flags i && (i == 0 || isOpen s.log i)

/-- A step of the call of source `i`.  `on_next` of the outer source: dispose of the last reference, take a new one, subscribe
(operators/switch_on_next.hpp 98-103); `on_completed` of either kind: dispose of the own reference, test the shared state, call the observer (65-70,
110-115); otherwise call the observer (55-63, 105-108).  Disposing of a reference: the first one to do so lowers the count, and if nothing is left
disposes of the shared state (disposables/composite_disposable.hpp 37-60, disposables/refcount_disposable.hpp 33-46, 74-83).  `add_ref`: raise the count unless it is
`s_disposed`, and add the reference to the shared state, which disposes of it if it is disposed of itself (disposables/refcount_disposable.hpp 92-109,
disposables/composite_disposable.hpp 65-95).  Simplified: a compare-and-exchange that fails and is tried again is not a step; `m_state.remove` (78)
and the store of `s_disposed` (50), which is there already, are left out. -/
def St.run (s : St α ε) (i : Nat) : St α ε :=
  match s.pc i with
  | .idle => s
  | .exch none n => s.after i n
  | .exch (some r) n => if s.flags r then s.after i n else { s with flags := fun j => if j = r then true else s.flags j }.goto i (.rel r n)
  | .rel r n =>
    let s := { s with held := s.held.erase r }
    match s.cnt with
    | none => s.after i n
    | some c => if c = 1 then { s with cnt := none }.goto i (.flag n) else { s with cnt := some (c - 1) }.after i n
  | .flag n => { s with dead := true }.after i n
  | .ref =>
    match s.cnt with
    | none => { s with cur := none }.goto i .idle
    | some c => { s with cnt := some (c + 1), next := s.next + 1, held := s.held ++ [s.next] }.goto i (.reg s.next)
  | .reg k => if s.dead then s.goto i (.exch (some k) (.give k)) else s.after i (.give k)
  | .test => s.goto i (if s.dead then .call (.term .completed) else .idle)
  | .call c =>
    if s.over then s.goto i .idle
    else { s with over := match c with | .term _ => true | .next _ => false }.goto i .idle |>.emit (.told i c)

/-- One step; see `Lbl`.  (operators/switch_on_next.hpp 45-135) -/
def step (s : St α ε) : Lbl α ε → St α ε
  | .outer => if s.ready 0 then s.goto 0 (.exch s.cur .ref) else s
  | .emit i v => if i ≠ 0 ∧ s.ready i then s.goto i (.call (.next v)) |>.emit (.recv i (.next v)) else s
  | .fin i t =>
    if s.ready i then
      { s with ended := fun j => if j = i then true else s.ended j }.goto i
        (match t with | .completed => .exch (some i) .test | .error e => .call (.term (.error e))) |>.emit (.recv i (.term t))
    else s
  | .run i => s.run i
  | .gone => { s with over := true }.emit .gone
  | .shut => if s.over then { s with dead := true } else s
  | .wipe => if s.dead then { s with cnt := none } else s
  | .kill k => if s.dead && s.cnt.isNone && decide (k < s.next) then { s with flags := fun j => if j = k then true else s.flags j } else s

/-- The state after a history; no counterpart in /repo. -/
def exec (ls : List (Lbl α ε)) : St α ε := ls.foldl step {}

/-! ## Specification -/

/-- The inner observable that was subscribed to last.  Models no code. -/
def current (log : List (Ev α ε)) : Option Nat := (log.filterMap fun | .opened k => some k | _ => none).getLast?

/-- The observer was told the end.  Models no code. -/
def Ended (log : List (Ev α ε)) : Prop := ∃ i t, .told i (.term t) ∈ log

end Rpp.SwFine
