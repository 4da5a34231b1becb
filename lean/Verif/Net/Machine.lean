import Verif.Core.Props
import Verif.Combine.Props
import Verif.Time.DelayProps

/-!
# Combining operators as parts of larger expressions

The machines of `Verif.Combine` (merge, zip, combine_latest, with_latest_from, take_until) and of `Verif.Time.Delay` (delay) behind
one interface, and what each operator may tell its observer, given what it was told by its operands.
-/

namespace Rpp.Net

open Comb (Sig)

variable {α β ε : Type}

/-- A combining operator, seen from outside: operand `i` can notify it (`feed`) when `ready`, and it goes on by itself (`act`).
`got` is what it was notified of, `told` is what it told its observer; both are read off the history.  The interface of the machines
of `Verif.Combine` and `Verif.Time`, which cite the code; it has no counterpart in /repo. -/
structure Machine (α β ε : Type) where
  S : Type
  A : Type
  init : S
  ready : S → Nat → Bool
  feed : S → Nat → Sig α ε → S
  act : S → A → S
  got : S → Nat → List (Sig α ε)
  told : S → List (Sig β ε)

/-- The states an operator can get into; no counterpart in /repo. -/
inductive Machine.Reach (M : Machine α β ε) : M.S → Prop
  | init : M.Reach M.init
  | feed {s : M.S} (i : Nat) (x : Sig α ε) (h : M.Reach s) (hr : M.ready s i = true) : M.Reach (M.feed s i x)
  | act {s : M.S} (a : M.A) (h : M.Reach s) : M.Reach (M.act s a)

/-! ## Operators with a mutex -/

/-- What can happen inside an operator of `Verif.Combine.Hub`: a step of source `i`'s notification, the return of the observer's callback
(the observer is the front of a pipeline, an `observer_impl`, which does not let exceptions out, observers/observer.hpp 84-113), the
disposal of the observer and its arrival at the operator, and for `merge_with` the subscription to operand `k` and the
`on_completed` after the last one (operators/merge.hpp 166-184). -/
inductive HubAct where
  | run (i : Nat)
  | ret (i : Nat)
  | gone
  | shut
  | opn (k : Nat)
  | outer

/-- A notification of source `i` as a label of `Verif.Combine.Hub`; no counterpart in /repo. -/
def lbl (i : Nat) : Sig α ε → Comb.Lbl α ε
  | .next v => .next i v
  | .term t => .term i t

/-- `H` behind the interface; operand `i` is source `port i`, and there are `n` operands to subscribe to if `H.dyn`
(operators/merge.hpp 166-184). -/
def hubMachine {σ : Type} (H : Comb.Hub α β ε σ) (n : Nat) (port : Nat → Nat) : Machine α β ε where
  S := Comb.St α β ε σ
  A := HubAct
  init := H.initSt
  ready s i := (s.calls (port i)).isIdle && s.active (port i) && !s.done (port i) && !s.shut && decide (i < n)
  feed s i x := Comb.step H s (lbl (port i) x)
  act s
    | .run i => Comb.step H s (.run i)
    | .ret i => Comb.step H s (.ret i .ok)
    | .gone => Comb.step H s .gone
    | .shut => Comb.step H s .shut
    | .opn k => if k < n then Comb.step H s (.opn (port k)) else s
    | .outer => if H.dyn && (List.range n).all (fun k => s.active (port k)) then Comb.step H s (.term 0 .completed) else s
  got s i := if i < n then Comb.received (port i) s.log else []
  told s := (Comb.begs s.log).map (·.2)

/-! ## delay -/

/-- What can happen inside a `delay`: a step of the call in progress, a step of a task of its worker, time passes, the observer is
disposed (operators/delay.hpp 100-161). -/
inductive DelayAct where
  | call
  | task (t : Nat)
  | tick (k : Nat)
  | dispose

/-- A notification as `emission` (operators/delay.hpp 23-34). -/
def toItem : Sig α ε → Time.Delay.Item α ε
  | .next v => .val v
  | .term (.error e) => .err e
  | .term .completed => .done

/-- And back. (operators/delay.hpp 23-34) -/
def ofItem : Time.Delay.Item α ε → Sig α ε
  | .val v => .next v
  | .err e => .term (.error e)
  | .done => .term .completed

/-- No call is in progress; a test on the constructor. -/
def idle : Time.Delay.CPc α ε → Bool
  | .idle => true
  | _ => false

/-- `delay(d)` behind the interface; operand 0 is its source.  The second component remembers what it was notified of.
(operators/delay.hpp 69-162) -/
def delayMachine (d : Nat) : Machine α α ε where
  S := Time.Delay.St α ε × List (Sig α ε)
  A := DelayAct
  init := ({}, [])
  ready s i := decide (i = 0) && idle (s.1.calls 0) && !s.1.disposed && !s.2.any Sig.isTerm
  feed s _ x := (Time.Delay.step false d s.1 (.arrive 0 (toItem x)), s.2 ++ [x])
  act s
    | .call => (Time.Delay.step false d s.1 (.call 0), s.2)
    | .task t => (Time.Delay.step false d s.1 (.task t), s.2)
    | .tick k => (Time.Delay.step false d s.1 (.tick k), s.2)
    | .dispose => (Time.Delay.step false d s.1 .dispose, s.2)
  got s i := if i = 0 then s.2 else []
  told s := (Time.Delay.delivered s.1.log).map (fun p => ofItem p.1)

/-! ## The operators -/

/-- The combining operators of an expression.  `n` is the number of the other operands, besides the observable the operator is
applied to, which is operand 0 (operators/merge.hpp 255-261, zip.hpp, combine_latest.hpp, with_latest_from.hpp, take_until.hpp,
delay.hpp). -/
inductive Join (ε : Type) : Type → Type → Type 1
  | merge {α : Type} (n : Nat) : Join ε α α
  | zip {α β : Type} (n : Nat) (sel : List α → Except ε β) : Join ε α β
  | combineLatest {α β : Type} (n : Nat) (sel : List α → Except ε β) : Join ε α β
  | withLatest {α β : Type} (n : Nat) (sel : α → List α → Except ε β) : Join ε α β
  | takeUntil {α : Type} : Join ε α α
  | delay {α : Type} (d : Nat) : Join ε α α

/-- Number of operands. -/
def Join.arity : {α β : Type} → Join ε α β → Nat
  | _, _, .merge n | _, _, .zip n _ | _, _, .combineLatest n _ | _, _, .withLatest n _ => n + 1
  | _, _, .takeUntil => 2
  | _, _, .delay _ => 1

/-- Their machines: operators/merge.hpp 150-185 (`merge_with`; source 0 of the hub is `merge_with` itself), zip.hpp,
combine_latest.hpp, with_latest_from.hpp, take_until.hpp, delay.hpp. -/
def Join.machine : {α β : Type} → Join ε α β → Machine α β ε
  | _, _, .merge n => hubMachine Comb.mergeHub (n + 1) (· + 1)
  | _, _, .zip n sel => hubMachine (Comb.zipHub (n + 1) sel) (n + 1) id
  | _, _, .combineLatest n sel => hubMachine (Comb.combineLatestHub (n + 1) sel) (n + 1) id
  | _, _, .withLatest n sel => hubMachine (Comb.withLatestHub n sel) (n + 1) id
  | _, _, .takeUntil => hubMachine Comb.takeUntilHub 2 id
  | _, _, .delay d => delayMachine d

/-! ## Specification -/

/-- The call that makes a notification (observers/observer.hpp 93-144). -/
def toCall : Sig α ε → Call α ε
  | .next v => .next v
  | .term t => t.toCall

/-- The notifications a sequence consists of; models no code. -/
def notes (t : Trace α ε) : List (Sig α ε) := t.vals.map .next ++ t.fin.toList.map .term

/-- The sequence that these notifications make: nothing counts after an end.  Models no code. -/
def seqOf (l : List (Sig α ε)) : Trace α ε := traceOf (l.map toCall)

open Comb (sigVals ofTaken row latestAll combineLatestSpec withLatestSpec)

/-- What the operator may have told its observer (`t`) when its operands have notified `ins` so far, whatever its threads have
done: values in the right order, and no end before its time.  Specification; models no code.
* merge: an interleaving `w` of beginnings of the operands' values; it completes when all operands have, with all of their values; an error
  is one operand's, after all values of that operand;
* zip: the `k`-th value is the selector's result for the `k`-th values of all operands; when it completes, all operands have,
  and there are as many values as the shortest operand has, unless the selector throws for the next row; an error is an operand's or the
  selector's for the next row;
* combine_latest: the results for an interleaving of beginnings of the operands' values, or a beginning of that; when it completes, all operands
  have, and it is all results for an interleaving of all their values; an error is an operand's, when all values of that operand are in
  the interleaving, or the selector's for the most recent values at some moment;
* with_latest_from: the same, but only operand 0 gives results and completes it;
* take_until: a beginning of operand 0; it completes after operand 0 has, with all of its values, or after operand 1 has emitted or completed; an error is one of operand 0, after all
  of its values, or one of operand 1;
* delay: a beginning of operand 0; it ends like it, with all of its values. -/
def Join.Makes : {α β : Type} → Join ε α β → (Nat → List (Sig α ε)) → Trace β ε → Prop
  | α, _, .merge n, ins, t =>
    ∃ w : List (Nat × α), t.vals = w.map (·.2) ∧ (∀ p ∈ w, p.1 ≤ n) ∧
      (∀ i ≤ n, ofTaken i w <+: sigVals (ins i)) ∧
      (t.fin = some .completed → ∀ i ≤ n, .term .completed ∈ ins i ∧ ofTaken i w = sigVals (ins i)) ∧
      (∀ e, t.fin = some (.error e) → ∃ i ≤ n, .term (.error e) ∈ ins i ∧ ofTaken i w = sigVals (ins i))
  | _, _, .zip n sel, ins, t =>
    (∀ k w, t.vals[k]? = some w → sel (row (n + 1) (fun j => sigVals (ins j)) k) = .ok w ∧ ∀ j ≤ n, k < (sigVals (ins j)).length) ∧
    (t.fin = some .completed → (∀ i ≤ n, .term .completed ∈ ins i) ∧
      ((∃ j ≤ n, t.vals.length = (sigVals (ins j)).length) ∨ ∃ e, sel (row (n + 1) (fun j => sigVals (ins j)) t.vals.length) = .error e)) ∧
    (∀ e, t.fin = some (.error e) → (∃ i ≤ n, .term (.error e) ∈ ins i) ∨
      (sel (row (n + 1) (fun j => sigVals (ins j)) t.vals.length) = .error e ∧ ∀ j ≤ n, t.vals.length < (sigVals (ins j)).length))
  | α, _, .combineLatest n sel, ins, t =>
    ∃ w : List (Nat × α), (∀ j ≤ n, ofTaken j w <+: sigVals (ins j)) ∧ t.vals <+: combineLatestSpec (n + 1) sel w ∧
      (t.fin = some .completed → t.vals = combineLatestSpec (n + 1) sel w ∧
        ∀ j ≤ n, .term .completed ∈ ins j ∧ ofTaken j w = sigVals (ins j)) ∧
      (∀ e, t.fin = some (.error e) → (∃ i ≤ n, .term (.error e) ∈ ins i ∧ ofTaken i w = sigVals (ins i)) ∨
        ∃ k < w.length, ∃ l, latestAll (List.range (n + 1)) (w.take (k + 1)) = some l ∧ sel l = .error e)
  | α, _, .withLatest n sel, ins, t =>
    ∃ w : List (Nat × α), (∀ j ≤ n, ofTaken j w <+: sigVals (ins j)) ∧ t.vals <+: withLatestSpec n sel w ∧
      (t.fin = some .completed → t.vals = withLatestSpec n sel w ∧ .term .completed ∈ ins 0 ∧ ofTaken 0 w = sigVals (ins 0)) ∧
      (∀ e, t.fin = some (.error e) → (∃ i ≤ n, .term (.error e) ∈ ins i ∧ ofTaken i w = sigVals (ins i)) ∨
        ∃ k v l, w[k]? = some (0, v) ∧ latestAll ((List.range n).map (· + 1)) (w.take k) = some l ∧ sel v l = .error e)
  | _, _, .takeUntil, ins, t =>
    t.vals <+: sigVals (ins 0) ∧
    (t.fin = some .completed → (t.vals = sigVals (ins 0) ∧ .term .completed ∈ ins 0) ∨ .term .completed ∈ ins 1 ∨ ∃ v, .next v ∈ ins 1) ∧
    (∀ e, t.fin = some (.error e) → (t.vals = sigVals (ins 0) ∧ .term (.error e) ∈ ins 0) ∨ .term (.error e) ∈ ins 1)
  | _, _, .delay _, ins, t =>
    t.vals <+: sigVals (ins 0) ∧ ∀ f, t.fin = some f → t.vals = sigVals (ins 0) ∧ .term f ∈ ins 0

/-- What the operator, which has not ended, has told its observer (`vs`) once it has dealt with everything: nothing is missing.
Specification; models no code.
* merge: an interleaving of all values of all operands, of which none has failed and one has not completed;
* zip: as many values as the shortest operand has, made by index; no operand has failed, one has not completed;
* combine_latest: all results for an interleaving of all values of all operands; no operand has failed, one has not completed;
* with_latest_from: the same; no operand has failed, and operand 0 has not completed;
* take_until: all values of operand 0, which has not ended; operand 1 has notified nothing;
* delay: all values of operand 0, which has not ended. -/
def Join.MakesAll : {α β : Type} → Join ε α β → (Nat → List (Sig α ε)) → List β → Prop
  | α, _, .merge n, ins, vs =>
    (∃ w : List (Nat × α), vs = w.map (·.2) ∧ (∀ p ∈ w, p.1 ≤ n) ∧ ∀ i ≤ n, ofTaken i w = sigVals (ins i)) ∧
    (∀ i ≤ n, ∀ e, .term (.error e) ∉ ins i) ∧ ∃ i ≤ n, .term .completed ∉ ins i
  | _, _, .zip n sel, ins, vs =>
    (∀ k w, vs[k]? = some w → sel (row (n + 1) (fun j => sigVals (ins j)) k) = .ok w ∧ ∀ j ≤ n, k < (sigVals (ins j)).length) ∧
    (∃ j ≤ n, vs.length = (sigVals (ins j)).length) ∧
    (∀ i ≤ n, ∀ e, .term (.error e) ∉ ins i) ∧ ∃ i ≤ n, .term .completed ∉ ins i
  | α, _, .combineLatest n sel, ins, vs =>
    (∃ w : List (Nat × α), (∀ j ≤ n, ofTaken j w = sigVals (ins j)) ∧ vs = combineLatestSpec (n + 1) sel w) ∧
    (∀ i ≤ n, ∀ e, .term (.error e) ∉ ins i) ∧ ∃ i ≤ n, .term .completed ∉ ins i
  | α, _, .withLatest n sel, ins, vs =>
    (∃ w : List (Nat × α), (∀ j ≤ n, ofTaken j w = sigVals (ins j)) ∧ vs = withLatestSpec n sel w) ∧
    (∀ i ≤ n, ∀ e, .term (.error e) ∉ ins i) ∧ .term .completed ∉ ins 0
  | _, _, .takeUntil, ins, vs => vs = sigVals (ins 0) ∧ (∀ t, .term t ∉ ins 0) ∧ ins 1 = []
  | _, _, .delay _, ins, vs => vs = sigVals (ins 0) ∧ ∀ t, .term t ∉ ins 0

/-- The operator has nothing left to do: no notification is being processed, no task is waiting, `merge_with` has subscribed to all of
its operands (operators/merge.hpp 166-177) or they would be turned away.  Models no code. -/
def Join.Rest : {α β : Type} → (j : Join ε α β) → j.machine.S → Prop
  | α, _, .merge _, s => (∀ i, Comb.St.calls (α := α) (β := α) (ε := ε) (σ := Nat) s i = .idle) ∧
      (.recv 0 (.term .completed) ∈ Comb.St.log (α := α) (β := α) (ε := ε) (σ := Nat) s ∨
        Comb.St.shut (α := α) (β := α) (ε := ε) (σ := Nat) s = true)
  | α, β, .zip _ _, s => ∀ i, Comb.St.calls (α := α) (β := β) (ε := ε) (σ := Comb.ZipSt α) s i = .idle
  | α, β, .combineLatest _ _, s => ∀ i, Comb.St.calls (α := α) (β := β) (ε := ε) (σ := Comb.LatestSt α) s i = .idle
  | α, β, .withLatest _ _, s => ∀ i, Comb.St.calls (α := α) (β := β) (ε := ε) (σ := Nat → Option α) s i = .idle
  | α, _, .takeUntil, s => ∀ i, Comb.St.calls (α := α) (β := α) (ε := ε) (σ := Bool) s i = .idle
  | α, _, .delay _, s => Time.Delay.Quiescent (α := α) (ε := ε) s.1

/-- Somebody has disposed of the operator's observer.  Models no code. -/
def Join.Cut : {α β : Type} → (j : Join ε α β) → j.machine.S → Prop
  | α, _, .merge _, s => .gone ∈ Comb.St.log (α := α) (β := α) (ε := ε) (σ := Nat) s
  | α, β, .zip _ _, s => .gone ∈ Comb.St.log (α := α) (β := β) (ε := ε) (σ := Comb.ZipSt α) s
  | α, β, .combineLatest _ _, s => .gone ∈ Comb.St.log (α := α) (β := β) (ε := ε) (σ := Comb.LatestSt α) s
  | α, β, .withLatest _ _, s => .gone ∈ Comb.St.log (α := α) (β := β) (ε := ε) (σ := Nat → Option α) s
  | α, _, .takeUntil, s => .gone ∈ Comb.St.log (α := α) (β := α) (ε := ε) (σ := Bool) s
  | α, _, .delay _, s => .gone ∈ Time.Delay.St.log (α := α) (ε := ε) s.1

end Rpp.Net
