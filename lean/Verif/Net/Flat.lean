import Verif.Net.Machine

/-!
# merge of observables that are made on the fly

The machine of `merge` in `Verif.Combine.Hub`, whose inner observables come from an outer one: `merge()` and, with a `map` in
front, `flat_map` (operators/flat_map.hpp 20-42).
-/

namespace Rpp.Net

open Comb (Sig)

variable {α ι ε : Type}

/-- What can happen inside `merge`: a step of source `i`'s notification, the return of the observer's callback, the disposal of the
observer and its arrival (operators/merge.hpp 25-136; as `HubAct`). -/
inductive FlatAct where
  | run (i : Nat)
  | ret (i : Nat)
  | gone
  | shut

/-- A step of `merge` by itself; the steps are those of `Verif.Combine.Hub` (operators/merge.hpp 25-136). -/
def flatAct (h : Comb.St α α ε Nat) : FlatAct → Comb.St α α ε Nat
  | .run i => Comb.step Comb.mergeHub h (.run i)
  | .ret i => Comb.step Comb.mergeHub h (.ret i .ok)
  | .gone => Comb.step Comb.mergeHub h .gone
  | .shut => Comb.step Comb.mergeHub h .shut

/-- The end of the outer observable, if it has reached `merge`; read off the history, models no code. -/
def outerFin (h : Comb.St α α ε Nat) : Option (Term ε) := (Comb.received 0 h.log).findSome? fun | .term t => some t | .next _ => none

/-- The outer observable may notify: its calls do not overlap, and `merge` is not disposed of (observers/observer.hpp 84-144, operators/merge.hpp 94-97). -/
def outerReady (h : Comb.St α α ε Nat) : Bool := (h.calls 0).isIdle && h.active 0 && !h.done 0 && !h.shut

/-- Inner observable `k`, which is source `k + 1`, may notify; see `outerReady`. -/
def innerReady (h : Comb.St α α ε Nat) (k : Nat) : Bool := (h.calls (k + 1)).isIdle && h.active (k + 1) && !h.done (k + 1) && !h.shut

/-- The notification of the outer observable (whose sequence so far is `o`) that reaches `merge` next, if it is ready; `xs` are the
values it has got.  The notifications come one by one and in their order. -/
def outerNext (h : Comb.St α α ε Nat) (xs : List ι) (o : Trace ι ε) : Option (Sig ι ε) :=
  if outerReady h then (notes o)[(notes (⟨xs, outerFin h⟩ : Trace ι ε)).length]? else none

/-- The next notification of inner observable `k` (whose sequence so far is `o`) reaches `merge`, if it is ready. -/
def pushInner (h : Comb.St α α ε Nat) (k : Nat) (o : Trace α ε) : Comb.St α α ε Nat :=
  match (notes o)[(Comb.received (k + 1) h.log).length]? with
  | some x => if innerReady h k then Comb.step Comb.mergeHub h (lbl (k + 1) x) else h
  | none => h

/-- The next notification of the outer observable reaches `merge`: a value is an observable, which is subscribed to and put at the end
of the list `zs` of the inner ones (operators/merge.hpp 121-126). -/
def pushOuter {Z : Type} (h : Comb.St α α ε Nat) (xs : List ι) (zs : List Z) (mk : ι → Z) (o : Trace ι ε) : Comb.St α α ε Nat × List Z :=
  match outerNext h xs o with
  | some (.next x) => (Comb.step Comb.mergeHub h (.opn (zs.length + 1)), zs ++ [mk x])
  | some (.term t) => (Comb.step Comb.mergeHub h (.term 0 t), zs)
  | none => (h, zs)

/-- A step of an inner observable that was made of `x`; no counterpart in /repo. -/
def stepAt {S : ι → Type} [DecidableEq ι] (x : ι) (g : S x → S x) (z : Σ x, S x) : Σ x, S x := if h : z.1 = x then ⟨x, g (h ▸ z.2)⟩ else z

/-! ## Specification -/

open Comb (sigVals ofTaken)

/-- What `merge` may have told its observer (`t`) when it has subscribed to `m` inner observables, which have notified `ins`, and the outer
one has ended as in `fin`: an interleaving `w` of beginnings of their values; it completes when the outer one and all inner ones have,
with all their values; an error is the outer one's, or an inner one's after all values of that one.  Specification; models no code. -/
def FlatMakes (m : Nat) (fin : Option (Term ε)) (ins : Nat → List (Sig α ε)) (t : Trace α ε) : Prop :=
  ∃ w : List (Nat × α), t.vals = w.map (·.2) ∧ (∀ p ∈ w, p.1 < m) ∧ (∀ k < m, ofTaken k w <+: sigVals (ins k)) ∧
    (t.fin = some .completed → fin = some .completed ∧ ∀ k < m, .term .completed ∈ ins k ∧ ofTaken k w = sigVals (ins k)) ∧
    (∀ e, t.fin = some (.error e) → fin = some (.error e) ∨ ∃ k < m, .term (.error e) ∈ ins k ∧ ofTaken k w = sigVals (ins k))

/-- What `merge`, which has not ended, has told once it has dealt with everything: an interleaving of all values of all inner
observables; nobody has failed, and somebody has not completed.  Specification; models no code. -/
def FlatAll (m : Nat) (fin : Option (Term ε)) (ins : Nat → List (Sig α ε)) (vs : List α) : Prop :=
  (∃ w : List (Nat × α), vs = w.map (·.2) ∧ (∀ p ∈ w, p.1 < m) ∧ ∀ k < m, ofTaken k w = sigVals (ins k)) ∧
  (∀ e, fin ≠ some (.error e)) ∧ (∀ k < m, ∀ e, .term (.error e) ∉ ins k) ∧
  ¬ (fin = some .completed ∧ ∀ k < m, .term .completed ∈ ins k)

end Rpp.Net
