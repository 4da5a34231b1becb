import Verif.Net.Follow

/-!
# Expressions

A whole expression such as `merge(a | filter, zip(b | map, c) | take(3)) | distinct` as one machine: a tree whose leaves are sources with
pipelines of the operators of `Verif.Core` and whose inner nodes are the operators of `Verif.Net.Machine`, each followed by a pipeline.
Every operator is run by any number of threads: the labels say which source notifies, which operator makes a step of which of
its calls, which operand's next notification reaches it, who is disposed.

Simplified: the operands of one operator have the same type; an operator that is notified late stands for a thread that is late, so a
notification may be under way for any time between two operators (in the code the call is synchronous, which is one of these schedules); the
disposables that are handed over are not modelled here.
-/

namespace Rpp.Net

open Comb (Sig)

/-- Expressions with values of type `γ`: a source with a pipeline; a combining operator with its operands and a pipeline;
`q | flat_map(f)` with a pipeline, where `f x` is the observable made of the value `x` (operators/flat_map.hpp 20-42: `map(f)` and then `merge()`);
or observables one after the other (`Verif.Net.Follow`: `concat`, `start_with`, `repeat`, `retry`, and `on_error_resume_next` after observables that make no call after an error) with a pipeline.  Values and
errors need a decidable equality only for the bookkeeping of the model.  In the code these are the nested types of `chain` (observables/details/chain_strategy.hpp 20-92) and the observables an operator holds (operators/details/combining_strategy.hpp 76-80). -/
inductive Net (ε : Type) : Type → Type 1
  | src {ι γ : Type} (p : Pipe ε ι γ) : Net ε γ
  | join {α β γ : Type} (j : Join ε α β) (kids : Nat → Net ε α) (p : Pipe ε β γ) : Net ε γ
  | flat {ι α γ : Type} (eq : DecidableEq ι) (q : Net ε ι) (f : ι → Net ε α) (p : Pipe ε α γ) : Net ε γ
  | follow {α γ : Type} (eq : DecidableEq ε) (ks : List (Term ε) → Net ε α) (sw : List (Term ε) → Term ε → Bool) (p : Pipe ε α γ) : Net ε γ

variable {ε γ : Type}

/-- The state: the calls a source has made so far; the state of the operator and of its operands.  (observables/details/chain_strategy.hpp 45-56, 84-88) -/
def Net.State : {γ : Type} → Net ε γ → Type
  | _, @Net.src _ ι _ _ => List (Call ι ε)
  | _, .join j kids _ => j.machine.S × (∀ i, (kids i).State)
  | _, @Net.flat _ ι α _ _ q f _ => Comb.St α α ε Nat × q.State × List (Σ x : ι, (f x).State)
  | _, @Net.follow _ α _ _ ks _ _ => FollowSt α ε × (∀ i, (ks i).State)

/-- The state after subscribing (observables/details/chain_strategy.hpp 45-56, 84-88). -/
def Net.init : {γ : Type} → (n : Net ε γ) → n.State
  | _, .src _ => []
  | _, .join j kids _ => (j.machine.init, fun i => (kids i).init)
  | _, .flat _ q _ _ => (Comb.mergeHub.initSt, q.init, [])
  | _, .follow _ ks _ _ => ({}, fun i => (ks i).init)

/-- The sequence the observer of the expression was told so far.  What an observer accepts ends with the first terminal
notification (observers/observer.hpp 84-144). -/
def Net.seq : {γ : Type} → (n : Net ε γ) → n.State → Trace γ ε
  | _, .src p, s => traceOf (p.trans s)
  | _, .join j _ p, s => traceOf (p.trans ((j.machine.told s.1).map toCall))
  | _, .flat _ _ _ p, s => traceOf (p.trans (((Comb.begs s.1.log).map (·.2)).map toCall))
  | _, .follow _ _ _ p, s => traceOf (p.trans (s.1.told.map toCall))

/-- What may happen next: a source makes a call; operand `i`'s next notification reaches the operator; the operator makes a step by
itself; something happens in operand `i`.  Likewise for `flat_map`, where `inKid k x l` means something only if the `k`-th inner observable was made
of `x`.  Observables one after the other: the present one's next notification reaches the operator; the observer is disposed of; something happens in
the observable after the ends `i`, which means something only if it was subscribed to.  No counterpart in /repo. -/
inductive Net.Lbl {ε : Type} : {γ : Type} → Net ε γ → Type 1
  | call {ι γ : Type} {p : Pipe ε ι γ} (c : Call ι ε) : Net.Lbl (.src p)
  | push {α β γ : Type} {j : Join ε α β} {kids : Nat → Net ε α} {p : Pipe ε β γ} (i : Nat) : Net.Lbl (.join j kids p)
  | act {α β γ : Type} {j : Join ε α β} {kids : Nat → Net ε α} {p : Pipe ε β γ} (a : j.machine.A) : Net.Lbl (.join j kids p)
  | kid {α β γ : Type} {j : Join ε α β} {kids : Nat → Net ε α} {p : Pipe ε β γ} (i : Nat) (l : Net.Lbl (kids i)) : Net.Lbl (.join j kids p)
  | outer {ι α γ : Type} {eq : DecidableEq ι} {q : Net ε ι} {f : ι → Net ε α} {p : Pipe ε α γ} : Net.Lbl (.flat eq q f p)
  | inner {ι α γ : Type} {eq : DecidableEq ι} {q : Net ε ι} {f : ι → Net ε α} {p : Pipe ε α γ} (k : Nat) : Net.Lbl (.flat eq q f p)
  | merge {ι α γ : Type} {eq : DecidableEq ι} {q : Net ε ι} {f : ι → Net ε α} {p : Pipe ε α γ} (a : FlatAct) : Net.Lbl (.flat eq q f p)
  | inSrc {ι α γ : Type} {eq : DecidableEq ι} {q : Net ε ι} {f : ι → Net ε α} {p : Pipe ε α γ} (l : Net.Lbl q) : Net.Lbl (.flat eq q f p)
  | inKid {ι α γ : Type} {eq : DecidableEq ι} {q : Net ε ι} {f : ι → Net ε α} {p : Pipe ε α γ} (k : Nat) (x : ι) (l : Net.Lbl (f x)) :
    Net.Lbl (.flat eq q f p)
  | hear {α γ : Type} {eq : DecidableEq ε} {ks : List (Term ε) → Net ε α} {sw : List (Term ε) → Term ε → Bool} {p : Pipe ε α γ} :
    Net.Lbl (.follow eq ks sw p)
  | drop {α γ : Type} {eq : DecidableEq ε} {ks : List (Term ε) → Net ε α} {sw : List (Term ε) → Term ε → Bool} {p : Pipe ε α γ} :
    Net.Lbl (.follow eq ks sw p)
  | inOne {α γ : Type} {eq : DecidableEq ε} {ks : List (Term ε) → Net ε α} {sw : List (Term ε) → Term ε → Bool} {p : Pipe ε α γ}
    (i : List (Term ε)) (l : Net.Lbl (ks i)) : Net.Lbl (.follow eq ks sw p)

/-- The notifications of operand `i` reach operator `M` one by one, in their order, when it is ready for them (the calls of one source do not overlap). -/
def push {α β : Type} (M : Machine α β ε) (s : M.S) (i : Nat) (o : Trace α ε) : M.S :=
  match (notes o)[(M.got s i).length]? with
  | some x => if M.ready s i then M.feed s i x else s
  | none => s

/-- Replace the state of operand `i`; no counterpart in /repo. -/
def setKid {I : Type} [DecidableEq I] {S : I → Type} (f : ∀ i, S i) (i : I) (x : S i) : ∀ k, S k := fun k => if h : i = k then h ▸ x else f k

/-- One step; no counterpart in /repo. -/
def Net.step : {γ : Type} → (n : Net ε γ) → n.State → n.Lbl → n.State
  | _, .src _, s, .call c => (show List (Call _ ε) from s) ++ [c]
  | _, .join j kids _, s, .push i => (Net.push j.machine s.1 i ((kids i).seq (s.2 i)), s.2)
  | _, .join j _ _, s, .act a => (j.machine.act s.1 a, s.2)
  | _, .join _ kids _, s, .kid i l => (s.1, setKid s.2 i ((kids i).step (s.2 i) l))
  | _, .flat _ q f _, s, .outer =>
    let r := pushOuter s.1 (s.2.2.map (·.1)) s.2.2 (fun x => ⟨x, (f x).init⟩) (q.seq s.2.1)
    (r.1, s.2.1, r.2)
  | _, .flat _ _ f _, s, .inner k =>
    (match s.2.2[k]? with | some z => pushInner s.1 k ((f z.1).seq z.2) | none => s.1, s.2)
  | _, .flat _ _ _ _, s, .merge a => (flatAct s.1 a, s.2)
  | _, .flat _ q _ _, s, .inSrc l => (s.1, q.step s.2.1 l, s.2.2)
  | _, .flat eq _ f _, s, .inKid k x l => (s.1, s.2.1, s.2.2.modify k (stepAt x fun z => (f x).step z l))
  | _, .follow _ ks sw _, s, .hear => (pushFollow sw s.1 ((ks s.1.ends).seq (s.2 s.1.ends)), s.2)
  | _, .follow _ _ _ _, s, .drop => ({ s.1 with gone := true }, s.2)
  | _, .follow eq ks _ _, s, .inOne i l =>
    letI := eq
    if i <+: s.1.ends then (s.1, setKid s.2 i ((ks i).step (s.2 i) l)) else s

/-- The state after a sequence of steps; no counterpart in /repo. -/
def Net.exec {γ : Type} (n : Net ε γ) (ls : List n.Lbl) : n.State := ls.foldl n.step n.init

/-- What the subscriber whose callbacks behave like `react` was called with (`Verif.Core`: observers/lambda_observer.hpp, observer.hpp 84-144). -/
def Net.sees [DecidableEq ε] (ov : ε) : {γ : Type} → [DecidableEq γ] → (react : List (Call γ ε) → Reaction ε) → (n : Net ε γ) → n.State → List (Call γ ε)
  | _, _, react, .src p, s => subscriberSees none ov react p s
  | _, _, react, .join j _ p, s => subscriberSees none ov react p ((j.machine.told s.1).map toCall)
  | _, _, react, .flat _ _ _ p, s => subscriberSees none ov react p (((Comb.begs s.1.log).map (·.2)).map toCall)
  | _, _, react, .follow _ _ _ p, s => subscriberSees none ov react p (s.1.told.map toCall)

/-! ## Specification -/

/-- One sequence for each source of the expression; for `flat_map` those of each inner observable that was subscribed to, with the value
it was made of; for observables one after the other those of each that may be subscribed to (it has made nothing before it is).  Models no code. -/
def Net.Inp : {γ : Type} → Net ε γ → Type
  | _, @Net.src _ ι _ _ => Trace ι ε
  | _, .join _ kids _ => ∀ i, (kids i).Inp
  | _, @Net.flat _ ι _ _ _ q f _ => q.Inp × List (Σ x : ι, (f x).Inp)
  | _, .follow _ ks _ _ => ∀ i, (ks i).Inp

/-- The sequences the sources have made so far; models no code. -/
def Net.given : {γ : Type} → (n : Net ε γ) → n.State → n.Inp
  | _, .src _, s => traceOf s
  | _, .join _ kids _, s => fun i => (kids i).given (s.2 i)
  | _, .flat _ q f _, s => (q.given s.2.1, s.2.2.map fun z => ⟨z.1, (f z.1).given z.2⟩)
  | _, .follow _ ks _ _, s => fun i => (ks i).given (s.2 i)

/-- `y` is the same as `x`: no source has notified since; but there may be more inner observables of a `flat_map`, whose sources have not
notified.  Models no code. -/
def Net.Later : {γ : Type} → (n : Net ε γ) → n.Inp → n.Inp → Prop
  | _, .src _, x, y => y = x
  | _, .join _ kids _, x, y => ∀ i, (kids i).Later (x i) (y i)
  | _, .flat _ q f _, x, y => q.Later x.1 y.1 ∧ x.2.length ≤ y.2.length ∧
    ∀ (k : Nat) z, y.2[k]? = some z →
      (∃ w, x.2[k]? = some ⟨z.1, w⟩ ∧ (f z.1).Later w z.2) ∨ (x.2.length ≤ k ∧ (f z.1).Later ((f z.1).given (f z.1).init) z.2)
  | _, .follow _ ks _ _, x, y => ∀ i, (ks i).Later (x i) (y i)

/-- The expression has no `flat_map`: its sources are always the same.  Models no code. -/
def Net.Fixed : {γ : Type} → Net ε γ → Prop
  | _, .src _ => True
  | _, .join _ kids _ => ∀ i, (kids i).Fixed
  | _, .flat .. => False
  | _, .follow _ ks _ _ => ∀ i, (ks i).Fixed

/-- Only so many observables come one after the other (not so for `repeat()` and `retry()` without a number).  Models no code. -/
def Net.Bounded : {γ : Type} → Net ε γ → Prop
  | _, .src _ => True
  | _, .join _ kids _ => ∀ i, (kids i).Bounded
  | _, .flat _ q f _ => q.Bounded ∧ ∀ x, (f x).Bounded
  | _, .follow _ ks sw _ => (∃ m, ∀ i t, m ≤ i.length → sw i t = false) ∧ ∀ i, (ks i).Bounded

/-- The side conditions of the pipelines; models no code. -/
def Net.WF : {γ : Type} → Net ε γ → Prop
  | _, .src p => p.WF
  | _, .join _ kids p => (∀ i, (kids i).WF) ∧ p.WF
  | _, .flat _ q f p => q.WF ∧ (∀ x, (f x).WF) ∧ p.WF
  | _, .follow _ ks _ p => (∀ i, (ks i).WF) ∧ p.WF

/-- The sequences that the expression may have made from the sequences `x` of its sources, operator by operator: each operator has got a
beginning of a sequence of each operand, and makes of it what `Join.Makes` and `Pipe.spec` say; `flat_map` has subscribed to one inner
observable for each value of a beginning `g` of the outer sequence; of observables one after the other, the ones before the present one have
ended, each with an end that leads to the next one, and a beginning `g` of the present one follows.  Specification; models no code. -/
def Net.Can : {γ : Type} → (n : Net ε γ) → n.Inp → Trace γ ε → Prop
  | _, .src p, x, t => t = p.spec x
  | _, .join j kids p, x, t =>
    ∃ ins u, (∀ i < j.arity, ∃ o, (kids i).Can (x i) o ∧ ins i <+: notes o) ∧ j.Makes ins u ∧ t = p.spec u
  | _, .flat _ q f p, x, t =>
    ∃ o g ins u, q.Can x.1 o ∧ notes g <+: notes o ∧ g.vals = x.2.map (·.1) ∧
      (∀ (k : Nat) z, x.2[k]? = some z → ∃ o, (f z.1).Can z.2 o ∧ ins k <+: notes o) ∧ FlatMakes x.2.length g.fin ins u ∧ t = p.spec u
  | _, .follow _ ks sw p, x, t =>
    ∃ i vs o g, Before (fun i o => (ks i).Can (x i) o) sw i vs ∧ (ks i).Can (x i) o ∧ notes g <+: notes o ∧
      (∀ u, g.fin = some u → sw i u = false) ∧ t = p.spec ⟨vs ++ g.vals, g.fin⟩

/-- Nothing is left to do in the whole expression: no operator is at work, and no notification of an operand is on its way.  Models no code. -/
def Net.Rest : {γ : Type} → (n : Net ε γ) → n.State → Prop
  | _, .src _, _ => True
  | _, .join j kids _, s => j.Rest s.1 ∧ ∀ i < j.arity, push j.machine s.1 i ((kids i).seq (s.2 i)) = s.1 ∧ (kids i).Rest (s.2 i)
  | _, .flat _ q f _, s => (∀ i, s.1.calls i = .idle) ∧ outerNext s.1 (s.2.2.map (·.1)) (q.seq s.2.1) = none ∧ q.Rest s.2.1 ∧
    ∀ (k : Nat) z, s.2.2[k]? = some z → pushInner s.1 k ((f z.1).seq z.2) = s.1 ∧ (f z.1).Rest z.2
  | _, .follow _ ks _ _, s => followNext s.1 ((ks s.1.ends).seq (s.2 s.1.ends)) = none ∧ ∀ i, i <+: s.1.ends → (ks i).Rest (s.2 i)

/-- Nobody has disposed of an observer, other than because of the end of a sequence: while the sequence of an (sub)expression has not
ended, its operator is not disposed of, and so for its operands.  Models no code. -/
def Net.Kept : {γ : Type} → (n : Net ε γ) → n.State → Prop
  | _, .src _, _ => True
  | _, .join j kids p, s => (Net.seq (.join j kids p) s).fin = none → ¬ j.Cut s.1 ∧ ∀ i < j.arity, (kids i).Kept (s.2 i)
  | _, .flat eq q f p, s => (Net.seq (.flat eq q f p) s).fin = none → .gone ∉ s.1.log ∧ q.Kept s.2.1 ∧
    ∀ (k : Nat) z, s.2.2[k]? = some z → (f z.1).Kept z.2
  | _, .follow eq ks sw p, s => (Net.seq (.follow eq ks sw p) s).fin = none → s.1.gone = false ∧ ∀ i, i <+: s.1.ends → (ks i).Kept (s.2 i)

/-- The sequences that the expression may have made from the sequences `x` of its sources when nothing is left to do.  While the
sequence has not ended, every operator has got the whole sequence of each of its operands and has made all that `Join.MakesAll` says.
Specification; models no code. -/
def Net.CanAll : {γ : Type} → (n : Net ε γ) → n.Inp → Trace γ ε → Prop
  | _, .src p, x, t => t = p.spec x
  | _, .join j kids p, x, t =>
    ∃ ins u, (∀ i < j.arity, ∃ o, (kids i).Can (x i) o ∧ ins i <+: notes o) ∧ j.Makes ins u ∧ t = p.spec u ∧
      (t.fin = none → j.MakesAll ins u.vals ∧ ∀ i < j.arity, ∃ o, (kids i).CanAll (x i) o ∧ ins i = notes o)
  | _, .flat _ q f p, x, t =>
    ∃ o g ins u, q.Can x.1 o ∧ notes g <+: notes o ∧ g.vals = x.2.map (·.1) ∧
      (∀ (k : Nat) z, x.2[k]? = some z → ∃ o, (f z.1).Can z.2 o ∧ ins k <+: notes o) ∧ FlatMakes x.2.length g.fin ins u ∧ t = p.spec u ∧
      (t.fin = none → FlatAll x.2.length g.fin ins u.vals ∧ q.CanAll x.1 g ∧
        ∀ (k : Nat) z, x.2[k]? = some z → ∃ o, (f z.1).CanAll z.2 o ∧ ins k = notes o)
  | _, .follow _ ks sw p, x, t =>
    ∃ i vs o g, Before (fun i o => (ks i).Can (x i) o) sw i vs ∧ (ks i).Can (x i) o ∧ notes g <+: notes o ∧
      (∀ u, g.fin = some u → sw i u = false) ∧ t = p.spec ⟨vs ++ g.vals, g.fin⟩ ∧
      (t.fin = none → Before (fun i o => (ks i).CanAll (x i) o) sw i vs ∧ (ks i).CanAll (x i) g ∧ g.fin = none)

end Rpp.Net
