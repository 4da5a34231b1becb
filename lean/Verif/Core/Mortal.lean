import Verif.Core.Props

/-!
# Exceptions that end the process

`observer_impl::on_next`, `on_error`, `on_completed` are `noexcept` (observers/observer.hpp 84-144).
An exception of a user's function called from `on_next` is caught there and becomes `on_error`; one
thrown by a function called from `on_error` or `on_completed` leaves a `noexcept` function, which is
`std::terminate`.  `Verif.Core.Model` leaves this out (the `throws` of `onError` and `onCompleted` are
ignored there); this file adds it: every call on an observer also says whether the process died in it.

The user functions an operator of the library calls from `on_error`/`on_completed` without a `try`
around them are the second and the third function of `tap` (tap.hpp 41-51); at the end of the chain
there are the `on_error` and `on_completed` of the subscriber (lambda_observer.hpp 19-40), where the
default for `on_error` rethrows (observers/fwd.hpp 125, operators/subscribe.hpp 305; `rethrow_error_t` in utils/functors.hpp).
`finally` takes functions that are declared not to throw only (finally.hpp 57).
-/

namespace Rpp

/-- An observer whose calls may end the process: the second component of a result says that they did
(observers/observer.hpp 84-144 with `noexcept`). -/
structure MObs (α ε σ : Type) where
  call : Call α ε → σ → σ × Bool
  isDisposed : σ → Bool
  release : Nat → σ → σ

/-- Calls one after the other; nothing happens after the death of the process
(observers/observer.hpp 160, SERIAL use). -/
def MObs.run (M : MObs α ε σ) : σ → List (Call α ε) → σ × Bool
  | s, [] => (s, false)
  | s, c :: cs =>
    match M.call c s with
    | (s', true) => (s', true)
    | (s', false) => M.run s' cs

/-- `observer_impl::on_error` of the subscriber (observers/observer.hpp 120-129,
lambda_observer.hpp 19-40): a throwing callback ends the process, otherwise the observer is disposed
of. -/
def mUserError [DecidableEq α] [DecidableEq ε] (react : List (Call α ε) → Reaction ε) (e : ε)
    (s : UserSt α ε) : UserSt α ε × Bool :=
  if s.disposed then (s, false)
  else
    let s1 := { s with log := s.log ++ [.ev (.error e)] }
    let r := react (evsOf s1.log)
    let s2 := if r.dispose then s1.dispose else s1
    if r.throws.isSome then (s2, true) else (s2.dispose, false)

/-- `observer_impl` of the subscriber: `on_next` 84-113, `on_error` 120-129, `on_completed` 135-144,
`set_upstream` 49-66 (observers/observer.hpp), callbacks of lambda_observer.hpp 19-40. -/
def mUserCall [DecidableEq α] [DecidableEq ε] (cap : Option Nat) (overflow : ε)
    (react : List (Call α ε) → Reaction ε) : Call α ε → UserSt α ε → UserSt α ε × Bool
  | .next a, s =>
    if s.disposed then (s, false)
    else
      let s1 := { s with log := s.log ++ [.ev (.next a)] }
      let r := react (evsOf s1.log)
      let s2 := if r.dispose then s1.dispose else s1
      match r.throws with
      | none => (s2, false)
      | some e => mUserError react e s2
  | .error e, s => mUserError react e s
  | .completed, s =>
    if s.disposed then (s, false)
    else
      let s1 := { s with log := s.log ++ [.ev .completed] }
      let r := react (evsOf s1.log)
      let s2 := if r.dispose then s1.dispose else s1
      if r.throws.isSome then (s2, true) else (s2.dispose, false)
  | .up d, s =>
    if s.disposed then (s.release d, false)
    else
      match (localDisp cap overflow).add d s with
      | (s', none) => (s', false)
      | (s', some e) => mUserError react e s'

/-- The observer of a subscriber whose callbacks may throw, each of the three
(observers/observer.hpp 25-145, lambda_observer.hpp 19-40). -/
def mUser [DecidableEq α] [DecidableEq ε] (cap : Option Nat) (overflow : ε)
    (react : List (Call α ε) → Reaction ε) : MObs α ε (UserSt α ε) where
  call := mUserCall cap overflow react
  isDisposed s := s.disposed
  release d s := s.release d

/-- `on_error` of a lifted operator (observers/observer.hpp 120-129 around the operator's strategy). -/
def OpStrategy.mError (P : OpStrategy α β ε σ) (down : MObs β ε τ) (e : ε) (s : σ × τ) :
    (σ × τ) × Bool :=
  if down.isDisposed s.2 then (s, false)
  else
    let r := P.onError e s.1
    match down.run s.2 r.out with
    | (t, true) => ((r.st, t), true)
    | (t, false) => ((r.st, t), r.throws.isSome)

/-- The other calls of a lifted operator (observers/observer.hpp 49-66, 84-113, 135-144). -/
def OpStrategy.mCall (P : OpStrategy α β ε σ) (down : MObs β ε τ) :
    Call α ε → σ × τ → (σ × τ) × Bool
  | .next a, s =>
    if down.isDisposed s.2 then (s, false)
    else
      let r := P.onNext a s.1
      match down.run s.2 r.out with
      | (t, true) => ((r.st, t), true)
      | (t, false) =>
        match r.throws with
        | none => ((r.st, t), false)
        | some e => P.mError down e (r.st, t)
  | .error e, s => P.mError down e s
  | .completed, s =>
    if down.isDisposed s.2 then (s, false)
    else
      let r := P.onCompleted s.1
      match down.run s.2 r.out with
      | (t, true) => ((r.st, t), true)
      | (t, false) => ((r.st, t), r.throws.isSome)
  | .up d, s =>
    if down.isDisposed s.2 then ((s.1, down.release d s.2), false)
    else
      let r := down.call (.up d) s.2
      ((s.1, r.1), r.2)

/-- An operator's observer (operators/details/strategy.hpp 36-49). -/
def OpStrategy.mLift (P : OpStrategy α β ε σ) (down : MObs β ε τ) : MObs α ε (σ × τ) where
  call := P.mCall down
  isDisposed s := down.isDisposed s.2
  release d s := (s.1, down.release d s.2)

/-- `tap` whose three functions may all throw (tap.hpp 34-51): `cbE` and `cbC` say when the second and
the third do; a function that throws does so before the notification is passed on. -/
def Ops.tap3 (cb : α → Option ε) (cbE : ε → Option ε) (cbC : Option ε) :
    OpStrategy α α ε (List (Call α ε)) where
  init := []
  onNext a log := match cb a with
    | none => { st := log ++ [.next a], out := [.next a] }
    | some e => { st := log ++ [.next a], throws := some e }
  onError e log := match cbE e with
    | none => { st := log ++ [.error e], out := [.error e] }
    | some x => { st := log ++ [.error e], throws := some x }
  onCompleted log := match cbC with
    | none => { st := log ++ [.completed], out := [.completed] }
    | some x => { st := log ++ [.completed], throws := some x }

/-- A chain of operators (observables/details/chain_strategy.hpp 20-70): any of those of
`Verif.Core.Model`, and `tap` with functions that may throw. -/
inductive MPipe (ε : Type) : Type → Type → Type 1 where
  | nil {α} : MPipe ε α α
  | op {α β γ} (o : Op ε α β) (p : MPipe ε β γ) : MPipe ε α γ
  | tap {α γ} (cb : α → Option ε) (cbE : ε → Option ε) (cbC : Option ε) (p : MPipe ε α γ) : MPipe ε α γ

/-- Specification: the same chain with functions of `tap` that throw for values only
(no counterpart in /repo; a chain of `Verif.Core.Model`). -/
def MPipe.calm : MPipe ε α γ → Pipe ε α γ
  | .nil => .nil
  | .op o p => .cons o p.calm
  | .tap cb _ _ p => .cons (.tap cb) p.calm

/-- The observer handed to the source (chain_strategy.hpp 45-56). -/
def MPipe.lift {τ : Type} : (p : MPipe ε α γ) → MObs γ ε τ → MObs α ε (p.calm.State τ)
  | .nil, M => M
  | .op o p, M => o.strategy.mLift (p.lift M)
  | .tap cb cbE cbC p, M => (Ops.tap3 cb cbE cbC).mLift (p.lift M)

/-- The chain after all operators were lifted: constructors talk to the observer below them
(chain_strategy.hpp 45-56, scan.hpp 32-33). -/
def MPipe.start {τ : Type} : (p : MPipe ε α γ) → MObs γ ε τ → τ → p.calm.State τ × Bool
  | .nil, _, t => (t, false)
  | .op o p, M, t =>
    match p.start M t with
    | (s, true) => ((o.strategy.init, s), true)
    | (s, false) =>
      let r := (p.lift M).run s o.strategy.initOut
      ((o.strategy.init, r.1), r.2)
  | .tap _ _ _ p, M, t =>
    let r := p.start M t
    (([], r.1), r.2)

/-- A whole subscription: the chain is put together and the source makes its calls
(chain_strategy.hpp 45-56, observers/observer.hpp 84-144). -/
def MPipe.subscription [DecidableEq γ] [DecidableEq ε] (cap : Option Nat) (overflow : ε)
    (react : List (Call γ ε) → Reaction ε) (p : MPipe ε α γ) (cs : List (Call α ε)) :
    p.calm.State (UserSt γ ε) × Bool :=
  match p.start (mUser cap overflow react) {} with
  | (s, true) => (s, true)
  | (s, false) => (p.lift (mUser cap overflow react)).run s cs

/-- Specification: the process dies in this subscription (no counterpart in /repo). -/
def MPipe.dies [DecidableEq γ] [DecidableEq ε] (cap : Option Nat) (overflow : ε)
    (react : List (Call γ ε) → Reaction ε) (p : MPipe ε α γ) (cs : List (Call α ε)) : Prop :=
  (p.subscription cap overflow react cs).2 = true

/-- Specification: among the notifications a subscriber got there is an error or a completion upon
which its callback throws (no counterpart in /repo). -/
def ThrowsAtEnd (react : List (Call α ε) → Reaction ε) (evs : List (Call α ε)) : Prop :=
  ∃ before c after, evs = before ++ c :: after ∧ c.isTerm = true ∧
    (react (before ++ [c])).throws.isSome = true

/-- Specification: among what the functions of a `tap` were called with there is an error or a
completion upon which the function throws (no counterpart in /repo). -/
def TapThrows (cbE : ε → Option ε) (cbC : Option ε) (seen : List (Call α ε)) : Prop :=
  (∃ e, Call.error e ∈ seen ∧ (cbE e).isSome = true) ∨ (Call.completed ∈ seen ∧ cbC.isSome = true)

/-- Specification: among what the functions of the `tap`s of the chain and the subscriber were called
with there is an error or a completion upon which the function throws (no counterpart in /repo). -/
def MPipe.Fatal (react : List (Call γ ε) → Reaction ε) :
    (p : MPipe ε α γ) → p.calm.State (UserSt γ ε) → Prop
  | .nil, s => ThrowsAtEnd react (evsOf s.log)
  | .op _ p, s => p.Fatal react s.2
  | .tap _ cbE cbC p, s =>
    TapThrows cbE cbC s.1 ∨ p.Fatal react s.2

/-- Specification: no `tap` of the chain has a second or third function that throws
(no counterpart in /repo). -/
def MPipe.Quiet : MPipe ε α γ → Prop
  | .nil => True
  | .op _ p => p.Quiet
  | .tap _ cbE cbC p => (∀ e, cbE e = none) ∧ cbC = none ∧ p.Quiet

end Rpp
