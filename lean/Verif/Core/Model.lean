/-!
# Observers and single-source operators: the model

Everything in this file is a transcription of code in `/repo/src/rpp/rpp`; the file and lines are
quoted next to each definition.  Specifications live in `Verif.Core.Spec`.
-/

namespace Rpp

/-- A call a source (or an upstream operator) makes on an observer: `on_next`, `on_error`,
`on_completed` (observers/observer.hpp 84-144) or `set_upstream` (observers/observer.hpp 49-66).
Disposables are identified by a number; an `std::exception_ptr` is a value of type `ε`. -/
inductive Call (α ε : Type) where
  | next (a : α)
  | error (e : ε)
  | completed
  | up (d : Nat)
deriving DecidableEq, Repr

/-- The interface of an observer object with internal state `σ`
(observers/observer.hpp 84-144, `observer_impl`).  `release d` is `disposable_wrapper::dispose` of
the disposable `d`; it is an effect on the world and therefore passes through to the end of the
chain where the world is kept. -/
structure Obs (α ε σ : Type) where
  onNext : α → σ → σ
  onError : ε → σ → σ
  onCompleted : σ → σ
  setUpstream : Nat → σ → σ
  isDisposed : σ → Bool
  release : Nat → σ → σ

/-- Perform one call on an observer. (observers/observer.hpp 84-145) -/
def Obs.call (O : Obs α ε σ) : Call α ε → σ → σ
  | .next a => O.onNext a
  | .error e => O.onError e
  | .completed => O.onCompleted
  | .up d => O.setUpstream d

/-- Perform calls one after another (SERIAL use, as required by observers/observer.hpp 160). -/
def Obs.run (O : Obs α ε σ) (s : σ) (cs : List (Call α ε)) : σ :=
  cs.foldl (fun s c => O.call c s) s

/-- The `Strategy` parameter of `observer_impl` (observers/observer.hpp 27-39).  `onNext` may throw. -/
structure Strategy (α ε σ : Type) where
  onNext : α → σ → σ × Option ε
  onError : ε → σ → σ
  onCompleted : σ → σ
  setUpstream : Nat → σ → σ
  isDisposed : σ → Bool
  release : Nat → σ → σ

/-- The `DisposablesStrategy` parameter of `observer_impl`
(observers/details/disposable_strategy.hpp 68-105).  `add` may throw
(disposables/details/container.hpp 101-113, 162-172). -/
structure DispStrategy (ε σ : Type) where
  add : Nat → σ → σ × Option ε
  isDisposed : σ → Bool
  dispose : σ → σ

/-- `none_disposable_strategy` (observers/details/disposable_strategy.hpp 98-105). -/
def noneDisp : DispStrategy ε σ where
  add _ s := (s, none)
  isDisposed _ := false
  dispose s := s

/-- `observer_impl::on_error` (observers/observer.hpp 120-129): the strategy is called first, the
`finally_action` disposes afterwards. -/
def implOnError (S : Strategy α ε σ) (D : DispStrategy ε σ) (e : ε) (s : σ) : σ :=
  if D.isDisposed s || S.isDisposed s then s else D.dispose (S.onError e s)

/-- `observer_impl` (observers/observer.hpp 27-149): `set_upstream` 49-66, `is_disposed` 74-77,
`on_next` 84-113, `on_error` 120-129, `on_completed` 135-144.
Simplification: `set_upstream` of the strategies modelled here does not throw. -/
def observerImpl (S : Strategy α ε σ) (D : DispStrategy ε σ) : Obs α ε σ where
  isDisposed s := D.isDisposed s || S.isDisposed s
  onNext a s :=
    if D.isDisposed s || S.isDisposed s then s
    else match S.onNext a s with
      | (s', none) => s'
      | (s', some e) => implOnError S D e s'
  onError := implOnError S D
  onCompleted s :=
    if D.isDisposed s || S.isDisposed s then s else D.dispose (S.onCompleted s)
  setUpstream d s :=
    if D.isDisposed s || S.isDisposed s then S.release d s
    else match D.add d s with
      | (s', none) => S.setUpstream d s'
      | (s', some e) => implOnError S D e s'
  release := S.release

/-! ## The subscriber at the end of a chain -/

/-- What the outside world can see of one subscription, in order: notifications received by the
user's callbacks, and disposables whose dispose action ran. -/
inductive Out (α ε : Type) where
  | ev (c : Call α ε)
  | released (d : Nat)
deriving DecidableEq, Repr

/-- What the user's callback does: dispose the subscription and/or (for `on_next`) throw. (the user's callbacks called from observers/observer.hpp 89, 127, 142) -/
structure Reaction (ε : Type) where
  dispose : Bool := false
  throws : Option ε := none

/-- State of the final observer: `m_is_disposed`, `m_upstreams`
(observers/details/disposable_strategy.hpp 93-95) and the log of observable effects. -/
structure UserSt (α ε : Type) where
  log : List (Out α ε) := []
  ups : List Nat := []
  disposed : Bool := false

/-- `disposable_wrapper::dispose` on disposable `d`: the action of a `base_disposable` runs only on
the first call (disposables/details/base_disposable.hpp 36-41, `exchange(true) == false`). -/
def UserSt.release [DecidableEq α] [DecidableEq ε] (d : Nat) (s : UserSt α ε) : UserSt α ε :=
  if Out.released d ∈ s.log then s else { s with log := s.log ++ [.released d] }

/-- `local_disposable_strategy::dispose` (observers/details/disposable_strategy.hpp 86-91): set the
flag, then dispose every stored upstream in order (container.hpp 43-49, 132-138).  Disposing through
the user's `composite_disposable` (composite_disposable.hpp 43-61) has the same effect. -/
def UserSt.dispose [DecidableEq α] [DecidableEq ε] (s : UserSt α ε) : UserSt α ε :=
  s.ups.foldl (fun s d => s.release d) { s with disposed := true }

/-- The notifications in a log. -/
def evsOf : List (Out α ε) → List (Call α ε)
  | [] => []
  | .ev c :: l => c :: evsOf l
  | .released _ :: l => evsOf l

/-- `local_disposable_strategy` (observers/details/disposable_strategy.hpp 68-96) over a container of
capacity `cap` (`none`: the dynamic container, container.hpp 20-58; `some n`: the static container
101-113 which throws `overflow` when full; `some 0`: also `none_disposables_container` 162-172). -/
def localDisp [DecidableEq α] [DecidableEq ε] (cap : Option Nat) (overflow : ε) :
    DispStrategy ε (UserSt α ε) where
  add d s :=
    match cap with
    | none => ({ s with ups := s.ups ++ [d] }, none)
    | some n => if s.ups.length ≥ n then (s, some overflow) else ({ s with ups := s.ups ++ [d] }, none)
  isDisposed s := s.disposed
  dispose s := s.dispose

/-- The user's callbacks (`lambda_strategy`, observers/lambda_observer.hpp 19-40): record the event;
the user code may then dispose the subscription, and `on_next` may throw.  `react` gets everything
the subscriber has seen so far, so the callbacks may be stateful. -/
def lambdaStrategy [DecidableEq α] [DecidableEq ε] (react : List (Call α ε) → Reaction ε) :
    Strategy α ε (UserSt α ε) where
  onNext a s :=
    let s1 := { s with log := s.log ++ [.ev (.next a)] }
    let r := react (evsOf s1.log)
    (if r.dispose then s1.dispose else s1, r.throws)
  onError e s :=
    let s1 := { s with log := s.log ++ [.ev (.error e)] }
    if (react (evsOf s1.log)).dispose then s1.dispose else s1
  onCompleted s :=
    let s1 := { s with log := s.log ++ [.ev .completed] }
    if (react (evsOf s1.log)).dispose then s1.dispose else s1
  setUpstream _ s := s
  isDisposed _ := false
  release d s := s.release d

/-- The observer object of a subscriber. (observers/observer.hpp 25-145, observers/lambda_observer.hpp) -/
def userObs [DecidableEq α] [DecidableEq ε] (cap : Option Nat) (overflow : ε)
    (react : List (Call α ε) → Reaction ε) : Obs α ε (UserSt α ε) :=
  observerImpl (lambdaStrategy react) (localDisp cap overflow)

/-! ## Operators -/

/-- Result of running one callback of an operator's strategy: the calls it made on the downstream
observer, in order, its new state, and the exception it threw (after making those calls). (observers/observer.hpp 84-145) -/
structure Step (σ β ε : Type) where
  st : σ
  out : List (Call β ε) := []
  throws : Option ε := none

/-- An operator's observer strategy.  Its callbacks act on the downstream observer only through calls
(all strategies modelled with this type read `observer.is_disposed()` only in `is_disposed`, forward
`set_upstream`, and use `none_disposable_strategy`).  `initOut` are the calls made while the observer
is being lifted. (the observer strategies of operators/*.hpp, cited one by one below) -/
structure OpStrategy (α β ε σ : Type) where
  init : σ
  initOut : List (Call β ε) := []
  onNext : α → σ → Step σ β ε
  onError : ε → σ → Step σ β ε := fun e s => { st := s, out := [.error e] }
  onCompleted : σ → Step σ β ε := fun s => { st := s, out := [.completed] }

/-- The strategy object holding the downstream observer, e.g. map.hpp 22-43. -/
def OpStrategy.strategy (P : OpStrategy α β ε σ) (down : Obs β ε τ) : Strategy α ε (σ × τ) where
  onNext a s :=
    let r := P.onNext a s.1
    ((r.st, down.run s.2 r.out), r.throws)
  onError e s := let r := P.onError e s.1; (r.st, down.run s.2 r.out)
  onCompleted s := let r := P.onCompleted s.1; (r.st, down.run s.2 r.out)
  setUpstream d s := (s.1, down.setUpstream d s.2)
  isDisposed s := down.isDisposed s.2
  release d s := (s.1, down.release d s.2)

/-- `lift` (operators/details/strategy.hpp 36-49): an observer made of the operator's strategy and
`none_disposable_strategy`. -/
def OpStrategy.lift (P : OpStrategy α β ε σ) (down : Obs β ε τ) : Obs α ε (σ × τ) :=
  observerImpl (P.strategy down) noneDisp

/-- State right after lifting: the constructor has already talked to the downstream observer. (operators/details/strategy.hpp (`operator_lift`) with the strategies’ constructors) -/
def OpStrategy.start (P : OpStrategy α β ε σ) (down : Obs β ε τ) (t : τ) : σ × τ :=
  (P.init, down.run t P.initOut)

namespace Ops

/-- map.hpp 30-34. -/
def map (f : α → Except ε β) : OpStrategy α β ε Unit where
  init := ()
  onNext a s := match f a with
    | .ok b => { st := s, out := [.next b] }
    | .error e => { st := s, throws := some e }

/-- filter.hpp 30-35. -/
def filter (p : α → Except ε Bool) : OpStrategy α α ε Unit where
  init := ()
  onNext a s := match p a with
    | .ok true => { st := s, out := [.next a] }
    | .ok false => { st := s }
    | .error e => { st := s, throws := some e }

/-- take.hpp 30-41. -/
def take (n : Nat) : OpStrategy α α ε Nat where
  init := n
  onNext a count :=
    let (count', o1) := if count > 0 then (count - 1, [Call.next a]) else (count, [])
    let o2 := if count' = 0 then [Call.completed] else []
    { st := count', out := o1 ++ o2 }

/-- skip.hpp 30-37. -/
def skip (n : Nat) : OpStrategy α α ε Nat where
  init := n
  onNext a count :=
    if count = 0 then { st := count, out := [.next a] } else { st := count - 1 }

/-- take_while.hpp 28-35. -/
def takeWhile (p : α → Except ε Bool) : OpStrategy α α ε Unit where
  init := ()
  onNext a s := match p a with
    | .ok true => { st := s, out := [.next a] }
    | .ok false => { st := s, out := [.completed] }
    | .error e => { st := s, throws := some e }

/-- State of take_last: vector contents, its capacity, `m_current_end` (take_last.hpp 78-80). -/
structure TakeLastSt (α : Type) where
  data : List α
  cap : Nat
  cur : Nat

/-- `get_next` (take_last.hpp 71-74). -/
def takeLastNext (size pos : Nat) : Nat := if pos + 1 ≥ size then 0 else pos + 1

/-- The loop of take_last.hpp 57-61: `k` remaining iterations. -/
def takeLastDrain (data : List α) : (cur k : Nat) → List (Call α ε)
  | _, 0 => []
  | cur, k + 1 => (match data[cur]? with
      | some a => [Call.next a]
      | none => []) ++ takeLastDrain data (takeLastNext data.length cur) k

/-- take_last.hpp 28-64.  `std::vector::reserve(n)` on a fresh vector is taken to give capacity exactly
`n` (true for all major implementations, not guaranteed by the standard). -/
def takeLast (n : Nat) : OpStrategy α α ε (TakeLastSt α) where
  init := { data := [], cap := n, cur := 0 }
  onNext a s :=
    if s.cap = 0 then { st := s }
    else if s.data.length < s.cap then { st := { s with data := s.data ++ [a] } }
    else { st := { s with data := s.data.set s.cur a, cur := takeLastNext s.data.length s.cur } }
  onCompleted s :=
    { st := s, out := takeLastDrain s.data s.cur s.data.length ++ [.completed] }

/-- first.hpp 27-37. -/
def first (notEnough : ε) : OpStrategy α α ε Unit where
  init := ()
  onNext a s := { st := s, out := [.next a, .completed] }
  onCompleted s := { st := s, out := [.error notEnough] }

/-- last.hpp 30-45. -/
def last (notEnough : ε) : OpStrategy α α ε (Option α) where
  init := none
  onNext a _ := { st := some a }
  onCompleted s := match s with
    | some a => { st := s, out := [.next a, .completed] }
    | none => { st := s, out := [.error notEnough] }

/-- `size_t` addition. (size_t arithmetic in operators/take.hpp, skip.hpp, element_at.hpp) -/
def addSize (a b : Nat) : Nat := (a + b) % 2 ^ 64

/-- element_at.hpp 31-58 with the factory `element_at(index)` 101-104 (`index + 1` in `size_t`). -/
def elementAt (index : Nat) (outOfRange : ε) : OpStrategy α α ε Nat where
  init := addSize index 1
  onNext a count :=
    let count' := if count ≠ 0 then count - 1 else count
    if count' = 0 then { st := count', out := [.next a, .completed] } else { st := count' }
  onCompleted count :=
    if count ≠ 0 then { st := count, out := [.error outOfRange] }
    else { st := count, out := [.completed] }

/-- distinct.hpp 31-39; the `unordered_set` is the list of values inserted so far. -/
def distinct [BEq α] : OpStrategy α α ε (List α) where
  init := []
  onNext a seen := if seen.contains a then { st := seen } else { st := a :: seen, out := [.next a] }

/-- distinct_until_changed.hpp 31-39. -/
def distinctUntilChanged (eq : α → α → Except ε Bool) : OpStrategy α α ε (Option α) where
  init := none
  onNext a last := match last with
    | none => { st := some a, out := [.next a] }
    | some l => match eq l a with
      | .ok true => { st := last }
      | .ok false => { st := some a, out := [.next a] }
      | .error e => { st := last, throws := some e }

/-- scan.hpp 23-49: the constructor emits the seed (32-33). If `fn` throws, `seed` keeps its value. -/
def scan (seed : β) (f : β → α → Except ε β) : OpStrategy α β ε β where
  init := seed
  initOut := [.next seed]
  onNext a s := match f s a with
    | .ok b => { st := b, out := [.next b] }
    | .error e => { st := s, throws := some e }

/-- scan.hpp 71-100. -/
def scanNoSeed (f : α → α → Except ε α) : OpStrategy α α ε (Option α) where
  init := none
  onNext a s := match s with
    | none => { st := some a, out := [.next a] }
    | some b => match f b a with
      | .ok c => { st := some c, out := [.next c] }
      | .error e => { st := s, throws := some e }

/-- reduce.hpp 20-47. -/
def reduce (seed : β) (f : β → α → Except ε β) : OpStrategy α β ε β where
  init := seed
  onNext a s := match f s a with
    | .ok b => { st := b }
    | .error e => { st := s, throws := some e }
  onCompleted s := { st := s, out := [.next s, .completed] }

/-- reduce.hpp 69-100. -/
def reduceNoSeed (f : α → α → Except ε α) : OpStrategy α α ε (Option α) where
  init := none
  onNext a s := match s with
    | none => { st := some a }
    | some b => match f b a with
      | .ok c => { st := some c }
      | .error e => { st := s, throws := some e }
  onCompleted s := { st := s, out := (match s with | some b => [.next b] | none => []) ++ [.completed] }

/-- buffer.hpp 32-59: the state is the bucket; its capacity is `max 1 n` throughout (same remark on
`reserve` as for take_last). -/
def buffer (n : Nat) : OpStrategy α (List α) ε (List α) where
  init := []
  onNext a bucket :=
    let b := bucket ++ [a]
    if b.length = max 1 n then { st := [], out := [.next b] } else { st := b }
  onCompleted bucket :=
    { st := bucket, out := (if bucket.isEmpty then [] else [.next bucket]) ++ [.completed] }

/-- tap.hpp 34-51: the state is the log of what the tap callbacks saw; the `on_next` callback may
throw (then the value is not forwarded). Throwing `on_error`/`on_completed` callbacks end the process. -/
def tap (cb : α → Option ε) : OpStrategy α α ε (List (Call α ε)) where
  init := []
  onNext a log := match cb a with
    | none => { st := log ++ [.next a], out := [.next a] }
    | some e => { st := log ++ [.next a], throws := some e }
  onError e log := { st := log ++ [.error e], out := [.error e] }
  onCompleted log := { st := log ++ [.completed], out := [.completed] }

/-- finally.hpp 34-39: `lift` hands the callback (disposable `d`) to the observer and returns the very
same observer; modelled as a pass-through stage. -/
def finallyOp (d : Nat) : OpStrategy α α ε Unit where
  init := ()
  initOut := [.up d]
  onNext a s := { st := s, out := [.next a] }

/-- throttle.hpp 33-42; a value is paired with the clock reading `now()` made for it. -/
def throttle (duration : Int) : OpStrategy (Int × α) α ε (Option Int) where
  init := none
  onNext ta last :=
    match last with
    | none => { st := some ta.1, out := [.next ta.2] }
    | some l => if ta.1 ≥ l + duration then { st := some ta.1, out := [.next ta.2] } else { st := last }

end Ops

/-! ## Pipelines -/

/-- The single-source operators, as syntax. (the operators cited at their strategies) -/
inductive Op (ε : Type) : Type → Type → Type 1 where
  | map {α β} (f : α → Except ε β) : Op ε α β
  | filter {α} (p : α → Except ε Bool) : Op ε α α
  | take {α} (n : Nat) : Op ε α α
  | skip {α} (n : Nat) : Op ε α α
  | takeWhile {α} (p : α → Except ε Bool) : Op ε α α
  | takeLast {α} (n : Nat) : Op ε α α
  | first {α} (notEnough : ε) : Op ε α α
  | last {α} (notEnough : ε) : Op ε α α
  | elementAt {α} (i : Nat) (outOfRange : ε) : Op ε α α
  | distinct {α} [BEq α] : Op ε α α
  | distinctUntilChanged {α} (eq : α → α → Except ε Bool) : Op ε α α
  | scan {α β} (seed : β) (f : β → α → Except ε β) : Op ε α β
  | scanNoSeed {α} (f : α → α → Except ε α) : Op ε α α
  | reduce {α β} (seed : β) (f : β → α → Except ε β) : Op ε α β
  | reduceNoSeed {α} (f : α → α → Except ε α) : Op ε α α
  | buffer {α} (n : Nat) : Op ε α (List α)
  | tap {α} (cb : α → Option ε) : Op ε α α
  | finallyOp {α} (d : Nat) : Op ε α α
  | throttle {α} (duration : Int) : Op ε (Int × α) α

/-- State type of each operator's strategy. (the data members of the strategies) -/
def Op.State : Op ε α β → Type
  | .map _ | .filter _ | .takeWhile _ | .first _ | .finallyOp _ => Unit
  | .take _ | .skip _ | .elementAt _ _ => Nat
  | @Op.takeLast _ α _ => Ops.TakeLastSt α
  | @Op.last _ α _ | @Op.distinctUntilChanged _ α _ | @Op.scanNoSeed _ α _ | @Op.reduceNoSeed _ α _ => Option α
  | @Op.distinct _ α _ | @Op.buffer _ α _ => List α
  | @Op.scan _ _ β _ _ | @Op.reduce _ _ β _ _ => β
  | @Op.tap ε α _ => List (Call α ε)
  | .throttle _ => Option Int

/-- Strategy of each operator. (the operators cited at their strategies) -/
def Op.strategy : (o : Op ε α β) → OpStrategy α β ε o.State
  | .map f => Ops.map f
  | .filter p => Ops.filter p
  | .take n => Ops.take n
  | .skip n => Ops.skip n
  | .takeWhile p => Ops.takeWhile p
  | .takeLast n => Ops.takeLast n
  | .first e => Ops.first e
  | .last e => Ops.last e
  | .elementAt i e => Ops.elementAt i e
  | @Op.distinct _ _ inst => @Ops.distinct _ _ inst
  | .distinctUntilChanged eq => Ops.distinctUntilChanged eq
  | .scan s f => Ops.scan s f
  | .scanNoSeed f => Ops.scanNoSeed f
  | .reduce s f => Ops.reduce s f
  | .reduceNoSeed f => Ops.reduceNoSeed f
  | .buffer n => Ops.buffer n
  | .tap cb => Ops.tap cb
  | .finallyOp d => Ops.finallyOp d
  | .throttle d => Ops.throttle d

/-- `source | op1 | ... | opN`: the operators in source-to-subscriber order
(observables/details/chain_strategy.hpp 20-70). -/
inductive Pipe (ε : Type) : Type → Type → Type 1 where
  | nil {α} : Pipe ε α α
  | cons {α β γ} (o : Op ε α β) (p : Pipe ε β γ) : Pipe ε α γ

/-- State of a whole chain of observers ending in an observer with state `τ`. (observables/details/chain_strategy.hpp 20-60) -/
def Pipe.State (τ : Type) : Pipe ε α γ → Type
  | .nil => τ
  | .cons o p => o.State × p.State τ

/-- The observer handed to the source: `chain::subscribe` (chain_strategy.hpp 45-56) lifts the operator
next to the subscriber first and hands the result to the rest of the chain. -/
def Pipe.lift {τ : Type} : (p : Pipe ε α γ) → Obs γ ε τ → Obs α ε (p.State τ)
  | .nil, O => O
  | .cons o p, O => o.strategy.lift (p.lift O)

/-- The chain's state after all operators were lifted. (observables/details/chain_strategy.hpp 20-60) -/
def Pipe.start {τ : Type} : (p : Pipe ε α γ) → Obs γ ε τ → τ → p.State τ
  | .nil, _, t => t
  | .cons o p, O, t => o.strategy.start (p.lift O) (p.start O t)

/-- The final observer's state inside the chain's state. -/
def Pipe.final {τ : Type} : (p : Pipe ε α γ) → p.State τ → τ
  | .nil, s => s
  | .cons _ p, s => p.final s.2

/-- Act on the final observer from outside the chain (used for the user's `dispose()`). -/
def Pipe.mapFinal {τ : Type} (f : τ → τ) : (p : Pipe ε α γ) → p.State τ → p.State τ
  | .nil, s => f s
  | .cons _ p, s => (s.1, p.mapFinal f s.2)

/-- What can happen to a subscription: a call from the source, or the user disposing it
(through the disposable of observables/observable.hpp 110-115, composite_disposable.hpp 43-61). -/
inductive Act (α ε : Type) where
  | call (c : Call α ε)
  | dispose
deriving DecidableEq, Repr

/-- A whole history of a subscription without operators. -/
def userRun [DecidableEq α] [DecidableEq ε] (cap : Option Nat) (overflow : ε)
    (react : List (Call α ε) → Reaction ε) (s : UserSt α ε) (acts : List (Act α ε)) : UserSt α ε :=
  acts.foldl (fun s a => match a with
    | .call c => (userObs cap overflow react).call c s
    | .dispose => s.dispose) s

end Rpp
