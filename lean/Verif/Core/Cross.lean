import Verif.Core.Model

/-!
# Disposing a subscription from other threads (C94)

One thread runs the source and all operators of a pipeline (`Verif.Core.Model`); the subscriber's observer is an
`observer_with_disposable`, so that other threads may call `dispose()` of its `composite_disposable` at any time.  The
emitting thread is deterministic apart from what it reads of the shared state; every access to it is preceded by
`World.tick`, which lets the other threads make whatever steps the schedule `env` gives them at that point.  Quantifying
over `env` therefore means: all interleavings.
-/

namespace Rpp.Cross

/-- What happens, in order; no counterpart in /repo. `enter`, `leave`: a call of the source begins, ends; `ran`: a callback
of an operator (with the user's functions in it) is run; `start`, `finish`: the subscriber's callback; `handed d`: the
subscriber's observer is given disposable `d`; `released d`: its action runs; `asked`, `answered`: `dispose()` is called,
returns — in thread `t`, or in the subscriber's callback itself (`none`). -/
inductive Ev (α ε : Type) where
  | enter
  | leave
  | ran
  | start (c : Call α ε)
  | finish (c : Call α ε)
  | handed (d : Nat)
  | released (d : Nat)
  | asked (t : Option Nat)
  | answered (t : Option Nat)
deriving DecidableEq, Repr

/-- Where a `dispose()` call of another thread is (composite_disposable.hpp 43-61): not begun; before the exchange (49); it
was the one to change the state and disposes the children (51-54); over. -/
inductive Pc where
  | idle
  | asked
  | won
  | over
deriving DecidableEq, Repr

/-- The shared state: the members of the `composite_disposable` (composite_disposable.hpp 150-166), and the log. `clock`
counts the accesses of the emitting thread, `pcs` are the other threads. -/
structure World (α ε : Type) where
  log : List (Ev α ε) := []
  ups : List Nat := []
  disposed : Bool := false
  clock : Nat := 0
  pcs : Nat → Pc := fun _ => .idle

section

variable {α ε σ τ : Type} [DecidableEq α] [DecidableEq ε]

/-- Log an event; no counterpart in /repo. -/
def World.say (w : World α ε) (e : Ev α ε) : World α ε := { w with log := w.log ++ [e] }

/-- `disposable_wrapper::dispose` of `d`: the action runs only once (base_disposable.hpp 36-41). -/
def World.release (d : Nat) (w : World α ε) : World α ε :=
  if Ev.released d ∈ w.log then w else w.say (.released d)

/-- `m_disposables.dispose()` (composite_disposable.hpp 53, container.hpp 43-49). -/
def World.releaseAll (w : World α ε) : World α ε :=
  { w.ups.foldl (fun w d => w.release d) w with ups := [] }

/-- Replace one component of the state; no counterpart in /repo. -/
def World.goto (t : Nat) (pc : Pc) (w : World α ε) : World α ε :=
  { w with pcs := fun u => if u = t then pc else w.pcs u }

/-- The next step of the `dispose()` call of thread `t` (composite_disposable.hpp 43-61). Simplification: the children are
disposed of in one step; the state `Edit` (of `add`) is not visible, since `add` is one step, too (C49 has the details). -/
def World.advance (w : World α ε) (t : Nat) : World α ε :=
  match w.pcs t with
  | .idle => (w.goto t .asked).say (.asked (some t))
  | .asked =>
    if w.disposed then (w.goto t .over).say (.answered (some t)) else { w.goto t .won with disposed := true }
  | .won => (w.releaseAll.goto t .over).say (.answered (some t))
  | .over => w

variable (env : Nat → List Nat)

/-- An access of the emitting thread to the shared state: before it, the other threads make the steps `env` gives them; no
counterpart in /repo. -/
def World.tick (w : World α ε) : World α ε :=
  (env w.clock).foldl World.advance { w with clock := w.clock + 1 }

/-- `dispose()` in the emitting thread (composite_disposable.hpp 43-61): the exchange, then the children. -/
def World.dispose (w : World α ε) : World α ε :=
  let w := w.tick env
  if w.disposed then w else (World.tick env { w with disposed := true }).releaseAll

/-- The callbacks shown, in order; no counterpart in /repo. -/
def shown : List (Ev α ε) → List (Call α ε)
  | [] => []
  | .start c :: l => c :: shown l
  | _ :: l => shown l

/-- An observer in this setting: `Rpp.Obs` with an `is_disposed` that is an access to the shared state, and `ran` to log that
an operator's callback is run (observers/observer.hpp 45-145). -/
structure CObs (α ε σ : Type) where
  onNext : α → σ → σ
  onError : ε → σ → σ
  onCompleted : σ → σ
  setUpstream : Nat → σ → σ
  isDisposed : σ → Bool × σ
  release : Nat → σ → σ
  ran : σ → σ

/-- Perform one call on an observer (observers/observer.hpp 84-145). -/
def CObs.call (C : CObs α ε σ) : Call α ε → σ → σ
  | .next a => C.onNext a
  | .error e => C.onError e
  | .completed => C.onCompleted
  | .up d => C.setUpstream d

/-- Perform calls one after another (observers/observer.hpp 160). -/
def CObs.run (C : CObs α ε σ) (s : σ) (cs : List (Call α ε)) : σ := cs.foldl (fun s c => C.call c s) s

/-! ## The subscriber -/

variable (react : List (Call α ε) → Reaction ε)

/-- The subscriber's callback (lambda_observer.hpp 19-40): it may call `dispose()`, and throw. -/
def callback (c : Call α ε) (w : World α ε) : World α ε × Option ε :=
  let w := (w.tick env).say (.start c)
  let r := react (shown w.log)
  let w := if r.dispose then ((w.say (.asked none)).dispose env).say (.answered none) else w
  ((w.tick env).say (.finish c), r.throws)

/-- `observer_impl::on_error` and `on_completed` of the subscriber's observer (observers/observer.hpp 120-144): check,
callback, `m_disposable.dispose()`. -/
def terminal (c : Call α ε) (w : World α ε) : World α ε :=
  let w := w.tick env
  if w.disposed then w else (callback env react c w).1.dispose env

/-- The subscriber's observer: `observer_impl` (observers/observer.hpp 49-144) with a `composite_disposable_wrapper` as
disposable strategy (composite_disposable.hpp 43-97, `add` 65-97: a disposable added after `dispose()` is disposed of). -/
def user : CObs α ε (World α ε) where
  isDisposed w := let w := w.tick env; (w.disposed, w)
  onNext a w :=
    let w := w.tick env
    if w.disposed then w
    else match callback env react (.next a) w with
      | (w, none) => w
      | (w, some e) => terminal env react (.error e) w
  onError e w := terminal env react (.error e) w
  onCompleted w := terminal env react .completed w
  setUpstream d w :=
    let w := w.tick env
    if w.disposed then (w.say (.handed d)).release d
    else
      let w := w.tick env
      if w.disposed then (w.say (.handed d)).release d else { w.say (.handed d) with ups := w.ups ++ [d] }
  release d w := (w.say (.handed d)).release d
  ran w := (w.tick env).say .ran

/-! ## Operators -/

/-- An operator's observer: `observer_impl` with `none_disposable_strategy` around the operator's strategy, whose
`is_disposed` is that of the next observer (operators/details/strategy.hpp 36-49, observers/observer.hpp 49-144); as
`OpStrategy.lift` of `Verif.Core.Model`. -/
def lift (P : OpStrategy α β ε σ) (down : CObs β ε τ) : CObs α ε (σ × τ) :=
  let chk := fun (s : σ × τ) => ((down.isDisposed s.2).1, (s.1, (down.isDisposed s.2).2))
  let err := fun e (s : σ × τ) =>
    let (b, s) := chk s
    if b then s else let r := P.onError e s.1; (r.st, down.run (down.ran s.2) r.out)
  { isDisposed := chk
    onError := err
    onNext := fun a s =>
      let (b, s) := chk s
      if b then s
      else
        let r := P.onNext a s.1
        let s := (r.st, down.run (down.ran s.2) r.out)
        match r.throws with
        | none => s
        | some e => err e s
    onCompleted := fun s =>
      let (b, s) := chk s
      if b then s else let r := P.onCompleted s.1; (r.st, down.run (down.ran s.2) r.out)
    setUpstream := fun d s =>
      let (b, s) := chk s
      if b then (s.1, down.release d s.2) else (s.1, down.setUpstream d s.2)
    release := fun d s => (s.1, down.release d s.2)
    ran := fun s => (s.1, down.ran s.2) }

end



/-- The observer handed to the source, as `Pipe.lift` (observables/details/chain_strategy.hpp 45-56). -/
def liftAll {τ : Type} : (p : Pipe ε α γ) → CObs γ ε τ → CObs α ε (p.State τ)
  | .nil, C => C
  | .cons o p, C => lift o.strategy (liftAll p C)

/-- The chain's state after all operators were lifted, as `Pipe.start` (observables/details/chain_strategy.hpp 45-56). -/
def startAll {τ : Type} : (p : Pipe ε α γ) → CObs γ ε τ → τ → p.State τ
  | .nil, _, t => t
  | .cons o p, C, t => (o.strategy.init, (liftAll p C).run (startAll p C t) o.strategy.initOut)

/-- One call of the source. -/
def notify [DecidableEq γ] [DecidableEq ε] (env : Nat → List Nat) (react : List (Call γ ε) → Reaction ε) (p : Pipe ε α γ)
    (s : p.State (World γ ε)) (c : Call α ε) : p.State (World γ ε) :=
  p.mapFinal (World.say · .leave) ((liftAll p (user env react)).call c (p.mapFinal (World.say · .enter) s))

/-- A subscription: the source makes these calls, one after the other (observables/observable.hpp 57-61, 110-115). -/
def subscription [DecidableEq γ] [DecidableEq ε] (env : Nat → List Nat) (react : List (Call γ ε) → Reaction ε) (p : Pipe ε α γ)
    (cs : List (Call α ε)) : World γ ε :=
  p.final (cs.foldl (notify env react p) (startAll p (user env react) {}))

end Rpp.Cross
