import Verif.Core.UserProofs

/-!
# on_error_resume_next and retry_when, call by call

`Verif.Resub` and `Verif.Net` take an observable that has failed to be silent from then on.  Nothing in the contract of observables
makes it so: it is the observer that has to be deaf after a terminal call (observers/observer.hpp 84-145 asks `is_disposed` before
each callback).  Here the observers of the two operators are modelled with what their `is_disposed` really answers, and the failed
observable may go on calling: a source above a `map` whose function has thrown, the other operand of a `merge`.
-/

namespace Rpp.LetGo

variable {α ε τ : Type}

/-! ## on_error_resume_next -/

/-- `on_error_resume_next_inner_observer_strategy` (operators/on_error_resume_next.hpp 21-46). -/
def innerStrategy (down : Obs α ε τ) : Strategy α ε τ where
  onNext a t := (down.onNext a t, none)
  onError e t := down.onError e t
  onCompleted t := down.onCompleted t
  setUpstream d t := down.setUpstream d t
  isDisposed t := down.isDisposed t
  release d t := down.release d t

/-- The observer that is subscribed to the replacement: the strategy with `none_disposable_strategy`
(operators/on_error_resume_next.hpp 23, 73). -/
def innerObs (down : Obs α ε τ) : Obs α ε τ := observerImpl (innerStrategy down) noneDisp

/-- The errors the selector was called with, and the observer below, which all observers of the operator share
(operators/on_error_resume_next.hpp 60-61; the list is a ghost). -/
structure ResumeSt (ε τ : Type) where
  asked : List ε := []
  down : τ

/-- `on_error_resume_next_observer_strategy` (operators/on_error_resume_next.hpp 49-91).  `sel` is the selector: given the errors it was
called with up to now it throws, or returns an observable, represented by the calls that this one makes while it is being subscribed
to; its later calls are labels of `step`.  There is no member that remembers the error, and the upstream is not disposed of. -/
def resumeStrategy (sel : List ε → Except ε (List (Call α ε))) (down : Obs α ε τ) : Strategy α ε (ResumeSt ε τ) where
  onNext a s := ({ s with down := down.onNext a s.down }, none)
  onError e s :=
    let asked := s.asked ++ [e]
    match sel asked with
    | .ok cs => { asked, down := (innerObs down).run s.down cs }
    | .error e' => { asked, down := down.onError e' s.down }
  onCompleted s := { s with down := down.onCompleted s.down }
  setUpstream d s := { s with down := down.setUpstream d s.down }
  isDisposed s := down.isDisposed s.down
  release d s := { s with down := down.release d s.down }

/-- The observer of the operator, with `none_disposable_strategy` (operators/on_error_resume_next.hpp 52). -/
def resumeObs (sel : List ε → Except ε (List (Call α ε))) (down : Obs α ε τ) : Obs α ε (ResumeSt ε τ) :=
  observerImpl (resumeStrategy sel down) noneDisp

/-- What happens: the source `.src` calls the observer at the top of the chain; the observable that the `k`-th call of the selector has
returned calls its observer, some time after having been subscribed to. -/
inductive Lbl (α β ε : Type) where
  | src (c : Call α ε)
  | late (k : Nat) (c : Call β ε)
deriving Repr

variable {β : Type} [DecidableEq β] [DecidableEq ε]

/-- The observers of `source | p | on_error_resume_next(sel)` below `p`; the subscriber keeps its disposables in a vector
(operators/on_error_resume_next.hpp 112-113, `default_disposable_strategy_selector`). -/
def obs (ov : ε) (react : List (Call β ε) → Reaction ε) (sel : List ε → Except ε (List (Call β ε))) : Obs β ε (ResumeSt ε (UserSt β ε)) :=
  resumeObs sel (userObs none ov react)

/-- One call.  A replacement calls only after the selector has returned it (operators/on_error_resume_next.hpp 63-84). -/
def step (ov : ε) (react : List (Call β ε) → Reaction ε) (sel : List ε → Except ε (List (Call β ε))) (p : Pipe ε α β)
    (s : p.State (ResumeSt ε (UserSt β ε))) : Lbl α β ε → p.State (ResumeSt ε (UserSt β ε))
  | .src c => (p.lift (obs ov react sel)).call c s
  | .late k c =>
    if k < (p.final s).asked.length ∧ (sel ((p.final s).asked.take (k + 1))).isOk then
      p.mapFinal (fun t => { t with down := (innerObs (userObs none ov react)).call c t.down }) s
    else s

/-- A whole history, from the subscription on (operators/on_error_resume_next.hpp 49-91). -/
def exec (ov : ε) (react : List (Call β ε) → Reaction ε) (sel : List ε → Except ε (List (Call β ε))) (p : Pipe ε α β)
    (ls : List (Lbl α β ε)) : p.State (ResumeSt ε (UserSt β ε)) :=
  ls.foldl (step ov react sel p) (p.start (obs ov react sel) { down := {} })

/-- What the subscriber was told. -/
def heard (p : Pipe ε α β) (s : p.State (ResumeSt ε (UserSt β ε))) : List (Call β ε) := evsOf (p.final s).down.log

/-- The errors the selector was called with. -/
def asked (p : Pipe ε α β) (s : p.State (ResumeSt ε (UserSt β ε))) : List ε := (p.final s).asked

/-! ## merge above it -/

/-- `merge_state` of `a | merge_with(b)` and the flags of the two observers' own disposable strategies
(operators/merge.hpp 25-47; observers/details/disposable_strategy.hpp 86-91).  Disposables are left out. -/
structure MergeSt (τ : Type) where
  needed : Nat := 2
  ended : Bool → Bool := fun _ => false
  down : τ

/-- A call of operand `i` (`merge_observer_inner_strategy` and its base, operators/merge.hpp 49-113, inside `observer_impl`,
observers/observer.hpp 84-145): an operand that has ended is not heard any more, and nobody is if the observer below is disposed
of (which disposes of `m_disposable`, operators/merge.hpp 28). -/
def mergeCall (down : Obs α ε τ) (i : Bool) (s : MergeSt τ) : Call α ε → MergeSt τ
  | .next a => if s.ended i || down.isDisposed s.down then s else { s with down := down.onNext a s.down }
  | .error e =>
    if s.ended i || down.isDisposed s.down then s
    else { s with down := down.onError e s.down, ended := fun j => s.ended j || j == i }
  | .completed =>
    if s.ended i || down.isDisposed s.down then s
    else { down := if s.needed = 1 then down.onCompleted s.down else s.down, needed := s.needed - 1, ended := fun j => s.ended j || j == i }
  | .up _ => s

/-- `a | merge_with(b) | on_error_resume_next(sel)`: the operands' calls, `true` being `b`, and those of the replacements. -/
def mergeStep (ov : ε) (react : List (Call β ε) → Reaction ε) (sel : List ε → Except ε (List (Call β ε)))
    (s : MergeSt (ResumeSt ε (UserSt β ε))) : Lbl (Bool × Call β ε) β ε → MergeSt (ResumeSt ε (UserSt β ε))
  | .src (.next (i, c)) => mergeCall (obs ov react sel) i s c
  | .src _ => s
  | .late k c =>
    if k < s.down.asked.length ∧ (sel (s.down.asked.take (k + 1))).isOk then
      { s with down := { s.down with down := (innerObs (userObs none ov react)).call c s.down.down } }
    else s

/-! ## retry_when -/

/-- What the observers of the attempts reach of `retry_when_state` (operators/retry_when.hpp 23-44): the observer below, and as a ghost
the errors the notifier function was called with. -/
structure WhenSt (α ε : Type) where
  asked : List ε := []
  user : UserSt α ε := {}

/-- `retry_when_impl_strategy` (operators/retry_when.hpp 88-126), the observer of an attempt.  `notif` is the notifier function: given the
errors so far it throws or returns an observable, whose notifications are labels.  `state->disposable` is disposed of when the
subscriber is (38), so that its `is_disposed` is the subscriber's; the disposables it holds are left out. -/
def whenStrategy (ov : ε) (react : List (Call β ε) → Reaction ε) (notif : List ε → Option ε) : Strategy β ε (WhenSt β ε) where
  onNext a s := ({ s with user := (userObs none ov react).onNext a s.user }, none)
  onError e s :=
    let asked := s.asked ++ [e]
    match notif asked with
    | none => { s with asked }
    | some e' => { s with asked, user := (userObs none ov react).onError e' s.user }
  onCompleted s := { s with user := (userObs none ov react).onCompleted s.user }
  setUpstream _ s := s
  isDisposed s := (userObs none ov react).isDisposed s.user
  release _ s := s

/-- The observer of an attempt, with `none_disposable_strategy` (operators/retry_when.hpp 92, 137). -/
def whenObs (ov : ε) (react : List (Call β ε) → Reaction ε) (notif : List ε → Option ε) : Obs β ε (WhenSt β ε) :=
  observerImpl (whenStrategy ov react notif) noneDisp

/-- The operator: what is shared, `is_inside_drain` (operators/retry_when.hpp 37), what the notifiers have said (each is heard once:
`locally_disposed`, 57), and per attempt its chain of observers and whether the call of `subscribe` is still running.  `made` is a
ghost: the calls that the sources of the attempts have made. -/
structure RetrySt (p : Pipe ε α β) where
  sh : WhenSt β ε := {}
  inside : Bool := false
  notes : List (Nat × Call Unit ε) := []
  made : List (Nat × Call α ε) := []
  tries : List (p.State (WhenSt β ε) × Bool) := []

/-- A call of attempt `i`'s source; the call of `subscribe` in attempt `i` returns; notifier `k` notifies. -/
inductive WLbl (α ε : Type) where
  | src (i : Nat) (c : Call α ε)
  | ret (i : Nat)
  | note (k : Nat) (c : Call Unit ε)

/-- The head of the loop of `drain`: another attempt, unless disposed (operators/retry_when.hpp 131-137).  The chain of the new attempt is
lifted; only what it tells the observer below while being lifted is kept of the copy of the shared state. -/
def again (ov : ε) (react : List (Call β ε) → Reaction ε) (notif : List ε → Option ε) (p : Pipe ε α β) (s : RetrySt p) : RetrySt p :=
  if s.sh.user.disposed then s
  else
    let c := p.start (whenObs ov react notif) s.sh
    { s with sh := p.final c, inside := true, tries := s.tries ++ [(c, true)] }

/-- One event (operators/retry_when.hpp 58-85 for a notifier, 96-124 for an attempt, 137-140 for the return of `subscribe`). -/
def wstep (ov : ε) (react : List (Call β ε) → Reaction ε) (notif : List ε → Option ε) (p : Pipe ε α β) (s : RetrySt p) :
    WLbl α ε → RetrySt p
  | .src i c =>
    match s.tries[i]? with
    | none => s
    | some (ch, run) =>
      let ch' := (p.lift (whenObs ov react notif)).call c (p.mapFinal (fun _ => s.sh) ch)
      { s with sh := p.final ch', made := s.made ++ [(i, c)], tries := s.tries.set i (ch', run) }
  | .ret i =>
    match s.tries[i]? with
    | some (ch, true) =>
      let s1 : RetrySt p := { s with inside := false, tries := s.tries.set i (ch, false) }
      if s.inside then s1 else again ov react notif p s1
    | _ => s
  | .note k c =>
    if k < s.sh.asked.length ∧ notif (s.sh.asked.take (k + 1)) = none ∧ k ∉ s.notes.map (·.1) ∧ s.sh.user.disposed = false then
      let s1 : RetrySt p := { s with notes := s.notes ++ [(k, c)] }
      match c with
      | .next _ => if s.inside then { s1 with inside := false } else again ov react notif p s1
      | .error e => { s1 with sh := { s.sh with user := (userObs none ov react).onError e s.sh.user } }
      | .completed => { s1 with sh := { s.sh with user := (userObs none ov react).onCompleted s.sh.user } }
      | .up _ => s
    else s

/-- A whole history of `source | p | retry_when(notif)` (operators/retry_when.hpp 128-168). -/
def wexec (ov : ε) (react : List (Call β ε) → Reaction ε) (notif : List ε → Option ε) (p : Pipe ε α β) (ls : List (WLbl α ε)) : RetrySt p :=
  ls.foldl (wstep ov react notif p) (again ov react notif p {})

end Rpp.LetGo
