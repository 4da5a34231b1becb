/-!
# Subscriptions that share a disposable or an observer (C99): model

`subscribe` has overloads which take a `composite_disposable`, and a `dynamic_observer` can be copied, so that several subscriptions can
have a disposable, or an observer, in common.  Any number of threads call the observers of these subscriptions, from callbacks too.
An observer is a list of *guards* around the user's callbacks: the disposable strategies of the nested `observer` objects, the outermost
first.
-/

namespace Rpp.Share

/-- A subscription.
- `guards`: the disposable strategies of its observer, the outermost first (observers/observer.hpp 28-149). `subscribe(d, observer)`
  (observables/observable.hpp 110-115) puts an observer with strategy `d` around the given one, which has its own strategy;
  `subscribe(d, strategy)` (128-132), `subscribe(d, on_next, …)` (269-278), `subscribe_with_disposable` (144-177, 217-226) make an
  observer with strategy `d` alone; a `dynamic_observer` adds none (observers/dynamic_observer.hpp 91-112).
- `direct`: it is made by the overload of 110-115, which does not ask the given observer whether it has ended.
- `handler`: there is an `on_error` callback; without, it is `rethrow_error_t` (utils/functors.hpp 53-56), which is noexcept. -/
structure Sub where
  guards : List Nat
  direct : Bool := false
  handler : Bool := true

/-- The subscriptions, and which guards are composite disposables (`external_disposable_strategy`, i.e. `composite_disposable_wrapper`,
observers/details/fwd.hpp 53); the others belong to one observer (`local_disposable_strategy`,
observers/details/disposable_strategy.hpp 69-96). -/
structure Cfg where
  sub : Nat → Sub
  ext : Nat → Bool

/-- What an observer can be called with (observers/observer.hpp 49-144). -/
inductive Note where
  | next | error | completed | up (d : Nat)
deriving DecidableEq, Repr

/-- A terminal notification. -/
def Note.last : Note → Bool
  | .error | .completed => true
  | _ => false

/-- Where a call of an observer, or of `dispose()`, is.
- `at gs n cl`: the observer with the guards `gs` is called with `n`; `cl`: the guards to be disposed of on return
  (`finally_action`, observers/observer.hpp 124-126, 139-141), the innermost first;
- `add g gs d`: the upstream `d` is about to be added to `g`, then passed on (observers/observer.hpp 59-60);
- `run n cl`: the user's callback runs;
- `shut cl`: the guards are disposed of one by one; `free g cl`: those `g` has. -/
inductive Ph where
  | «at» (gs : List Nat) (n : Note) (cl : List Nat)
  | add (g : Nat) (gs : List Nat) (d : Nat)
  | run (n : Note) (cl : List Nat)
  | shut (cl : List Nat)
  | free (g : Nat) (cl : List Nat)
deriving DecidableEq, Repr

/-- A running call: number, subscription and notification (`none`: a call of `dispose()`), and where it is. -/
structure Frame where
  who : Option (Nat × Nat × Note)
  ph : Ph
deriving DecidableEq, Repr

/-- What happens, in order; no counterpart in /repo. `subscribed k`: the source is subscribed with the observer of `k`; `refused k`: it is
not; `begun c k n`: call `c` begins; `told c k n`: in that call the callback is entered; `done c`: it returns; `shut g`: guard `g` is
disposed of; `released d`: upstream `d` is; `died`: `std::terminate`. -/
inductive Ev where
  | subscribed (k : Nat) | refused (k : Nat)
  | begun (c k : Nat) (n : Note) | told (c k : Nat) (n : Note) | done (c : Nat)
  | shut (g : Nat) | released (d : Nat) | died
deriving DecidableEq, Repr

/-- The guards' flags and the upstreams they have; the threads' stacks, innermost call first; the number of calls; the log. -/
structure St where
  flag : Nat → Bool := fun _ => false
  ups : Nat → List Nat := fun _ => []
  th : Nat → List Frame := fun _ => []
  calls : Nat := 0
  dead : Bool := false
  log : List Ev := []

/-- Log an event; no counterpart in /repo. -/
def St.say (s : St) (e : Ev) : St := { s with log := s.log ++ [e] }

/-- Replace the stack of thread `t`; no counterpart in /repo. -/
def St.put (s : St) (t : Nat) (fs : List Frame) : St := { s with th := fun u => if u = t then fs else s.th u }

/-- `dispose()` of an upstream: the first time counts (disposables/details/base_disposable.hpp 36-41). -/
def St.release (s : St) (d : Nat) : St := if Ev.released d ∈ s.log then s else s.say (.released d)

/-- The upstream is added to guard `g`. A composite disposable that is disposed disposes of it instead
(disposables/composite_disposable.hpp 65-96; one step here, see C49), an observer's own container does not look
(observers/details/disposable_strategy.hpp 75-78). -/
def St.attach (cfg : Cfg) (s : St) (g d : Nat) : St :=
  if cfg.ext g && s.flag g then s.release d
  else { s with ups := fun h => if h = g then s.ups h ++ [d] else s.ups h }

/-- Dispose of guard `g`, with those of `cl` to follow. disposables/composite_disposable.hpp 43-61: the first time counts;
observers/details/disposable_strategy.hpp 86-91: the upstreams are disposed of every time. -/
def St.close (cfg : Cfg) (s : St) (t : Nat) (who : Option (Nat × Nat × Note)) (g : Nat) (cl : List Nat) (rest : List Frame) : St :=
  if s.flag g then s.put t (⟨who, if cfg.ext g then .shut cl else .free g cl⟩ :: rest)
  else ({ s with flag := fun h => h == g || s.flag h }.say (.shut g)).put t (⟨who, .free g cl⟩ :: rest)

/-- The upstreams of guard `g` are disposed of (disposables/composite_disposable.hpp 53-54,
observers/details/disposable_strategy.hpp 90). -/
def St.free (s : St) (g : Nat) : St :=
  { (s.ups g).foldl St.release s with ups := fun h => if h = g then [] else s.ups h }

/-- The user's callback is called. -/
def St.tell (cfg : Cfg) (s : St) (t c k : Nat) (n0 n : Note) (cl : List Nat) (rest : List Frame) : St :=
  match n with
  | .up _ => s.put t (⟨some (c, k, n0), .shut cl⟩ :: rest)  -- observers/lambda_observer.hpp 37
  | _ =>
    let s := (s.say (.told c k n)).put t (⟨some (c, k, n0), .run n cl⟩ :: rest)
    if n == .error && !(cfg.sub k).handler then { s with dead := true }.say .died else s

/-- One step of the innermost call of thread `t`. The tests of all flags of an observer are one step: a flag is never reset, so that
the answer is the one at some moment while the tests are made. -/
def St.advance (cfg : Cfg) (s : St) (t : Nat) (who : Option (Nat × Nat × Note)) (rest : List Frame) : Ph → St
  | .at [] n cl =>
    match who with
    | some (c, k, n0) => s.tell cfg t c k n0 n cl rest
    | none => s
  | .at (g :: gs) n cl =>
    if (g :: gs).any s.flag then
      -- observers/observer.hpp 51-55, 88, 106, 122, 137
      match n with
      | .up d => (s.release d).put t (⟨who, .shut cl⟩ :: rest)
      | _ => s.put t (⟨who, .shut cl⟩ :: rest)
    else
      match n with
      | .up d => s.put t (⟨who, .add g gs d⟩ :: rest)
      | .next => s.put t (⟨who, .at gs n cl⟩ :: rest)
      | _ => s.put t (⟨who, .at gs n (g :: cl)⟩ :: rest)
  | .add g gs d => (s.attach cfg g d).put t (⟨who, .at gs (.up d) []⟩ :: rest)
  | .run _ _ => s
  | .shut [] =>
    match who with
    | some (c, _, _) => (s.put t rest).say (.done c)
    | none => s.put t rest
  | .shut (g :: cl) => s.close cfg t who g cl rest
  | .free g cl => (s.free g).put t (⟨who, .shut cl⟩ :: rest)

/-- The program's code can do something in thread `t`: nothing runs there, or a callback. -/
def St.open (s : St) (t : Nat) : Bool :=
  match s.th t with
  | [] => true
  | ⟨_, .run _ _⟩ :: _ => true
  | _ => false

/-- What may happen next; the choice is arbitrary; no counterpart in /repo. -/
inductive Lbl where
  | sub (k : Nat)
  | call (t k : Nat) (n : Note)
  | dispose (t g : Nat)
  | ret (t : Nat)
  | throw (t : Nat)
  | run (t : Nat)
deriving DecidableEq, Repr

/-- One step.
- `sub`: observables/observable.hpp 58-62, 110-115; a wrapper without a disposable is not modelled;
- `call`: a source, subscribed, calls its observer;
- `dispose`: the program calls `dispose()` of a composite disposable;
- `throw`: the running callback throws: `on_next` of the innermost observer catches and calls its own `on_error`
  (observers/observer.hpp 84-113); `on_error` and `on_completed` are noexcept. -/
def step (cfg : Cfg) (s : St) (l : Lbl) : St :=
  if s.dead then s
  else match l with
    | .sub k =>
      if Ev.subscribed k ∈ s.log ∨ Ev.refused k ∈ s.log then s
      else if ((if (cfg.sub k).direct then (cfg.sub k).guards.take 1 else (cfg.sub k).guards).any s.flag) then s.say (.refused k)
      else s.say (.subscribed k)
    | .call t k n =>
      if s.open t && decide (Ev.subscribed k ∈ s.log) then
        { s.put t (⟨some (s.calls, k, n), .at (cfg.sub k).guards n []⟩ :: s.th t) with calls := s.calls + 1 }.say (.begun s.calls k n)
      else s
    | .dispose t g =>
      if s.open t && cfg.ext g then s.put t (⟨none, .shut [g]⟩ :: s.th t) else s
    | .ret t =>
      match s.th t with
      | ⟨who, .run _ cl⟩ :: rest => s.put t (⟨who, .shut cl⟩ :: rest)
      | _ => s
    | .throw t =>
      match s.th t with
      | ⟨some (c, k, n0), .run n _⟩ :: rest =>
        if n.last then { s with dead := true }.say .died
        else match (cfg.sub k).guards.getLast? with
          | some g => s.put t (⟨some (c, k, n0), .at [g] .error []⟩ :: rest)
          | none => s
      | _ => s
    | .run t =>
      match s.th t with
      | ⟨who, ph⟩ :: rest => s.advance cfg t who rest ph
      | [] => s

/-- The state after a sequence of steps; no counterpart in /repo. -/
def exec (cfg : Cfg) (ls : List Lbl) : St := ls.foldl (step cfg) {}

/-! ## Specification -/

/-- `a` comes before `b` in the log. -/
def Before (log : List Ev) (a b : Ev) : Prop := ∃ pre mid post, log = pre ++ a :: mid ++ b :: post

/-- All calls have returned. -/
def Quiet (s : St) : Prop := ∀ t, s.th t = []

end Rpp.Share
