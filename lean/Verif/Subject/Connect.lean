/-!
# connect()

Models observables/connectable_observable.hpp `connect` (100-115) with `publish`/`multicast` (operators/multicast.hpp 24-52), called by
hand, any number of times, from any threads, with disposables of the caller's choice.  Calls of `connect` are numbered; each step below
is one critical section or one call into the source.  The source is arbitrary: having been subscribed by call `c` it may at any time
attach disposables and emit, from any thread, one emission after another.

Simplifications: `set_upstream` (observer.hpp 49-66) is one step (its races with disposal are C49-C50); the moment the subject has
taken its observers out (subject_state.hpp 133-151) and the moment it is disposed are one.  What the subject does with values is C42-C47;
`ref_count()` is C48.
-/

namespace Rpp.Connect

/-- Events of the log; no counterpart in /repo. -/
inductive Ev where
  /-- call `c` found no live connection and made `w` (`none`: an empty disposable was given) the connection -/
  | opened (c : Nat) (w : Option Nat)
  /-- call `c` returned the disposable of the live connection -/
  | joined (c w : Nat)
  /-- call `c` returned an empty disposable -/
  | refused (c : Nat)
  /-- the source is subscribed for call `c`, with disposable `w` -/
  | subscribed (c w : Nat)
  /-- the source subscribed by `c` attached the disposable `d` to its observer -/
  | took (c d : Nat)
  /-- disposable `d` of a source is disposed -/
  | freed (d : Nat)
  /-- an emission of the source subscribed by `c` reaches the subject / is through -/
  | began (c : Nat)
  | ended (c : Nat)
  | down (w : Nat)
  /-- the subject has ended -/
  | closed
deriving DecidableEq, Repr

/-- Where a call is inside observables/connectable_observable.hpp, subjects/details/subject_state.hpp 133-157. -/
inductive Pc where
  | idle
  /-- before line 113 -/
  | sub (w : Option Nat)
  | fin
deriving DecidableEq, Repr

/-- State: the members of the objects of observables/connectable_observable.hpp, subjects/details/subject_state.hpp 133-157, what the running calls are doing, and the log. -/
structure St where
  /-- `m_state->disposable` -/
  cur : Option Nat := none
  /-- the subject's disposable is disposed -/
  closed : Bool := false
  /-- which of the callers' disposables are disposed -/
  down : List Nat := []
  calls : Nat → Pc := fun _ => .idle
  /-- the disposable with which call `c` subscribed the source -/
  src : Nat → Option Nat := fun _ => none
  /-- the children of disposable `w` -/
  kids : Nat → List Nat := fun _ => []
  /-- the children of the subject (`subject_state` is a composite_disposable) -/
  keeps : List Nat := []
  /-- emissions under way: `some true` for on_error/on_completed -/
  flight : Nat → Option Bool := fun _ => none
  log : List Ev := []

/-- Log an event; no counterpart in /repo. -/
def St.say (s : St) (e : Ev) : St := { s with log := s.log ++ [e] }

/-- Replace one component of the state; no counterpart in /repo. -/
def set {β : Type} (f : Nat → β) (k : Nat) (b : β) : Nat → β := fun j => if j = k then b else f j

/-- A composite disposable disposes its children, those that are not yet (composite_disposable.hpp 39-61, base_disposable.hpp 24-34). -/
def freeAll (log : List Ev) : List Nat → List Ev
  | [] => log
  | d :: ds => freeAll (if .freed d ∈ log then log else log ++ [.freed d]) ds

/-- `dispose()` of a caller's disposable: its children are disposed and forgotten; the second time nothing happens. (disposables/composite_disposable.hpp 30-166) -/
def disposeW (s : St) (w : Nat) : St :=
  if w ∈ s.down then s
  else { s with down := w :: s.down, kids := set s.kids w [], log := freeAll (s.log ++ [.down w]) (s.kids w) }

/-- The end of the subject: its children are disposed and forgotten (subject_state.hpp 133-151, 154-157). -/
def close (s : St) : St :=
  if s.closed then s
  else { s with closed := true, keeps := [], log := freeAll (s.log ++ [.closed]) s.keeps }

/-- What may happen next; the choice is arbitrary; no counterpart in /repo. -/
inductive Lbl where
  /-- `connect(wrapper)` up to the unlock; `none` is an empty wrapper -/
  | connect (c : Nat) (w : Option Nat)
  /-- line 113 -/
  | subscribe (c : Nat)
  /-- the source calls `set_upstream(d)` -/
  | upstream (c d : Nat)
  /-- the source calls `on_next` (`false`) or `on_error`/`on_completed` (`true`) -/
  | emit (c : Nat) (last : Bool)
  /-- that call is through -/
  | done (c : Nat)
  | dispose (w : Nat)
  /-- the owner of the subject ends it -/
  | shut
deriving DecidableEq, Repr

/-- `is_disposed()` of a wrapper; true of an empty one (disposable_wrapper.hpp 61-66). -/
def St.isDown (s : St) : Option Nat → Bool
  | none => true
  | some w => decide (w ∈ s.down)

/-- `is_disposed()` of the observer given to the source by call `c`: its own disposable, or the subject
(observer.hpp 74-77, publish_subject.hpp 32). -/
def St.deaf (s : St) (c : Nat) : Bool := s.isDown (s.src c) || s.closed

/-- One step; the single cases cite the lines of observables/connectable_observable.hpp, subjects/details/subject_state.hpp 133-157 they model. -/
def step (s : St) : Lbl → St
  | .connect c w =>
    match s.calls c with
    | .idle =>
      -- 102-105
      if s.closed then { s with calls := set s.calls c .fin }.say (.refused c)
      else
        match s.cur, s.isDown s.cur with
        -- 107-108
        | some x, false => { s with calls := set s.calls c .fin }.say (.joined c x)
        -- 110-111
        | _, _ => { s with cur := w, calls := set s.calls c (.sub w) }.say (.opened c w)
    | _ => s
  | .subscribe c =>
    match s.calls c with
    | .sub (some w) =>
      -- 113 and observable.hpp, subscribe(d, observer): nothing if `d` is disposed
      if w ∈ s.down then { s with calls := set s.calls c .fin }
      else { s with calls := set s.calls c .fin, src := set s.src c (some w) }.say (.subscribed c w)
    | .sub none => { s with calls := set s.calls c .fin }
    | _ => s
  | .upstream c d =>
    -- observer.hpp 49-66 and publish_subject.hpp 30
    match s.src c with
    | none => s
    | some w =>
      -- composite_disposable.hpp 67-68: what is disposed is not added
      if .freed d ∈ s.log then s
      else if s.deaf c then s.say (.freed d)
      else { s with kids := set s.kids w (d :: s.kids w), keeps := d :: s.keeps }.say (.took c d)
  | .emit c last =>
    match s.src c, s.flight c with
    | some _, none => if s.deaf c then s else { s with flight := set s.flight c (some last) }.say (.began c)
    | _, _ => s
  | .done c =>
    match s.src c, s.flight c with
    | some _, some false => { s with flight := set s.flight c none }.say (.ended c)
    | some w, some true => disposeW (close ({ s with flight := set s.flight c none }.say (.ended c))) w
    | _, _ => s
  | .dispose w => disposeW s w
  | .shut => close s

/-- The state after a sequence of steps; no counterpart in /repo. -/
def exec (ls : List Lbl) : St := ls.foldl step {}

/-! ## Specification -/

/-- Emissions reach the subject one at a time. -/
def serial : Option Nat → List Ev → Bool
  | _, [] => true
  | none, .began c :: l => serial (some c) l
  | some _, .began _ :: _ => false
  | some a, .ended b :: l => a == b && serial none l
  | none, .ended _ :: _ => false
  | c, _ :: l => serial c l

/-- Nobody disposes a connection while an emission of its source is under way. -/
def Calm : St → List Lbl → Prop
  | _, [] => True
  | s, l :: ls => (match l with
      | .dispose w => ∀ c, s.src c = some w → s.flight c = none
      | _ => True) ∧ Calm (step s l) ls

end Rpp.Connect
