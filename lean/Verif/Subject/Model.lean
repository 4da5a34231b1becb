import Verif.Core.Props

/-!
# Subjects used from one thread

`subject_state` and the three subjects built on it, one operation after another.  The observers are the
subscribers of `Verif.Core.Model` (`userObs`), with arbitrary callbacks that may dispose their own
subscription or throw.
-/

namespace Rpp.Subj

variable {α ε σ : Type} [DecidableEq α] [DecidableEq ε]

/-- `subject_state::m_state` (subjects/details/subject_state.hpp 72, 190): the list of observers in
subscription order, or what ended the subject.  Simplification: the null `shared_observers` pointer and
the empty deque are both `[]`. -/
inductive Phase (ε : Type) where
  | live (obs : List Nat)
  | failed (e : ε)
  | completed
  | disposed

/-- What a subject remembers for new observers: `put now v` when a value is emitted, `get down now` when
an observer subscribes (`down`: the subject is disposed). (subjects/behavior_subject.hpp, replay_subject.hpp) -/
structure Store (α σ : Type) where
  init : σ
  put : Int → α → σ → σ
  get : Bool → Int → σ → List α × σ

/-- publish_subject.hpp 24-63 remembers nothing. -/
def publish : Store α Unit where
  init := ()
  put _ _ s := s
  get _ _ s := ([], s)

/-- behavior_subject.hpp 28-46 (`m_value`), `on_next` 55-59, subscription 84-95: the value is delivered
only while the subject is not disposed. -/
def behavior (v : α) : Store α α where
  init := v
  put _ v _ := v
  get down _ s := (if down then [] else [s], s)

/-- The loop of `deduce_timepoint` (replay_subject.hpp 71-73). -/
def prune (w now : Int) : List (Int × α) → List (Int × α)
  | [] => []
  | p :: l => if now - p.1 > w then prune w now l else p :: l

/-- The loop of `add_value` (replay_subject.hpp 39-40): pop from the front while `size() >= limit`. -/
def shrink (limit : Nat) (l : List (Int × α)) : List (Int × α) := l.drop (l.length + 1 - limit)

/-- `replay_state` (replay_subject.hpp 28-81): `add_value` 36-43, `get_actual_values` 58-63,
`deduce_timepoint` 66-75; the limit is `max(1, count)` (114-122), `count = none` is the default
`size_t` maximum (never reached); `window = none` is the default maximal duration, for which no clock is
read and every stored time point is the epoch. -/
def replay (count : Option Nat) (window : Option Int) : Store α (List (Int × α)) where
  init := []
  put now v s :=
    let s1 := match count with
      | none => s
      | some n => shrink (max 1 n) s
    match window with
    | none => s1 ++ [(0, v)]
    | some w => prune w now s1 ++ [(now, v)]
  get _ now s :=
    let s1 := match window with
      | none => s
      | some w => prune w now s
    (s1.map (·.2), s1)

/-- A subject with its observers: `subject_state` (190-192), its composite-disposable flag `down`, the
store, the observers subscribed so far (by number) and their states. -/
structure St (α ε σ : Type) where
  phase : Phase ε := .live []
  down : Bool := false
  store : σ
  subs : List Nat := []
  obs : Nat → UserSt α ε := fun _ => {}

/-- What happens to a subject.  Observers are numbered. (the calls of subjects/details/subject_state.hpp) -/
inductive Op (α ε : Type) where
  | subscribe (k : Nat)
  | dispose (k : Nat)
  | next (v : α)
  | error (e : ε)
  | completed
  | disposeSubject

/-- The parameters of a run: capacity of the observers' disposable containers, the exception for their
overflow, and the observers' callbacks. -/
structure Cfg (α ε σ : Type) where
  cap : Option Nat
  ov : ε
  react : Nat → List (Call α ε) → Reaction ε
  store : Store α σ

/-- `cleanup_observers` (subject_state.hpp 159-172): the observers without `k` and without disposed ones. -/
def St.cleanup (k : Nat) (s : St α ε σ) (l : List Nat) : List Nat :=
  l.filter (fun j => j ≠ k ∧ (s.obs j).disposed = false)

/-- Something happens to observer `k`.  Its upstream number `k` is the `disposable_with_observer`
registered by `on_subscribe` (98): when that is disposed for the first time, `base_dispose_impl`
(subject_state.hpp 54-64) removes the observer from the list, if the subject is still live. -/
def St.touch (k : Nat) (f : UserSt α ε → UserSt α ε) (s : St α ε σ) : St α ε σ :=
  let u := f (s.obs k)
  let s1 := { s with obs := fun j => if j = k then u else s.obs j }
  if Out.released k ∈ u.log ∧ Out.released k ∉ (s.obs k).log then
    match s.phase with
    | .live l => { s1 with phase := .live (s1.cleanup k l) }
    | _ => s1
  else s1

/-- A call on observer `k`. (observers/observer.hpp 84-145) -/
def St.call (C : Cfg α ε σ) (k : Nat) (c : Call α ε) (s : St α ε σ) : St α ε σ :=
  s.touch k ((userObs C.cap C.ov (C.react k)).call c)

/-- `for_each` over a snapshot of the observers (subject_state.hpp 130, 138, 148). -/
def St.callAll (C : Cfg α ε σ) (c : Call α ε) (l : List Nat) (s : St α ε σ) : St α ε σ :=
  l.foldl (fun s k => s.call C k c) s

/-- `on_subscribe` (subject_state.hpp 78-110). -/
def St.onSubscribe (C : Cfg α ε σ) (k : Nat) (s : St α ε σ) : St α ε σ :=
  match s.phase with
  | .live l => St.call C k (.up k) { s with phase := .live (l ++ [k]) }
  | .failed e => s.call C k (.error e)
  | .completed => s.call C k .completed
  | .disposed => s

/-- Subscription: publish_subject.hpp 55, behavior_subject.hpp 84-95, replay_subject.hpp 129-137. The
remembered values first, then `on_subscribe`. -/
def St.subscribe (C : Cfg α ε σ) (now : Int) (k : Nat) (s : St α ε σ) : St α ε σ :=
  if k ∈ s.subs then s else
  let r := C.store.get s.down now s.store
  let s1 := { s with store := r.2, subs := k :: s.subs }
  (r.1.foldl (fun s v => s.call C k (.next v)) s1).onSubscribe C k

/-- `composite_disposable::dispose` with `composite_dispose_impl` (subject_state.hpp 154-157) and
`exchange_observers_under_lock_if_there` (179-187). -/
def St.disposeSubject (s : St α ε σ) : St α ε σ :=
  if s.down then s else
  match s.phase with
  | .live _ => { s with down := true, phase := .disposed }
  | _ => { s with down := true }

/-- `on_next` of the subject's observer: `observer_impl` asks `is_disposed` first
(observers/observer.hpp 84-90, publish_subject.hpp 32), then the value is remembered
(behavior_subject.hpp 57, replay_subject.hpp 97) and sent to the observers (subject_state.hpp 112-131). -/
def St.next (C : Cfg α ε σ) (now : Int) (v : α) (s : St α ε σ) : St α ε σ :=
  if s.down then s else
  let s1 := { s with store := C.store.put now v s.store }
  match s1.phase with
  | .live l => s1.callAll C (.next v) l
  | _ => s1

/-- `on_error`/`on_completed` (subject_state.hpp 133-151). -/
def St.finish (C : Cfg α ε σ) (c : Call α ε) (ph : Phase ε) (s : St α ε σ) : St α ε σ :=
  if s.down then s else
  (match s.phase with
  | .live l => St.callAll C c l { s with phase := ph }
  | _ => s).disposeSubject

/-- One operation at time `now`. (subjects/details/subject_state.hpp 54-192) -/
def St.step (C : Cfg α ε σ) (s : St α ε σ) (o : Int × Op α ε) : St α ε σ :=
  match o.2 with
  | .subscribe k => s.subscribe C o.1 k
  | .dispose k => if k ∈ s.subs then s.touch k UserSt.dispose else s
  | .next v => s.next C o.1 v
  | .error e => s.finish C (.error e) (.failed e)
  | .completed => s.finish C .completed .completed
  | .disposeSubject => s.disposeSubject

/-- A subject's history. -/
def run (C : Cfg α ε σ) (h : List (Int × Op α ε)) : St α ε σ :=
  h.foldl (St.step C) { store := C.store.init }

end Rpp.Subj
