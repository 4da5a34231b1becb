/-!
# Operators that hand out inner observables: the common machine (M2)

`window` and `group_by` create subjects, hand them to the subscriber (the *main* observer) and push
the source's notifications into them.  This file models what they share:

* the subjects (`operators/details/forwarding_subject.hpp` 25-70 and `subjects/publish_subject.hpp`
  24-63 over `subjects/details/subject_state.hpp` 78-187);
* the `refcount_disposable` that keeps the source subscribed as long as the main observer or any
  observer of a subject is (`disposables/refcount_disposable.hpp` 29-115; its counter is modelled as the
  set of holders, which is what C51 is about);
* a source that keeps the contract: serial, nothing after its terminal notification;
* the order of the calls: an operator's `on_next`/`on_error`/`on_completed` is a *program*, a list of
  instructions which is executed one instruction per step.  Between any two steps the environment may
  subscribe and dispose observers: these are the actions of other threads, and of the callbacks.

Simplifications: callbacks do not throw; the snapshot of observers that `subject_state::on_next` 124-130 iterates over is
a copy (the real one is a pair of deque iterators: C47); `set_upstream` of the source is not a step.
-/

namespace Rpp.Win

/-- Notifications. (observers/observer.hpp 84-145) -/
inductive Item (α ε : Type) where
  | val (a : α)
  | err (e : ε)
  | done
  deriving DecidableEq, Repr

/-- Read off the state or the log, for statements and proofs; no counterpart in /repo. -/
def Item.term {α ε} : Item α ε → Bool
  | .val _ => false
  | _ => true

/-- Instructions.  Subjects are numbered by the operator, observers by the environment.
* `create w`: make the subject and add its disposable to the refcount (window.hpp 54-56, group_by.hpp
  129-131);
* `openW w`: `on_next` of the main observer with the subject's observable;
* `push w x`: notification of the subject's observer;
* `call o x`: one call of the loop in `subject_state` (130, 138, 148);
* `drop w`: forget the subject (window.hpp 68-69);
* `mainEnd x`: terminal notification of the main observer;
* `stopIfDown w`: skip the rest if the subject is disposed (group_by.hpp 97). -/
inductive Instr (α ε : Type) where
  | create (w : Nat)
  | openW (w : Nat)
  | push (w : Nat) (x : Item α ε)
  | call (o : Nat) (x : Item α ε)
  | drop (w : Nat)
  | mainEnd (x : Item α ε)
  | stopIfDown (w : Nat)
  deriving DecidableEq, Repr

/-- What is observable.
* `acc i g`: the operator accepts the source's notification `i` (`g`: the main observer has left);
* `opened w`, `ended x`: callbacks of the main observer;
* `fed w x`: subject `w`, not yet ended, is given `x`;
* `sub o w`: observer `o` joins subject `w`; `late o w`: it comes too late, the subject has ended;
* `got o x`: callback of observer `o`;
* `unsub o`, `gone`: observer `o`, the main observer, disposes of its subscription. -/
inductive Ev (ι α ε : Type) where
  | acc (i : ι) (g : Bool)
  | opened (w : Nat)
  | fed (w : Nat) (x : Item α ε)
  | ended (x : Item α ε)
  | sub (o w : Nat)
  | late (o w : Nat)
  | got (o : Nat) (x : Item α ε)
  | unsub (o : Nat)
  | gone
  deriving DecidableEq, Repr

/-- `subject_state::m_state` (190): the observers, or what ended the subject. (operators/window.hpp 30-111, group_by.hpp 62-158, subjects/details/subject_state.hpp 112-157) -/
inductive Phase (α ε : Type) where
  | absent
  | live (obs : List Nat)
  | ended (x : Item α ε)
  | disposed
  deriving DecidableEq, Repr

/-- An observer of a subject: its subject, and whether it is still subscribed. (operators/window.hpp 30-111, group_by.hpp 62-158, subjects/details/subject_state.hpp 112-157) -/
structure Ob where
  win : Nat
  alive : Bool
  deriving DecidableEq, Repr

/-- `held w`: the subject's state is still owned by the operator (its observables only have a weak
pointer, forwarding_subject.hpp 59-66); `refd`, `mainRef`: who holds a reference of the refcount
disposable; `dead`: it is disposed, and so is the source's subscription; `over`: the source has sent its
terminal notification. -/
structure St (σ ι α ε : Type) where
  op : σ
  prog : List (Instr α ε) := []
  phase : Nat → Phase α ε := fun _ => .absent
  held : Nat → Bool := fun _ => false
  ob : Nat → Option Ob := fun _ => none
  refd : List Nat := []
  mainRef : Bool := true
  dead : Bool := false
  over : Bool := false
  log : List (Ev ι α ε) := []

/-- An operator: its own state, and the program of each notification.  The program may depend on
whether the main observer is disposed at the beginning of the call.  `isTerm`: the
notification is the last one: the source's terminal notification, or one that makes a selector throw. (operators/window.hpp 30-111, group_by.hpp 62-158, subjects/details/subject_state.hpp 112-157) -/
structure Oper (σ ι α ε : Type) where
  init : σ
  accept : σ → Bool → ι → σ × List (Instr α ε)
  isTerm : σ → Bool → ι → Bool

/-- `notify i`: the source calls the operator; `run`: next instruction; the rest is the environment.
`destroy`: the operator is destroyed once it is finished, and with it what it still owns; when that
happens depends on who else holds pointers to it. -/
inductive Lbl (ι : Type) where
  | notify (i : ι)
  | run
  | sub (o w : Nat)
  | unsub (o : Nat)
  | leave
  | destroy
  deriving DecidableEq, Repr

variable {σ ι α ε : Type}

/-- The subject has not ended (subjects/details/subject_state.hpp 112-131). -/
def Phase.isLive : Phase α ε → Bool
  | .live _ => true
  | _ => false

/-- A subscription is removed from the list of observers (subjects/details/subject_state.hpp 154-157). -/
def Phase.without (o : Nat) : Phase α ε → Phase α ε
  | .live l => .live (l.filter (· ≠ o))
  | p => p

/-- The subject's composite_disposable is disposed by `dispose()` of the refcount (line 53 of
composite_disposable.hpp; `composite_dispose_impl` of subject_state.hpp 154-157). -/
def Phase.disposeIt : Phase α ε → Phase α ε
  | .live _ => .disposed
  | p => p

/-- `refcount_disposable::release` (33-46): when the last reference goes, the source's subscription and
all subjects are disposed. -/
def St.settle (s : St σ ι α ε) : St σ ι α ε :=
  if s.mainRef || !s.refd.isEmpty then s
  else { s with dead := true, phase := fun w => (s.phase w).disposeIt }

/-- Observer `o` is disposed: it leaves the subject's list (subject_state.hpp 54-64, 159-172) and gives
back its reference (refcount_disposable.hpp 80-88). -/
def St.free (s : St σ ι α ε) (o : Nat) (b : Ob) : St σ ι α ε :=
  St.settle { s with ob := fun j => if j = o then some { b with alive := false } else s.ob j,
                     phase := fun w => if w = b.win then (s.phase w).without o else s.phase w,
                     refd := s.refd.filter (· ≠ o) }

/-- Executes one instruction; `rest` is the program after it. (operators/window.hpp 30-111, group_by.hpp 62-158, subjects/details/subject_state.hpp 112-157) -/
def exec1 (s : St σ ι α ε) (rest : List (Instr α ε)) : Instr α ε → St σ ι α ε
  | .create w =>
    match s.phase w with
    | .absent =>
      { s with prog := rest, held := fun v => if v = w then true else s.held v,
               phase := fun v => if v = w then (if s.dead then .disposed else .live []) else s.phase v }
    | _ => { s with prog := rest }
  | .openW w => if s.mainRef then { s with prog := rest, log := s.log ++ [.opened w] } else { s with prog := rest }
  | .push w x =>
    match s.phase w with
    | .live l =>
      { s with prog := l.map (fun o => .call o x) ++ rest, log := s.log ++ [.fed w x],
               phase := fun v => if v = w then (if x.term then .ended x else .live l) else s.phase v }
    | _ => { s with prog := rest }
  | .call o x =>
    match s.ob o with
    | some b =>
      if b.alive then
        let s1 := { s with prog := rest, log := s.log ++ [.got o x] }
        if x.term then s1.free o b else s1
      else { s with prog := rest }
    | none => { s with prog := rest }
  | .drop w => { s with prog := rest, held := fun v => if v = w then false else s.held v }
  | .mainEnd x =>
    if s.mainRef then St.settle { s with prog := rest, log := s.log ++ [.ended x], mainRef := false }
    else { s with prog := rest }
  | .stopIfDown w => { s with prog := if (s.phase w).isLive then rest else [] }

/-- One step.  Subscribing (forwarding_subject.hpp 59-66, group_by.hpp 148-158, subject_state.hpp
78-110): takes a reference and joins the list; if the subject has ended and still exists, its terminal
event is delivered at once; if it does not exist any more, nothing happens at all. -/
def step (O : Oper σ ι α ε) (s : St σ ι α ε) : Lbl ι → St σ ι α ε
  | .notify i =>
    match s.prog with
    | [] =>
      if s.dead || s.over then s
      else { s with over := O.isTerm s.op (!s.mainRef) i, op := (O.accept s.op (!s.mainRef) i).1, prog := (O.accept s.op (!s.mainRef) i).2,
                    log := s.log ++ [.acc i (!s.mainRef)] }
    | _ => s
  | .run =>
    match s.prog with
    | [] => s
    | i :: rest => exec1 s rest i
  | .sub o w =>
    match s.ob o with
    | some _ => s
    | none =>
      match s.phase w with
      | .absent => s
      | .live l =>
        { s with ob := fun j => if j = o then some ⟨w, true⟩ else s.ob j, refd := o :: s.refd,
                 phase := fun v => if v = w then .live (l ++ [o]) else s.phase v, log := s.log ++ [.sub o w] }
      | .ended x =>
        if s.held w then
          { s with ob := fun j => if j = o then some ⟨w, false⟩ else s.ob j, log := s.log ++ [.late o w, .got o x] }
        else { s with ob := fun j => if j = o then some ⟨w, false⟩ else s.ob j, log := s.log ++ [.late o w] }
      | .disposed =>
        { s with ob := fun j => if j = o then some ⟨w, false⟩ else s.ob j, log := s.log ++ [.late o w] }
  | .unsub o =>
    match s.ob o with
    | some b => if b.alive then St.free { s with log := s.log ++ [.unsub o] } o b else s
    | none => s
  | .leave => if s.mainRef then St.settle { s with mainRef := false, log := s.log ++ [.gone] } else s
  | .destroy => if s.prog.isEmpty && (s.over || s.dead) then { s with held := fun _ => false } else s

/-- The state after a sequence of steps; no counterpart in /repo. -/
def exec (O : Oper σ ι α ε) (ls : List (Lbl ι)) : St σ ι α ε := ls.foldl (step O) { op := O.init }

/-! ## Specification vocabulary -/

/-- The notifications the operator accepted. -/
def accepted : List (Ev ι α ε) → List ι
  | [] => []
  | .acc i _ :: r => i :: accepted r
  | _ :: r => accepted r

/-- What is done with the subjects and the main observer. -/
inductive Act (α ε : Type) where
  | opened (w : Nat)
  | fed (w : Nat) (x : Item α ε)
  | ended (x : Item α ε)
  deriving DecidableEq, Repr

/-- Read off the state or the log, for statements and proofs; no counterpart in /repo. -/
def acts : List (Ev ι α ε) → List (Act α ε)
  | [] => []
  | .opened w :: r => .opened w :: acts r
  | .fed w x :: r => .fed w x :: acts r
  | .ended x :: r => .ended x :: acts r
  | _ :: r => acts r

/-- What subject `w` is given. -/
def feds (w : Nat) : List (Ev ι α ε) → List (Item α ε)
  | [] => []
  | .fed v x :: r => if v = w then x :: feds w r else feds w r
  | _ :: r => feds w r

/-- What observer `o` is to be told: what its subject is given after `o` joined. -/
def due (o : Nat) : List (Ev ι α ε) → List (Item α ε)
  | [] => []
  | .sub p w :: r => if p = o then feds w r else due o r
  | _ :: r => due o r

/-- What observer `o` was told. -/
def received (o : Nat) : List (Ev ι α ε) → List (Item α ε)
  | [] => []
  | .got p x :: r => if p = o then x :: received o r else received o r
  | _ :: r => received o r

end Rpp.Win
