import Verif.Window.Hub

/-!
# `window_toggle` (operators/window_toggle.hpp 33-187)

Three kinds of threads: the source's, the openings', and one per window for its closing.  Each keeps the
contract of an observable by itself (serial, nothing after its terminal notification) but they run
concurrently; an arbitrary scheduler interleaves their steps.  The steps of a call are those that other
threads can tell apart: passing `is_disposed`, taking the mutex, each push into a window, and inside a push:
taking the snapshot of the window's observers, the observer's `is_disposed`, its callback's begin and end.

Simplifications: callbacks do not throw; a window has at most one observer, who may join at any time (the
distribution to several observers of a subject is C43 and C44); joining a window that has ended is not
modelled (see C19_late: `window` uses the same forwarding_subject).
-/

namespace Rpp.Win.Toggle
variable {α ε : Type}

open Rpp.Win (Item)

/-- Who is calling: the source, the openings, or the closing of a window. (operators/window_toggle.hpp, subjects/details/subject_state.hpp 112-157) -/
inductive Actor where
  | src
  | opn
  | cls (w : Nat)
  deriving DecidableEq, Repr

/-- What the mutex is wanted for.  `item x`: pass `x` to all windows (and, if terminal, to the main
observer): 156-160, 162-176, 87-93, 126-132; `opening`: `on_new_subject` 62-68; `erase w`: 102-103. -/
inductive Job (α ε : Type) where
  | item (x : Item α ε)
  | opening
  | erase (w : Nat)
  deriving DecidableEq, Repr

/-- Delivery to a window's observer.  `chk`: the subject has taken its snapshot (subject_state.hpp 115-130 or
144-149), `is_disposed` of the observer is next (observer.hpp 88, 104, 122, 137); `go`: it said no; `inn`: inside
the callback. -/
inductive Stage where
  | chk
  | go
  | inn
  deriving DecidableEq, Repr

/-- Where a call is.
* `want j`: waits for the mutex;
* `loop x rest`: mutex held, windows `rest` are still to be given `x`;
* `deliv x w k st`: `x` is on its way to the observer of window `w`; `k = some rest`: from the loop, mutex
  held; `k = none`: from the closing's `itr->on_completed()` (98), mutex not held;
* `openCb w`: mutex held, inside the main observer's `on_next` (66);
* `mainCb x`: mutex held, inside the main observer's terminal callback (92, 131, 167, 175);
* `mainOut x`: it has returned and the main observer is disposed; mutex still held;
* `post w`: mutex released, `disposable->add` and the subscription to the closing are next (122-123);
* `fired w`: the closing's `on_completed` after `disposable->remove` (96); `itr->on_completed()` is next. -/
inductive Pc (α ε : Type) where
  | idle
  | want (j : Job α ε)
  | loop (x : Item α ε) (rest : List Nat)
  | deliv (x : Item α ε) (w : Nat) (k : Option (List Nat)) (st : Stage)
  | openCb (w : Nat)
  | mainCb (x : Item α ε)
  | mainOut (x : Item α ε)
  | post (w : Nat)
  | fired (w : Nat)
  deriving DecidableEq, Repr

/-- What is observable.
* `acc a x`: `a` has the mutex and is going to pass `x` on; `rel a`: it releases the mutex;
* `open`: the openings emit; `created w`: a window is made; `opened w`: the main observer's `on_next` with it starts; `ended x`: its terminal
  callback starts; `mainRet`: its callback returned;
* `fire w`: the closing of window `w` fires; `fireEnd w`: its `itr->on_completed()` has returned;
  `again w`: it is made to fire again from inside the window's completion callback;
* `fed a w x`: window `w`, not yet ended, is given `x` by `a`;
* `sub w`, `unsub w`: the observer of window `w` joins, leaves; `got w x`: its callback starts; `ret w`: it returns;
* `leave`: the main observer leaves; `dead`: nobody is left, everything is disposed. -/
inductive Ev (α ε : Type) where
  | acc (a : Actor) (x : Item α ε)
  | rel (a : Actor)
  | open
  | created (w : Nat)
  | opened (w : Nat)
  | mainRet
  | ended (x : Item α ε)
  | fire (w : Nat)
  | fireEnd (w : Nat)
  | again (w : Nat)
  | fed (a : Actor) (w : Nat) (x : Item α ε)
  | sub (w : Nat)
  | unsub (w : Nat)
  | got (w : Nat) (x : Item α ε)
  | ret (w : Nat)
  | leave
  | dead
  deriving DecidableEq, Repr

/-- `lock`: the holder of the mutex of `m_state` (71); `list`: `observers` (44), by number of the window, windows
are numbered in order of creation, `next` is the number of the next; `phase`: the subject (its observers are
`refs`); `down`: the subject's composite_disposable is disposed; `added`: it is in the refcount disposable (122,
removed in 96); `armed`: the closing is subscribed and has not fired; `seen`: the window had its observer;
`shown`: it was handed to the main observer; `refs`: the windows whose observer is subscribed, each holds a
reference (forwarding_subject.hpp 62); `mainOn`: so does the main observer (152); `dead`: the refcount disposable
is disposed; `srcOver`, `opnOver`: the source, the openings have terminated; `ub`: `erase` with an iterator
that is not in the list (103). -/
structure St (α ε : Type) where
  lock : Option Actor := none
  pc : Actor → Pc α ε := fun _ => .idle
  list : List Nat := []
  next : Nat := 0
  live : Nat → Bool := fun _ => false
  down : Nat → Bool := fun _ => false
  added : Nat → Bool := fun _ => false
  armed : Nat → Bool := fun _ => false
  seen : Nat → Bool := fun _ => false
  shown : Nat → Bool := fun _ => false
  refs : List Nat := []
  mainOn : Bool := true
  dead : Bool := false
  srcOver : Bool := false
  opnOver : Bool := false
  ub : Bool := false
  log : List (Ev α ε) := []

/-- `src x`, `opn`, `opnErr`, `opnDone`: notifications of the source and the openings; `fire w`, `cErr w e`: the
closing of window `w` emits or completes, or fails; `selThrow e`: the closings selector throws (123); `run a`: the
next step of `a`; `sub w`, `unsub w`, `leave`: the subscribers; `refire w`: from inside the window's completion
callback, the closing is made to emit again. -/
inductive Lbl (α ε : Type) where
  | src (x : Item α ε)
  | opn
  | opnErr (e : ε)
  | opnDone
  | fire (w : Nat)
  | cErr (w : Nat) (e : ε)
  | selThrow (e : ε)
  | run (a : Actor)
  | sub (w : Nat)
  | unsub (w : Nat)
  | leave
  | refire (w : Nat)
  deriving DecidableEq, Repr

/-- No call is in progress; no counterpart in /repo. -/
def Pc.isIdle : Pc α ε → Bool
  | .idle => true
  | _ => false

/-- Inside a window's callback, called by the closing. -/
def Pc.inEnd : Pc α ε → Bool
  | .deliv _ _ none .inn => true
  | _ => false

/-- Replace one component of the state; no counterpart in /repo. -/
def upd {κ β : Type} [DecidableEq κ] (f : κ → β) (k : κ) (v : β) : κ → β := fun j => if j = k then v else f j

/-- refcount_disposable.hpp 33-46: the last reference is gone; the source's, the openings' subscription and the
windows in the container are disposed (`composite_dispose_impl` of subject_state.hpp 154-157). -/
def St.settle (s : St α ε) : St α ε :=
  if s.mainOn = false ∧ s.refs = [] ∧ s.dead = false then
    { s with dead := true, live := fun w => s.live w && !s.added w, down := fun w => s.down w || s.added w, log := s.log ++ [.dead] }
  else s

/-- What follows a push: the next window, or (closing) the mutex for `erase` (102-103). -/
def cont (x : Item α ε) (w : Nat) : Option (List Nat) → Pc α ε
  | some rest => .loop x rest
  | none => .want (.erase w)

/-- The event of a container's change; no counterpart in /repo. -/
def contEv (w : Nat) : Option (List Nat) → List (Ev α ε)
  | some _ => []
  | none => [.fireEnd w]

/-- A push into window `w` (subject_state.hpp 112-151): if it is alive, it is given `x`, a terminal `x` ends it
(`exchange_observers_under_lock_if_there`); if it has an observer, the delivery starts, else
the push is over, and a terminal one disposes the subject (139, 150). -/
def St.give (s : St α ε) (a : Actor) (x : Item α ε) (w : Nat) (k : Option (List Nat)) : St α ε :=
  if s.live w then
    if w ∈ s.refs then
      { s with log := s.log ++ [.fed a w x], live := upd s.live w (!x.term), pc := upd s.pc a (.deliv x w k .chk) }
    else
      { s with log := s.log ++ [.fed a w x] ++ contEv w k, live := upd s.live w (!x.term), down := upd s.down w (s.down w || x.term),
               pc := upd s.pc a (cont x w k) }
  else { s with log := s.log ++ contEv w k, down := upd s.down w (s.down w || x.term), pc := upd s.pc a (cont x w k) }

/-- The next step of `a`. (operators/window_toggle.hpp, subjects/details/subject_state.hpp 112-157) -/
def St.run (s : St α ε) (a : Actor) : St α ε :=
  match s.pc a with
  | .idle => s
  | .want j =>
    match s.lock with
    | some _ => s
    | none =>
      match j with
      | .item x => { s with lock := some a, pc := upd s.pc a (.loop x s.list), log := s.log ++ [.acc a x] }
      | .opening =>
        if s.mainOn then
          { s with lock := some a, next := s.next + 1, list := s.list ++ [s.next], live := upd s.live s.next true,
                   shown := upd s.shown s.next true, pc := upd s.pc a (.openCb s.next), log := s.log ++ [.created s.next, .opened s.next] }
        else
          { s with next := s.next + 1, list := s.list ++ [s.next], live := upd s.live s.next true,
                   pc := upd s.pc a (.post s.next), log := s.log ++ [.created s.next] }
      | .erase w =>
        { s with list := s.list.erase w, ub := s.ub || !s.list.contains w, pc := upd s.pc a .idle }
  | .loop x [] =>
    if x.term && s.mainOn then
      { s with pc := upd s.pc a (.mainCb x), log := s.log ++ [.ended x] }
    else { s with lock := none, pc := upd s.pc a .idle, log := s.log ++ [.rel a] }
  | .loop x (w :: rest) => s.give a x w (some rest)
  | .fired w => s.give a .done w none
  | .deliv x w k .chk =>
    if w ∈ s.refs then { s with pc := upd s.pc a (.deliv x w k .go) }
    else { s with down := upd s.down w (s.down w || x.term), pc := upd s.pc a (cont x w k), log := s.log ++ contEv w k }
  | .deliv x w k .go => { s with pc := upd s.pc a (.deliv x w k .inn), log := s.log ++ [.got w x] }
  | .deliv x w k .inn =>
    if x.term then
      St.settle { s with refs := s.refs.filter (· ≠ w), down := upd s.down w true, pc := upd s.pc a (cont x w k), log := s.log ++ .ret w :: contEv w k }
    else { s with pc := upd s.pc a (cont x w k), log := s.log ++ .ret w :: contEv w k }
  | .openCb w => { s with lock := none, pc := upd s.pc a (.post w), log := s.log ++ [.mainRet] }
  | .mainCb x => St.settle { s with mainOn := false, pc := upd s.pc a (.mainOut x), log := s.log ++ [.mainRet] }
  | .mainOut _ => { s with lock := none, pc := upd s.pc a .idle, log := s.log ++ [.rel a] }
  | .post w =>
    { s with added := upd s.added w true, armed := upd s.armed w true, live := upd s.live w (s.live w && !s.dead),
             down := upd s.down w (s.down w || s.dead), pc := upd s.pc a .idle }

/-- One step.  The source's and the openings' observer drop everything once the refcount disposable is disposed
(143-187, subscribe_with_disposable), the closing's once the subject is (107). -/
def step (s : St α ε) : Lbl α ε → St α ε
  | .src x =>
    if (s.pc .src).isIdle = true ∧ s.dead = false ∧ s.srcOver = false then
      { s with pc := upd s.pc .src (.want (.item x)), srcOver := x.term }
    else s
  | .opn =>
    if (s.pc .opn).isIdle = true ∧ s.dead = false ∧ s.opnOver = false then
      { s with pc := upd s.pc .opn (.want .opening), log := s.log ++ [.open] }
    else s
  | .opnErr e =>
    if (s.pc .opn).isIdle = true ∧ s.dead = false ∧ s.opnOver = false then
      { s with pc := upd s.pc .opn (.want (.item (.err e))), opnOver := true }
    else s
  | .opnDone => if (s.pc .opn).isIdle = true then { s with opnOver := true } else s
  | .selThrow e =>
    match s.pc .opn with
    | .post w =>
      { s with added := upd s.added w true, live := upd s.live w (s.live w && !s.dead), down := upd s.down w (s.down w || s.dead),
               pc := upd s.pc .opn (.want (.item (.err e))), opnOver := true }
    | _ => s
  | .fire w =>
    if (s.pc (.cls w)).isIdle = true ∧ s.armed w = true ∧ s.down w = false then
      { s with pc := upd s.pc (.cls w) (.fired w), armed := upd s.armed w false, added := upd s.added w false, log := s.log ++ [.fire w] }
    else s
  | .cErr w e =>
    if (s.pc (.cls w)).isIdle = true ∧ s.armed w = true ∧ s.down w = false then
      { s with pc := upd s.pc (.cls w) (.want (.item (.err e))), armed := upd s.armed w false }
    else s
  | .run a => s.run a
  | .sub w =>
    if s.shown w = true ∧ s.live w = true ∧ s.seen w = false ∧ s.dead = false then
      { s with seen := upd s.seen w true, refs := s.refs ++ [w], log := s.log ++ [.sub w] }
    else s
  | .unsub w =>
    if w ∈ s.refs then St.settle { s with refs := s.refs.filter (· ≠ w), log := s.log ++ [.unsub w] } else s
  | .leave => if s.mainOn then St.settle { s with mainOn := false, log := s.log ++ [.leave] } else s
  | .refire w =>
    if (s.pc (.cls w)).inEnd = true ∧ s.lock = none ∧ s.down w = false then
      { s with down := upd s.down w true, list := s.list.erase w, ub := s.ub || !s.list.contains w, log := s.log ++ [.again w] }
    else s

/-- The state after a sequence of steps; no counterpart in /repo. -/
def exec (ls : List (Lbl α ε)) : St α ε := ls.foldl step {}

/-! ## Specification -/

/-- Window `w` has ended: it was given a terminal notification, or everything was disposed. -/
def endedIn (w : Nat) : List (Ev α ε) → Bool
  | [] => false
  | .fed _ v x :: l => (v = w && x.term) || endedIn w l
  | .dead :: _ => true
  | _ :: l => endedIn w l

/-- What window `w` was given. -/
def feds (w : Nat) : List (Ev α ε) → List (Item α ε)
  | [] => []
  | .fed _ v x :: l => if v = w then x :: feds w l else feds w l
  | _ :: l => feds w l

/-- What window `w` was given after its observer joined. -/
def due (w : Nat) : List (Ev α ε) → List (Item α ε)
  | [] => []
  | .sub v :: l => if v = w then feds w l else due w l
  | _ :: l => due w l

/-- The callbacks of the observer of window `w`. -/
def gots (w : Nat) : List (Ev α ε) → List (Item α ε)
  | [] => []
  | .got v x :: l => if v = w then x :: gots w l else gots w l
  | _ :: l => gots w l

/-- The state of the observer of a window, as seen from its callbacks. -/
inductive Cb where
  | out
  | inVal
  | inEnd
  | over
  | bad
  deriving DecidableEq, Repr

/-- The rules: one callback at a time, nothing after the terminal one has started. -/
def cbStep (w : Nat) (c : Cb) : Ev α ε → Cb
  | .got v x => if v = w then (match c with | .out => if x.term then .inEnd else .inVal | _ => .bad) else c
  | .ret v => if v = w then (match c with | .inVal => .out | .inEnd => .over | _ => .bad) else c
  | _ => c

/-- Read off the state or the log, for statements and proofs; no counterpart in /repo. -/
def cbs (w : Nat) (l : List (Ev α ε)) : Cb := l.foldl (cbStep w) .out

/-- The same for the main observer. -/
def mainStep (c : Cb) : Ev α ε → Cb
  | .opened _ => match c with | .out => .inVal | _ => .bad
  | .ended _ => match c with | .out => .inEnd | _ => .bad
  | .mainRet => match c with | .inVal => .out | .inEnd => .over | _ => .bad
  | _ => c

/-- Read off the state or the log, for statements and proofs; no counterpart in /repo. -/
def mains (l : List (Ev α ε)) : Cb := l.foldl mainStep .out

/-- Who is busy with window `w`: a call that passes a notification on, or the window's closing; `none`: two at
the same time. -/
def busyStep (w : Nat) (c : Option (Option Actor)) : Ev α ε → Option (Option Actor)
  | .acc a _ => if c = some none then some (some a) else none
  | .rel _ => c.map fun _ => none
  | .fire v => if v = w then (if c = some none then some (some (.cls w)) else none) else c
  | .fireEnd v => if v = w then c.map fun _ => none else c
  | _ => c

/-- The closing of `w` does not fire while a call passes a notification on, nor the other way round. -/
def apart (w : Nat) (l : List (Ev α ε)) : Bool := (l.foldl (busyStep w) (some none)).isSome

end Rpp.Win.Toggle
