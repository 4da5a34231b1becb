import Verif.Subject.Model

/-!
# Subjects used from several threads and from their own callbacks (C45, C46, C47)

Every call made on the subject (`on_next`, `on_error`/`on_completed`, `subscribe`, `dispose`) is a small
machine of its own, numbered by `i`; the machines advance in any order, so calls made by other threads
and calls made by a callback of a running emission are all covered (a nested call is one whose steps lie
between the beginning and the end of a callback).  The observer subscribed by call `k` is observer `k`.
Callbacks return when the scheduler says so (`ret`), normally or with an exception.
-/

namespace Rpp.Subj.Conc
open Rpp.Subj

variable {α ε σ : Type} [DecidableEq α] [DecidableEq ε]

/-- What an observer is told. (observers/observer.hpp 84-145) -/
inductive Sig (α ε : Type) where
  | next (v : α)
  | term (t : Term ε)
deriving DecidableEq

/-- Observable history.
`emit`/`finish`: the subject's observer accepted a value / a terminal event in call `i`;
`stored`: the value was written to the store at that time;
`snap`: `on_next` copied the list of observers;
`read`: subscription `k` read the store (`down`: as a disposed subject) and got these values;
`reg`: observer `k` entered the list; `ub`: it entered a deque over which an `on_next` is iterating;
`beg`/`fin`: call `i` entered / left a callback of observer `k`;
`gone`: observer `k` is disposed; `done`: call `i` returned. -/
inductive Ev (α ε : Type) where
  | emit (i : Nat) (v : α)
  | finish (i : Nat) (t : Term ε)
  | stored (i : Nat) (v : α) (now : Int)
  | snap (i : Nat) (v : α) (l : List Nat)
  | read (k : Nat) (down : Bool) (now : Int) (vs : List α)
  | reg (k : Nat)
  | ub (k : Nat)
  | beg (i k : Nat) (c : Sig α ε)
  | fin (i k : Nat)
  | gone (k : Nat)
  | done (i : Nat)
deriving DecidableEq

/-- The variant `m_state` (subject_state.hpp 72): a shared deque (`d` is its identity, `none` the null
pointer) or what ended the subject. -/
inductive Ph (ε : Type) where
  | live (d : Option Nat) (l : List Nat)
  | ended (t : Term ε)
  | disposed
deriving DecidableEq

/-- Why a call delivers: an `on_next` (its value, its snapshot, the deque it iterates), a terminal event, the replay
of a subscription, the terminal event for a late subscriber. (subjects/details/subject_state.hpp 54-192) -/
inductive Job (α ε : Type) where
  | nxt (v : α) (l : List Nat) (d : Nat)
  | term (t : Term ε)
  | sub
  | late
deriving DecidableEq

/-- Where the delivering call is with respect to one observer: between observers, inside a callback,
about to report the exception a callback threw, about to dispose the observer after its terminal
callback (observer.hpp 103-112, 120-144). -/
inductive Cur (α ε : Type) where
  | none
  | inCb (k : Nat) (c : Sig α ε)
  | err (k : Nat) (e : ε)
  | mark (k : Nat)
deriving DecidableEq

/-- Program counter of a call. -/
inductive Pc (α ε : Type) where
  | idle
  | nPut (v : α)                                     -- behavior_subject.hpp 57, replay_subject.hpp 97
  | nSnap (v : α)                                    -- subject_state.hpp 114-127
  | nLock (v : α) (l : List Nat) (d : Nat)           -- subject_state.hpp 129
  | tLock (t : Term ε)                               -- subject_state.hpp 136, 146
  | tExch (t : Term ε)                               -- subject_state.hpp 137, 147
  | sRead (down : Bool)                              -- behavior_subject.hpp 89, replay_subject.hpp 133
  | sReg                                             -- subject_state.hpp 81-96
  | work (j : Job α ε) (todo : List (Nat × Sig α ε)) (cur : Cur α ε)
  | dFlag                                            -- composite_disposable.hpp 49
  | dExch                                            -- subject_state.hpp 154-157
  | done
deriving DecidableEq

/-- Parameters: what the program's own functions do and when (subjects/details/subject_state.hpp 54-192 calls them). -/
structure Cfg (α σ : Type) where
  serialized : Bool
  store : Store α σ

/-- State: the members of the objects of subjects/details/subject_state.hpp 54-192, what the running calls are doing, and the log. -/
structure St (α ε σ : Type) where
  phase : Ph ε := .live none []
  fresh : Nat := 0
  down : Bool := false
  store : σ
  /-- `m_serialized_mutex` (subject_state.hpp 192): which call holds it -/
  lock : Option Nat := none
  gone : List Nat := []
  calls : Nat → Pc α ε := fun _ => .idle
  /-- the deques that running `on_next` calls iterate -/
  iters : List (Nat × Nat) := []
  log : List (Ev α ε) := []

/-- Log an event; no counterpart in /repo. -/
def St.emit (s : St α ε σ) (ev : Ev α ε) : St α ε σ := { s with log := s.log ++ [ev] }

/-- Replace one component of the state; no counterpart in /repo. -/
def St.goto (s : St α ε σ) (i : Nat) (p : Pc α ε) : St α ε σ :=
  { s with calls := fun j => if j = i then p else s.calls j }

/-- How a callback returns. Terminal callbacks do not throw (noexcept, observer.hpp 120, 135). -/
inductive Res (ε : Type) where
  | ok
  | throw (e : ε)
deriving DecidableEq

/-- What may happen next; the choice is arbitrary; no counterpart in /repo. -/
inductive Lbl (α ε : Type) where
  | next (i : Nat) (v : α)          -- a call of `on_next` on the subject's observer
  | finish (i : Nat) (t : Term ε)   -- a call of `on_error` / `on_completed`
  | sub (k : Nat)                   -- a subscription
  | down (i : Nat)                  -- the subject is disposed
  | run (i : Nat) (now : Int)       -- call `i` makes its next step; the clock shows `now`
  | ret (i : Nat) (r : Res ε)       -- the callback call `i` is in returns
  | gone (k : Nat)                  -- the subscription of observer `k` is disposed by anybody, at any time
  | clean (k : Nat)                 -- the disposed observer `k` is removed from the list
deriving DecidableEq

/-- Take the serialized mutex, if there is one. (subjects/details/subject_state.hpp 54-192 with serialized_*_subject) -/
def St.acquire (C : Cfg α σ) (s : St α ε σ) (i : Nat) (p : Pc α ε) : St α ε σ :=
  if C.serialized then
    match s.lock with
    | none => { s with lock := some i }.goto i p
    | some _ => s
  else s.goto i p

/-- Leave the serialized mutex. (subjects/details/subject_state.hpp 54-192 with serialized_*_subject) -/
def St.release (C : Cfg α σ) (s : St α ε σ) : St α ε σ := if C.serialized then { s with lock := none } else s

/-- An observer is called: `is_disposed` is asked first (observer.hpp 84-90, 120-123, 135-138). Simplification: the
question and the entry into the callback are one step. -/
def St.turn (s : St α ε σ) (i : Nat) (j : Job α ε) (k : Nat) (c : Sig α ε) (rest : List (Nat × Sig α ε)) : St α ε σ :=
  if k ∈ s.gone then s.goto i (.work j rest .none)
  else (s.goto i (.work j rest (.inCb k c))).emit (.beg i k c)

/-- The next step of call `i`. (subjects/details/subject_state.hpp 54-192) -/
def St.advance (C : Cfg α σ) (s : St α ε σ) (i : Nat) (now : Int) : St α ε σ :=
  match s.calls i with
  | .idle | .done => s
  | .nPut v => { s with store := C.store.put now v s.store }.goto i (.nSnap v) |>.emit (.stored i v now)
  | .nSnap v =>
    match s.phase with
    | .live (some d) l => { s with iters := (i, d) :: s.iters }.goto i (.nLock v l d) |>.emit (.snap i v l)
    | .live none _ => (s.goto i .done).emit (.done i)
    | _ => (s.goto i .done).emit (.done i)
  | .nLock v l d => s.acquire C i (.work (.nxt v l d) (l.map fun k => (k, .next v)) .none)
  | .tLock t => s.acquire C i (.tExch t)
  | .tExch t =>
    match s.phase with
    | .live _ l => { s with phase := .ended t }.goto i (.work (.term t) (l.map fun k => (k, .term t)) .none)
    | _ => s.goto i (.work (.term t) [] .none)
  | .sRead down =>
    let r := C.store.get down now s.store
    { s with store := r.2 }.goto i (.work .sub (r.1.map fun v => (i, .next v)) .none) |>.emit (.read i down now r.1)
  | .sReg =>
    match s.phase with
    | .live none l => { s with phase := .live (some s.fresh) (l ++ [i]), fresh := s.fresh + 1 }.goto i .done |>.emit (.reg i)
    | .live (some d) l =>
      let s1 := { s with phase := .live (some d) (l ++ [i]) }.goto i .done |>.emit (.reg i)
      if s.iters.any (fun p => p.2 = d) then s1.emit (.ub i) else s1
    | .ended t => s.goto i (.work .late [(i, .term t)] .none)
    | .disposed => s.goto i .done
  | .work j ((k, c) :: rest) .none => s.turn i j k c rest
  | .work _ _ (.inCb _ _) => s
  | .work j todo (.err k e) => s.turn i j k (.term (.error e)) todo
  | .work j todo (.mark k) => { s with gone := k :: s.gone }.goto i (.work j todo .none) |>.emit (.gone k)
  | .work (.nxt _ _ _) [] .none =>
    { s.release C with iters := s.iters.filter (fun p => p.1 ≠ i) }.goto i .done |>.emit (.done i)
  | .work (.term _) [] .none => (s.release C).goto i .dFlag
  | .work .sub [] .none => s.goto i .sReg
  | .work .late [] .none => s.goto i .done
  | .dFlag => if s.down then s.goto i .done else { s with down := true }.goto i .dExch
  | .dExch =>
    match s.phase with
    | .live _ _ => { s with phase := .disposed }.goto i .done
    | _ => s.goto i .done

/-- One step; the single cases cite the lines of subjects/details/subject_state.hpp 54-192 they model. -/
def step (C : Cfg α σ) (s : St α ε σ) : Lbl α ε → St α ε σ
  | .next i v =>
    -- observer.hpp 84-90 asks the strategy's `is_disposed` first (publish_subject.hpp 32)
    if s.calls i = .idle ∧ s.down = false then (s.goto i (.nPut v)).emit (.emit i v) else s
  | .finish i t => if s.calls i = .idle ∧ s.down = false then (s.goto i (.tLock t)).emit (.finish i t) else s
  | .sub k => if s.calls k = .idle then s.goto k (.sRead s.down) else s
  | .down i => if s.calls i = .idle then s.goto i .dFlag else s
  | .run i now => s.advance C i now
  | .ret i r =>
    match s.calls i with
    | .work j todo (.inCb k c) =>
      match c, r with
      | .next _, .ok => (s.goto i (.work j todo .none)).emit (.fin i k)
      | .next _, .throw e => (s.goto i (.work j todo (.err k e))).emit (.fin i k)
      | .term _, _ => (s.goto i (.work j todo (.mark k))).emit (.fin i k)
    | _ => s
  | .gone k => if k ∈ s.gone then s else { s with gone := k :: s.gone }.emit (.gone k)
  | .clean k =>
    -- base_dispose_impl, subject_state.hpp 54-64, cleanup_observers 159-172
    if k ∈ s.gone then
      match s.phase with
      | .live _ l => { s with phase := .live (some s.fresh) (l.filter fun j => j ∉ s.gone), fresh := s.fresh + 1 }
      | _ => s
    else s

/-- The state after a history. -/
def exec (C : Cfg α σ) (ls : List (Lbl α ε)) : St α ε σ := ls.foldl (step C) { store := C.store.init }

end Rpp.Subj.Conc
