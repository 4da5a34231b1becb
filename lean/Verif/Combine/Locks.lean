import Verif.Combine.Reentry

/-!
# Mutexes across threads (C95)

Any number of threads call into a network of operators, subjects and scheduler queues; each function locks and unlocks the
mutexes of its object and calls others, as in `Verif.Combine.Reentry` (C69, one thread, `on_next` only).  Here the terminal
notifications, subscribing, disposing, the timed operators and the schedulers' queues are included.  Values are not modelled,
only control flow and locks; whom a call goes to is given by the network, for every call anew.
-/

namespace Rpp.Locks

open Rpp.Emit (Instr Port)

/-- The functions called from outside an object.
- `next`: `on_next` (`Rpp.Emit.Port`);
- `guarded n`: `n` calls of the observer under its mutex: `on_error`, `on_completed`, `set_upstream` of merge (operators/merge.hpp
  75-85, 32), zip and combine_latest (operators/details/combining_strategy.hpp 54-73), with_latest_from (operators/with_latest_from.hpp
  72-75, 115-123), switch_on_next (operators/switch_on_next.hpp 62-72), concat (operators/concat.hpp 124-127), timeout
  (operators/timeout.hpp 89-101), the expiry of timeout (137-147), window_toggle (operators/window_toggle.hpp 60-66, 89-95, 164-179),
  observe_on's `on_error` (operators/delay.hpp 113-120);
- `calls n`: `n` calls with no mutex held, for all that has none: map, filter, …, among them the calls of `is_disposed` that come
  before each notification (observers/observer.hpp 84-145) and get to a take_until;
- `takeUntil`: every function of the two observers of take_until (operators/take_until.hpp 47-59, 65-81), after `is_disposed`;
- `ask`: `is_disposed` of take_until (operators/take_until.hpp 61), which calls the `is_disposed` below it;
- `subjectEnd ser n k`: `on_error`, `on_completed` of a subject with `n` observers, whose own disposable has `k` children
  (subjects/details/subject_state.hpp 133-157);
- `subscribe`: subscribing to a subject (80-110);
- `leave n`: disposing a subscription to a subject (54-64): `cleanup_observers` (159-172) calls `is_disposed` of the others under
  the mutex, and `n` of these get to a take_until;
- `delayPut`, `delayDrain n`: delay, observe_on (operators/delay.hpp 97-133, 135-165);
- `debounceNext`, `debounceFire`, `debounceEnd`: operators/debounce.hpp 47-58, 71-99, 138-144 (mutex `1` is `m_mutex`);
- `put`: a worker's queue gets a schedulable (schedulers/details/queue.hpp 251-270, schedulers/run_loop.hpp 44-50);
- `pump n`: the thread of a worker looks for what to run, asking `is_disposed` of the first schedulable, `n` times getting to a
  take_until (schedulers/new_thread.hpp 67-97; a `recursive_mutex`, but nothing called there locks it again; schedulers/run_loop.hpp
  52-71, 89-92);
- `connect`: `connect` and the subscription of ref_count (observables/connectable_observable.hpp 52-61, 100-115).
Calls of the network may go to nobody, so that a body with more calls covers one with fewer. -/
inductive Entry where
  | next (p : Port)
  | guarded (n : Nat)
  | calls (n : Nat)
  | takeUntil
  | ask
  | subjectEnd (ser : Bool) (n k : Nat)
  | subscribe
  | leave (n : Nat)
  | delayPut
  | delayDrain (n : Nat)
  | debounceNext
  | debounceFire
  | debounceEnd
  | put
  | pump (n : Nat)
  | connect
deriving DecidableEq, Repr

/-- The bodies, as far as locks and calls are concerned; see `Entry` for the places (subjects/details/subject_state.hpp 112-157,
operators/delay.hpp 97-165, operators/debounce.hpp 47-144, operators/take_until.hpp 47-61). -/
def Entry.code : Entry → List Instr
  | .next p => p.code
  | .guarded n => .lock 0 :: List.replicate n .down ++ [.unlock 0]
  | .calls n => List.replicate n .down
  | .takeUntil => [.lock 0, .down, .unlock 0, .lock 0, .down, .unlock 0]
  | .ask => [.lock 0, .down, .unlock 0]
  | .subjectEnd ser n k =>
    (if ser then [.lock 1] else []) ++ [.lock 0, .unlock 0] ++ List.replicate n .down ++ (if ser then [.unlock 1] else []) ++
      [.lock 0, .unlock 0] ++ List.replicate k .down
  | .subscribe => [.lock 0, .unlock 0, .down]
  | .leave n => .lock 0 :: List.replicate n .down ++ [.unlock 0]
  | .delayPut => [.lock 0, .unlock 0, .down]
  | .delayDrain n => (List.replicate n [.lock 0, .unlock 0, .down]).flatten ++ [.lock 0, .unlock 0]
  | .debounceNext => [.lock 1, .down, .unlock 1]
  | .debounceFire => [.lock 1, .unlock 1, .lock 0, .down, .unlock 0]
  | .debounceEnd => [.lock 0, .lock 1, .unlock 1, .down, .down, .unlock 0]
  | .put => [.lock 0, .unlock 0]
  | .pump n => .lock 0 :: List.replicate n .down ++ [.unlock 0]
  | .connect => [.lock 0, .unlock 0, .down]

/-- Whom a call goes to: a function of an object, or a subscriber's callback. -/
inductive Target where
  | fn (i : Nat) (e : Entry)
  | user (u : Nat)
deriving DecidableEq, Repr

/-- The network: whom the call with number `k` (of all calls made) goes to if function `e` of object `i` makes it, `none`: nobody
is there; what subscriber `u` calls in its callback. Both may change with every call. -/
structure Net where
  next : Nat → Entry → Nat → Option Target
  user : Nat → Nat → List Target

/-- Activation records: a function of an object with the rest of its body and the mutexes it holds; a callback, or the
outermost code of a thread (`none`), with the calls it still has to make. -/
inductive Frame where
  | fn (i : Nat) (e : Entry) (code : List Instr) (mine : List Nat)
  | cb (u : Option Nat) (todo : List Target)
deriving DecidableEq, Repr

/-- The threads' stacks, innermost first; who holds which mutex (object and number); the number of calls made. -/
structure St where
  stacks : List (List Frame)
  owner : Nat × Nat → Option Nat := fun _ => none
  calls : Nat := 0

/-- The stack of a thread. -/
def St.stack (s : St) (t : Nat) : List Frame := s.stacks.getD t []

/-- Replace a stack; no counterpart in /repo. -/
def St.put (s : St) (t : Nat) (fs : List Frame) : St := { s with stacks := s.stacks.set t fs }

/-- Lock or unlock a mutex (`std::mutex`). -/
def St.own (s : St) (x : Nat × Nat) (o : Option Nat) : St := { s with owner := fun y => if y = x then o else s.owner y }

variable (net : Net)

/-- Call a function, or a callback. -/
def St.enter (s : St) (t : Nat) (below : List Frame) : Option Target → St
  | none => { s.put t below with calls := s.calls + 1 }
  | some (.fn i e) => { s.put t (.fn i e e.code [] :: below) with calls := s.calls + 1 }
  | some (.user u) => { s.put t (.cb (some u) (net.user u s.calls) :: below) with calls := s.calls + 1 }

/-- One step of thread `t`; nothing happens if it waits for a mutex, or is over. -/
def step (s : St) (t : Nat) : St :=
  match s.stack t with
  | [] => s
  | .fn _ _ [] _ :: fs => s.put t fs
  | .fn i e (.lock m :: code) mine :: fs =>
    if s.owner (i, m) = none then (s.put t (.fn i e code (m :: mine) :: fs)).own (i, m) (some t) else s
  | .fn i e (.unlock m :: code) mine :: fs => (s.put t (.fn i e code (mine.erase m) :: fs)).own (i, m) none
  | .fn i e (.down :: code) mine :: fs => s.enter net t (.fn i e code mine :: fs) (net.next i e s.calls)
  | .cb _ [] :: fs => s.put t fs
  | .cb u (x :: todo) :: fs => s.enter net t (.cb u todo :: fs) (some x)

/-- The threads run these programs, in the order given by the schedule. -/
def run (progs : List (List Target)) (sched : List Nat) : St :=
  sched.foldl (step net) { stacks := progs.map (fun p => [.cb none p]) }

/-! ## Vocabulary of the statements -/

/-- Thread `t` wants the mutex `x`, which is locked. -/
def Blocked (s : St) (t : Nat) : Prop := ∃ i e m code mine fs, s.stack t = .fn i e (.lock m :: code) mine :: fs ∧ s.owner (i, m) ≠ none

/-- Thread `t` waits for a mutex that thread `u` holds. -/
def Waits (s : St) (t u : Nat) : Prop :=
  ∃ i e m code mine fs, s.stack t = .fn i e (.lock m :: code) mine :: fs ∧ s.owner (i, m) = some u

/-- … or for one held by a thread that waits in its turn for one held by …. -/
inductive Chain (s : St) : Nat → Nat → Prop where
  | one {t u} : Waits s t u → Chain s t u
  | more {t u v} : Waits s t u → Chain s u v → Chain s t v

/-- Thread `t` has something to do and does not wait. -/
def Able (s : St) (t : Nat) : Prop := s.stack t ≠ [] ∧ ¬ Blocked s t

/-- The functions called against the direction of the data flow: disposing a subscription to a subject; and putting something
into a queue. -/
def Entry.free : Entry → Bool
  | .leave _ | .put => true
  | _ => false

/-- The functions that call others while they hold a mutex. -/
def Entry.holds : Entry → Bool
  | .next .plain | .next (.latestOther _) | .next (.subject _) | .calls _ | .subscribe | .delayPut | .delayDrain _ | .put
  | .connect => false
  | .subjectEnd ser _ _ => ser
  | _ => true

/-- Level `r` is not above the level of `x`, and below it if `strict`. -/
def Below (ri ru : Nat → Nat) (r : Nat) (strict : Bool) : Target → Prop
  | .fn i e => e.free = true ∨ (r ≤ ri i ∧ (strict = true → r < ri i))
  | .user u => r ≤ ru u ∧ (strict = true → r < ru u)

/-- No cycle of calls contains one made under a mutex: objects and subscribers have levels; a call never goes to a lower one,
and one made under a mutex goes to a higher one. Disposing and scheduling are exempt. -/
structure Acyclic (ri ru : Nat → Nat) : Prop where
  fn : ∀ i e k x, net.next i e k = some x → Below ri ru (ri i) e.holds x
  user : ∀ u k, ∀ x ∈ net.user u k, Below ri ru (ru u) false x

/-- Functions of subjects and of queues. -/
def Entry.src : Entry → Bool
  | .next (.subject _) | .next (.serializedSubject _) | .subjectEnd .. | .subscribe | .leave _ | .put | .pump _ => true
  | _ => false

/-- No observer of a subject and no schedulable has a take_until below it. -/
def Entry.clean : Entry → Bool
  | .leave n | .pump n => n == 0
  | _ => true

/-- The function is called on an object that has it. -/
def Typed (src : Nat → Bool) : Target → Prop
  | .fn i e => e.src = src i
  | .user _ => True

/-- … and no take_until is below a subject or a scheduler. -/
def Fine (src : Nat → Bool) : Target → Prop
  | .fn i e => e.src = src i ∧ e.clean = true
  | .user _ => True

/-- `P` holds of everything that is ever called. -/
structure Everywhere (P : Target → Prop) (progs : List (List Target)) : Prop where
  fn : ∀ i e k x, net.next i e k = some x → P x
  user : ∀ u k, ∀ x ∈ net.user u k, P x
  prog : ∀ p ∈ progs, ∀ x ∈ p, P x

/-- `Fine` for everything that is ever called. -/
abbrev Clean (src : Nat → Bool) (progs : List (List Target)) : Prop := Everywhere net (Fine src) progs

end Rpp.Locks
