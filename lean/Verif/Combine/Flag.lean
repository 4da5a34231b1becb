import Verif.Combine.SerialProofs
import Verif.Disposable.Capacity

/-!
# The subscriber's disposed flag (C97): model and specification

The observer of a subscriber has a flag "disposed" (observers/details/disposable_strategy.hpp 22-98), a plain `bool` or an atomic
one. Which of the two is chosen at compile time from the chain of operators (observables/details/disposable_strategy.hpp 18-105).
The functions of the observer test the flag, the terminal ones set it; they are called by the observer above it in the chain. Which
threads do that follows from the operators of the chain: the network of `Verif.Combine.Locks` with one object per observer.
-/

namespace Rpp.Flag

open Rpp.Locks Rpp.Capacity

/-- The flag is atomic. observables/details/disposable_strategy.hpp 18-71: the default selector is atomic (39-47), the fixed and bool
ones are not unless they say so, `add` keeps the mode. Who uses which: see `Rpp.Capacity.Obsv.sel`; subjects use the atomic one
(subjects/details/subject_state.hpp 75). -/
def atomic : Obsv → Bool
  | .from | .interval | .empty | .never | .error => false
  | .create | .dynamic => true
  | .subject | .forwarding | .connectable | .refCount => true
  | .defer o | .blocking o | .finally o | .debounce o => atomic o
  | .fwd _ o => atomic o
  | .own _ _ => false
  | .dflt _ _ => true

/-- What an operator does with the calls of its observer:
- `pass`: it calls the observer below it in the same call, and its `is_disposed` asks the observer below (operators/map.hpp 42,
  operators/take.hpp 49, …);
- `locks`: it calls the observer below with its mutex held and answers `is_disposed` from its own state, or with its mutex held
  (operators/merge.hpp 72, operators/concat.hpp 135, operators/switch_on_next.hpp 77, operators/debounce.hpp 124,
  operators/timeout.hpp 78, operators/window_toggle.hpp 182, operators/with_latest_from.hpp 62, operators/take_until.hpp 67,
  operators/details/combining_strategy.hpp 61);
- `hand`: it calls the observer below from its worker's thread, but `is_disposed` and observe_on's `on_error` do so in the caller's
  (delay, observe_on: operators/delay.hpp 76-79, 113-120, 135-165). -/
inductive Kind where
  | pass | locks | hand
deriving DecidableEq, Repr

/-- What the topmost observer of the chain is called by: one thread (at a time), or any threads (a subject asks `is_disposed` when
another subscription is disposed of, subjects/details/subject_state.hpp 54-64, 159-172; the function given to `create` may do what it
likes). -/
inductive Top where
  | alone | shared
deriving DecidableEq, Repr

/-- The operators above the subscriber, the nearest first, up to the source. Simplified: an operator that answers `is_disposed` from its own state and has
no mutex (group_by.hpp 90, window.hpp 88, retry.hpp 86, retry_when.hpp 84) counts as a source: that it is notified by one thread at a
time is assumed, not derived. on_error_resume_next.hpp 45, 91 counts as a shared source. `finally` and `subscribe_on` give the
observer to the source as it is (finally.hpp 37-38, subscribe_on.hpp 47-52), as do defer and the blocking observable. -/
def path : Obsv → List Kind × Top
  | .from | .interval | .empty | .never | .error => ([], .alone)
  | .create | .dynamic => ([], .shared)
  | .subject | .forwarding | .connectable | .refCount => ([], .shared)
  | .defer o | .blocking o | .finally o => path o
  | .fwd .delayOp o => (.hand :: (path o).1, (path o).2)
  | .fwd .subscribeOn o => path o
  | .fwd _ o => (.pass :: (path o).1, (path o).2)
  | .debounce o => (.locks :: (path o).1, (path o).2)
  | .own .groupBy _ | .own .window _ | .own .retry _ | .own .retryWhen _ => ([], .alone)
  | .own _ o => (.locks :: (path o).1, (path o).2)
  | .dflt .onErrorResumeNext _ => ([], .shared)
  | .dflt _ o => (.locks :: (path o).1, (path o).2)

/-- The network is that of the chain. Object `0` is the subscriber's observer, object `d + 1` the observer of the `d`-th operator above
it. Observer `d` is called by the operator above it, under its mutex if it has one, and by nobody else, except that
- the topmost one is called by thread `0`, the source's, or by any thread if the source is shared;
- that of an operator with several sources is called by any threads, and so is that of delay, whose worker has a thread of its own.
Simplified: what is called while the chain is being built (`set_upstream`) is left out, as no other thread knows the observers then;
callbacks do not call the observers above (the case of C69). -/
structure Wired (o : Obsv) (net : Net) (progs : List (List Target)) : Prop where
  fn : ∀ d j e k y, net.next j e k = some y → y.node = some (.obj d) → d ≤ (path o).1.length →
    j = d + 1 ∧ ((path o).1[d]? = some .pass ∧ e.aside = false ∨ (path o).1[d]? = some .locks ∧ e.lockedBy 0 = true ∨
      (path o).1[d]? = some .hand)
  user : ∀ d u k, ∀ y ∈ net.user u k, y.node = some (.obj d) → (path o).1.length < d
  prog : ∀ d r p, progs[r]? = some p → ∀ y ∈ p, y.node = some (.obj d) →
    d = (path o).1.length ∧ (r = 0 ∨ (path o).2 = .shared) ∨
    (∃ c, d = c + 1 ∧ ((path o).1[c]? = some .locks ∨ (path o).1[c]? = some .hand)) ∨ (path o).1.length < d

/-- Thread `t` is about to test the flag: every function of the observer begins so (observers/observer.hpp 84-145, 152-155). Function
`calls 0` is `is_disposed`, `calls 1` is `on_next`, `calls 2` are the terminal ones. -/
def Tests (s : St) (t : Nat) : Prop := ∃ e fs, s.stack t = .fn 0 e e.code [] :: fs ∧ e.aside = false

/-- Thread `t` is about to set the flag: a terminal function has made the first of its two calls, that of the callback; then it sets
the flag, and the second call disposes the upstreams (observers/observer.hpp 120-145, observers/details/disposable_strategy.hpp
87-92). -/
def Sets (s : St) (t : Nat) : Prop := ∃ fs, s.stack t = .fn 0 (.calls 2) [.down] [] :: fs

/-- A data race on the flag: two threads are about to access it, one of them to set it, and it is not atomic. -/
def Race (o : Obsv) (s : St) : Prop := atomic o = false ∧ ∃ t u, t ≠ u ∧ Sets s t ∧ (Tests s u ∨ Sets s u)

/-- The nearest operator above the subscriber that does not just pass calls on is delay or observe_on. -/
def behindDelay (o : Obsv) : Bool := ((path o).1.find? (· != .pass)) == some .hand

end Rpp.Flag
