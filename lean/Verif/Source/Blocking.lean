import Verif.Core.Props
import Verif.Scheduler.CurrentThreadProofs

/-!
# `as_blocking`

Models `/repo/src/rpp/rpp/observables/blocking_observable.hpp` 22-73 (`blocking_disposable`,
`blocking_strategy::subscribe`) and the part of `disposables/details/base_disposable.hpp` 36-41 it relies on.

One thread calls `subscribe` and waits; any number of other threads dispose the blocking disposable, some of them
because they delivered the terminal notification (observer.hpp 120-144: callback first, then the upstreams are
disposed), some because the subscription was disposed.  Steps interleave arbitrarily; the waiting thread may wake up
spuriously.  Mutex and condition variable are as in the C++ standard: `wait` releases the mutex and starts sleeping in
one step, `notify_all` wakes who is asleep at that moment.  Memory orders are not modelled.
-/

namespace Rpp.Blocking

/-- The waiting thread, blocking_observable.hpp 64-73 and 26-30. -/
inductive WPc where
  | subscribing   -- in `m_original.subscribe(std::move(obs))`, 68
  | check         -- `if (!d.is_disposed())`, 70
  | lock          -- `std::unique_lock lock{m_mutex}`, 28
  | test          -- the predicate of `m_cv.wait`, 29, mutex held
  | asleep        -- inside `m_cv.wait`, mutex released
  | relock        -- woken, before taking the mutex again
  | returned      -- `subscribe` has returned
deriving DecidableEq, Repr

/-- A disposing thread: the terminal callback if it is a terminal notification, then `dispose_impl`
(base_disposable.hpp 36-41) and `base_dispose_impl` (blocking_observable.hpp 32-39). -/
inductive DPc where
  | start
  | exchange      -- `m_disposed.exchange(true)`
  | lock
  | set           -- `m_completed = true`, mutex held
  | unlock
  | notify        -- `m_cv.notify_all()`
  | done
deriving DecidableEq, Repr

/-- Who holds `m_mutex`. (observables/blocking_observable.hpp 20-90) -/
inductive Who where
  | waiter
  | disposer (k : Nat)
deriving DecidableEq, Repr

/-- Observable events: terminal callback of thread `k` executed; thread `k` begins to dispose; `subscribe` returns. -/
inductive Ev where
  | callback (k : Nat)
  | dispose (k : Nat)
  | ret
deriving DecidableEq, Repr

/-- State: the members of the objects of observables/blocking_observable.hpp 20-90, what the running calls are doing, and the log. -/
structure St where
  flag : Bool := false        -- `m_disposed`
  completed : Bool := false   -- `m_completed`
  mutex : Option Who := none
  w : WPc := .subscribing
  d : Nat → DPc := fun _ => .start
  log : List Ev := []

/-- Log an event; no counterpart in /repo. -/
def St.emit (s : St) (ev : Ev) : St := { s with log := s.log ++ [ev] }
/-- Replace one component of the state; no counterpart in /repo. -/
def St.setD (s : St) (k : Nat) (p : DPc) : St := { s with d := fun i => if i = k then p else s.d i }

/-- One step of the waiting thread. (observables/blocking_observable.hpp 20-90) -/
def wstep (s : St) : St :=
  match s.w with
  | .subscribing => { s with w := .check }
  | .check => if s.flag then { s with w := .returned }.emit .ret else { s with w := .lock }
  | .lock => if s.mutex = none then { s with mutex := some .waiter, w := .test } else s
  | .test =>
    if s.completed then { s with mutex := none, w := .returned }.emit .ret
    else { s with mutex := none, w := .asleep }
  | .asleep => s
  | .relock => if s.mutex = none then { s with mutex := some .waiter, w := .test } else s
  | .returned => s

/-- One step of disposing thread `k`; `term k` says whether it delivers a terminal notification first. (observables/blocking_observable.hpp 20-90) -/
def dstep (term : Nat → Bool) (s : St) (k : Nat) : St :=
  match s.d k with
  | .start => if term k then (s.setD k .exchange).emit (.callback k) else s.setD k .exchange
  | .exchange =>
    if s.flag then (s.setD k .done).emit (.dispose k)
    else ({ s with flag := true }.setD k .lock).emit (.dispose k)
  | .lock => if s.mutex = none then { s with mutex := some (.disposer k) }.setD k .set else s
  | .set => { s with completed := true }.setD k .unlock
  | .unlock => { s with mutex := none }.setD k .notify
  | .notify => St.setD { s with w := if s.w = .asleep then .relock else s.w } k .done
  | .done => s

/-- What may happen next; the choice is arbitrary; no counterpart in /repo. -/
inductive Lbl where
  | waiter
  | disposer (k : Nat)
  | spurious
deriving DecidableEq, Repr

/-- One step; the single cases cite the lines of observables/blocking_observable.hpp 20-90 they model. -/
def step (term : Nat → Bool) (s : St) : Lbl → St
  | .waiter => wstep s
  | .disposer k => dstep term s k
  | .spurious => { s with w := if s.w = .asleep then .relock else s.w }

/-- The state after a sequence of steps; no counterpart in /repo. -/
def exec (term : Nat → Bool) (ls : List Lbl) : St := ls.foldl (step term) {}

/-! ## Proofs -/

variable {term : Nat → Bool}

/-- The thread is past the exchange and has not finished: it is the one that disposes. -/
def DPc.mid : DPc → Bool
  | .lock | .set | .unlock | .notify => true
  | _ => false

/-- Read off the state or the log, for statements and proofs; no counterpart in /repo. -/
def DPc.holds : DPc → Bool
  | .set | .unlock => true
  | _ => false

/-- Read off the state or the log, for statements and proofs; no counterpart in /repo. -/
def DPc.late : DPc → Bool
  | .unlock | .notify => true
  | _ => false

/-- The invariant. -/
structure Inv (term : Nat → Bool) (s : St) : Prop where
  mw : s.mutex = some .waiter ↔ s.w = .test
  md : ∀ k, s.mutex = some (.disposer k) ↔ (s.d k).holds = true
  one : ∀ i j, (s.d i).mid = true → (s.d j).mid = true → i = j
  flag : ∀ k, (s.d k).mid = true → s.flag = true
  comp : s.completed = true → s.flag = true ∧ ∀ k, (s.d k).mid = true → (s.d k).late = true
  late : ∀ k, (s.d k).late = true → s.completed = true
  /-- somebody who disposed is still on the way, or has done everything -/
  won : s.flag = true → s.completed = true ∨ ∃ k, (s.d k).mid = true
  /-- nobody sleeps for ever -/
  wake : s.w = .asleep → s.completed = true → ∃ k, (s.d k).late = true
  ret : .ret ∈ s.log → s.flag = true
  dis : s.flag = true → ∃ k, .dispose k ∈ s.log
  legal : ∀ pre post, s.log = pre ++ .ret :: post → ∃ k, .dispose k ∈ pre
  cb : ∀ pre k post, s.log = pre ++ .dispose k :: post → term k = true → .callback k ∈ pre
  cbs : ∀ k, s.d k ≠ .start → term k = true → .callback k ∈ s.log
  retw : s.w = .returned ↔ .ret ∈ s.log

theorem Inv.init : Inv term {} := by
  constructor <;> simp [DPc.mid, DPc.holds, DPc.late]

theorem Inv.step {s : St} (h : Inv term s) (l : Lbl) : Inv term (Blocking.step term s l) := by
  obtain ⟨h1, h2, h3, h4, h5, h6, h7, h8, h9, h10, h11, h12, h13, h14⟩ := h
  cases l with
  | spurious =>
    simp only [Blocking.step]
    constructor <;> simp only <;> (try assumption) <;> grind
  | waiter =>
    simp only [Blocking.step, wstep]
    split
    · constructor <;> simp only <;> (try assumption) <;> grind
    · split
      · constructor <;> simp only [St.emit] <;> (try assumption)
        · grind
        · grind
        · grind
        · grind
        · intro pre post he
          rcases Sched.QueueRun.snoc_eq he with ⟨rfl, _, _⟩ | ⟨post', _, h'⟩
          · exact h10 (by assumption)
          · exact h11 _ _ h'
        · intro pre k post he
          rcases Sched.QueueRun.snoc_eq he with ⟨_, h', _⟩ | ⟨post', _, h'⟩
          · cases h'
          · exact h12 _ _ _ h'
        · grind
        · grind
      · constructor <;> simp only <;> (try assumption) <;> grind
    · split
      · constructor <;> simp only <;> (try assumption) <;> grind
      · exact ⟨h1, h2, h3, h4, h5, h6, h7, h8, h9, h10, h11, h12, h13, h14⟩
    · split
      · constructor <;> simp only [St.emit] <;> (try assumption)
        · grind
        · grind
        · grind
        · grind
        · grind
        · intro pre post he
          rcases Sched.QueueRun.snoc_eq he with ⟨rfl, _, _⟩ | ⟨post', _, h'⟩
          · exact h10 (h5 (by assumption)).1
          · exact h11 _ _ h'
        · intro pre k post he
          rcases Sched.QueueRun.snoc_eq he with ⟨_, h', _⟩ | ⟨post', _, h'⟩
          · cases h'
          · exact h12 _ _ _ h'
        · grind
        · grind
      · constructor <;> simp only <;> (try assumption) <;> grind
    · exact ⟨h1, h2, h3, h4, h5, h6, h7, h8, h9, h10, h11, h12, h13, h14⟩
    · split
      · constructor <;> simp only <;> (try assumption) <;> grind
      · exact ⟨h1, h2, h3, h4, h5, h6, h7, h8, h9, h10, h11, h12, h13, h14⟩
    · exact ⟨h1, h2, h3, h4, h5, h6, h7, h8, h9, h10, h11, h12, h13, h14⟩
  | disposer k =>
    simp only [Blocking.step, dstep]
    split
    · rename_i hk
      split
      · constructor <;> simp only [St.emit, St.setD] <;> (try assumption)
        · grind [DPc.mid, DPc.holds, DPc.late]
        · grind [DPc.mid, DPc.holds, DPc.late]
        · grind [DPc.mid, DPc.holds, DPc.late]
        · grind [DPc.mid, DPc.holds, DPc.late]
        · grind [DPc.mid, DPc.holds, DPc.late]
        · intro hf
          rcases h7 hf with h | ⟨i, hi⟩
          · exact .inl h
          · exact .inr ⟨i, by grind [DPc.mid]⟩
        · intro ha hc
          obtain ⟨i, hi⟩ := h8 ha hc
          exact ⟨i, by grind [DPc.late]⟩
        · grind
        · intro hf
          obtain ⟨i, hi⟩ := h10 hf
          exact ⟨i, by simp [hi]⟩
        · intro pre post he
          rcases Sched.QueueRun.snoc_eq he with ⟨_, h', _⟩ | ⟨post', _, h'⟩
          · cases h'
          · exact h11 _ _ h'
        · intro pre k post he
          rcases Sched.QueueRun.snoc_eq he with ⟨_, h', _⟩ | ⟨post', _, h'⟩
          · cases h'
          · exact h12 _ _ _ h'
        · grind
        · grind
      · constructor <;> simp only [St.emit, St.setD] <;> (try assumption)
        · grind [DPc.mid, DPc.holds, DPc.late]
        · grind [DPc.mid, DPc.holds, DPc.late]
        · grind [DPc.mid, DPc.holds, DPc.late]
        · grind [DPc.mid, DPc.holds, DPc.late]
        · grind [DPc.mid, DPc.holds, DPc.late]
        · intro hf
          rcases h7 hf with h | ⟨i, hi⟩
          · exact .inl h
          · exact .inr ⟨i, by grind [DPc.mid]⟩
        · intro ha hc
          obtain ⟨i, hi⟩ := h8 ha hc
          exact ⟨i, by grind [DPc.late]⟩
        · grind
    · rename_i hk
      have hcb : term k = true → .callback k ∈ s.log := h13 k (by simp [hk])
      have hlog : ∀ pre k' post, s.log ++ [Ev.dispose k] = pre ++ .dispose k' :: post → term k' = true →
          .callback k' ∈ pre := by
        intro pre k' post he
        rcases Sched.QueueRun.snoc_eq he with ⟨rfl, h', _⟩ | ⟨post', _, h'⟩
        · cases h'; exact hcb
        · exact h12 _ _ _ h'
      have hleg : ∀ pre post, s.log ++ [Ev.dispose k] = pre ++ .ret :: post → ∃ k', .dispose k' ∈ pre := by
        intro pre post he
        rcases Sched.QueueRun.snoc_eq he with ⟨_, h', _⟩ | ⟨post', _, h'⟩
        · cases h'
        · exact h11 _ _ h'
      split
      · constructor <;> simp only [St.emit, St.setD] <;> (try assumption)
        · grind [DPc.mid, DPc.holds, DPc.late]
        · grind [DPc.mid, DPc.holds, DPc.late]
        · grind [DPc.mid, DPc.holds, DPc.late]
        · grind [DPc.mid, DPc.holds, DPc.late]
        · grind [DPc.mid, DPc.holds, DPc.late]
        · intro hf
          rcases h7 hf with h | ⟨i, hi⟩
          · exact .inl h
          · exact .inr ⟨i, by grind [DPc.mid]⟩
        · intro ha hc
          obtain ⟨i, hi⟩ := h8 ha hc
          exact ⟨i, by grind [DPc.late]⟩
        · grind
        · exact fun _ => ⟨k, by simp⟩
        · grind
        · grind
      · rename_i hf
        have hnm : ∀ i, (s.d i).mid = false := fun i => by
          cases hi : (s.d i).mid
          · rfl
          · exact absurd (h4 i hi) hf
        have hnc : s.completed = false := by
          cases hc : s.completed
          · rfl
          · exact absurd (h5 hc).1 hf
        constructor <;> simp only [St.emit, St.setD] <;> (try assumption)
        · grind [DPc.mid, DPc.holds, DPc.late]
        · grind [DPc.mid, DPc.holds, DPc.late]
        · grind [DPc.mid, DPc.holds, DPc.late]
        · grind [DPc.mid, DPc.holds, DPc.late]
        · grind [DPc.mid, DPc.holds, DPc.late]
        · exact fun _ => .inr ⟨k, by simp [DPc.mid]⟩
        · intro _ hc
          simp [hnc] at hc
        · grind
        · exact fun _ => ⟨k, by simp⟩
        · grind
        · grind
    · rename_i hk
      split
      · have hc : s.completed = false := by
          cases hc : s.completed
          · rfl
          · have := (h5 hc).2 k (by simp [hk, DPc.mid])
            simp [hk, DPc.late] at this
        constructor <;> simp only [St.setD] <;> (try assumption)
        · grind [DPc.mid, DPc.holds, DPc.late]
        · grind [DPc.mid, DPc.holds, DPc.late]
        · grind [DPc.mid, DPc.holds, DPc.late]
        · grind [DPc.mid, DPc.holds, DPc.late]
        · grind [DPc.mid, DPc.holds, DPc.late]
        · grind [DPc.mid, DPc.holds, DPc.late]
        · exact fun _ => .inr ⟨k, by simp [DPc.mid]⟩
        · intro _ hc'
          simp [hc] at hc'
        · grind
      · exact ⟨h1, h2, h3, h4, h5, h6, h7, h8, h9, h10, h11, h12, h13, h14⟩
    · rename_i hk
      constructor <;> simp only [St.setD] <;> (try assumption)
      · grind [DPc.mid, DPc.holds, DPc.late]
      · grind [DPc.mid, DPc.holds, DPc.late]
      · grind [DPc.mid, DPc.holds, DPc.late]
      · grind [DPc.mid, DPc.holds, DPc.late]
      · grind [DPc.mid, DPc.holds, DPc.late]
      · grind
      · exact fun _ _ => ⟨k, by simp [DPc.late]⟩
      · grind
    · rename_i hk
      constructor <;> simp only [St.setD] <;> (try assumption)
      · grind [DPc.mid, DPc.holds, DPc.late]
      · grind [DPc.mid, DPc.holds, DPc.late]
      · grind [DPc.mid, DPc.holds, DPc.late]
      · grind [DPc.mid, DPc.holds, DPc.late]
      · grind [DPc.mid, DPc.holds, DPc.late]
      · grind [DPc.mid, DPc.holds, DPc.late]
      · exact fun _ => .inr ⟨k, by simp [DPc.mid]⟩
      · exact fun _ _ => ⟨k, by simp [DPc.late]⟩
      · grind
    · rename_i hk
      have hc := h6 k (by simp [hk, DPc.late])
      constructor <;> simp only [St.setD] <;> (try assumption)
      · grind [DPc.mid, DPc.holds, DPc.late]
      · grind [DPc.mid, DPc.holds, DPc.late]
      · grind [DPc.mid, DPc.holds, DPc.late]
      · grind [DPc.mid, DPc.holds, DPc.late]
      · grind [DPc.mid, DPc.holds, DPc.late]
      · grind [DPc.mid, DPc.holds, DPc.late]
      · exact fun _ => .inl hc
      · intro ha
        split at ha <;> simp_all
      · grind
      · grind
    · exact ⟨h1, h2, h3, h4, h5, h6, h7, h8, h9, h10, h11, h12, h13, h14⟩

theorem exec_inv (ls : List Lbl) : Inv term (exec term ls) := by
  refine Sched.snoc_ind (P := fun ls => Inv term (exec term ls)) Inv.init ?_ ls
  intro ls l ih
  simpa [exec] using ih.step l

end Rpp.Blocking
