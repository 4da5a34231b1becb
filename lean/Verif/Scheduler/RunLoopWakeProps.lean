import Verif.Scheduler.RunLoopWake

/-!
# C110: run_loop's `dispatch()` sleeps while there is nothing to do, and is woken

* No wake-up is lost: while a `dispatch()` sleeps, every task in the queue has somebody who will look after it: another `dispatch()` that is awake, or
  a `schedule` that has yet to notify (`C110_woken`, `C110_not_forgotten`).
* A `dispatch()` falls asleep only over an empty queue, and over an empty queue it does (`C110_empty_partial`).
* It never sleeps while a task waits for its time: it looks at the queue again and again until then (`C110_sleeps_refutes`, `C110_spins`).
-/

namespace Rpp.Sched.Wake
open Rpp.Sched

/-! ## Specification -/

/-- A call of `dispatch()` goes to sleep, after some steps of its own, as long as no task is due or cancelled.  Specification; models no code. -/
def Sleeps : Prop := ∀ (ls : List Lbl) (k : Nat), k ∈ (exec ls).awake →
  (∀ e ∈ (exec ls).queue, (exec ls).now < e.tp ∧ e.id ∉ (exec ls).off) →
  ∃ n dl, (k, dl) ∈ (exec (ls ++ List.replicate n (.pop k))).asleep

/-! ## Theorems -/

/-- **C110 (no lost wake-up).** While a `dispatch()` sleeps, there are at most as many tasks in the queue as calls that have added a task and have yet to notify, and other
`dispatch()`es that are awake. -/
theorem C110_woken (ls : List Lbl) (h : (exec ls).asleep ≠ []) : (exec ls).queue.length ≤ (exec ls).ring + (exec ls).awake.length := (inv_exec ls).woken h

/-- **C110 (nothing is forgotten).** If a `dispatch()` sleeps, no other `dispatch()` is awake and every `schedule` has returned, the queue is empty. -/
theorem C110_not_forgotten (ls : List Lbl) (h : (exec ls).asleep ≠ []) (h1 : (exec ls).awake = []) (h2 : (exec ls).ring = 0) : (exec ls).queue = [] := by
  have := C110_woken ls h
  rw [h1, h2] at this
  exact List.length_eq_zero_iff.1 (Nat.le_zero.1 this)

/-- **C110 (asleep over an empty queue).** A step after which a `dispatch()` sleeps that did not sleep before was its own look at an empty queue; and looking at an empty queue it
falls asleep, without a deadline.  Missing for the full claim: sleep until the first task is due (`C110_sleeps_refutes`). -/
theorem C110_empty_partial (ls : List Lbl) (k : Nat) :
    (∀ l dl, (k, dl) ∈ (exec (ls ++ [l])).asleep → (k, dl) ∉ (exec ls).asleep → l = .pop k ∧ (exec ls).queue = []) ∧
    (k ∈ (exec ls).awake → (exec ls).queue = [] → (k, none) ∈ (exec (ls ++ [.pop k])).asleep) := by
  rw [show ∀ l, exec (ls ++ [l]) = step (exec ls) l from fun l => exec_append ls [l]]
  constructor
  · intro l dl h hn
    rw [show exec (ls ++ [l]) = step (exec ls) l from exec_append ls [l]] at h
    have hw : ∀ (s : St) (i : Nat), (k, dl) ∈ (s.wake i).asleep → (k, dl) ∈ s.asleep := by
      intro s i h
      unfold St.wake at h
      split at h
      · exact List.mem_of_mem_eraseIdx h
      · exact h
    cases l with
    | tick d => exact (hn h).elim
    | schedule e => exact (hn h).elim
    | add e => simp only [step] at h; split at h <;> exact (hn h).elim
    | ring i =>
      simp only [step] at h
      split at h
      · exact (hn h).elim
      · split at h
        · exact (hn h).elim
        · split at h
          · have h' := hw _ _ h
            exact (hn h').elim
          · exact (hn h).elim
    | dispatch => exact (hn h).elim
    | dispatchIfReady => exact (hn h).elim
    | pop j =>
      simp only [step] at h
      split at h
      · unfold St.pop at h
        split at h
        · rename_i hq
          rcases List.mem_append.1 h with h | h
          · exact (hn h).elim
          · rw [List.mem_singleton] at h; injection h with h1 h2; subst h1; exact ⟨rfl, hq⟩
        · rename_i top rest hq
          rw [pred_true hq] at h
          split at h <;> exact (hn h).elim
      · split at h
        · unfold St.popIfReady at h
          split at h
          · exact (hn h).elim
          · split at h <;> exact (hn h).elim
        · exact (hn h).elim
    | wake i => exact (hn (hw _ _ h)).elim
    | dispose id => exact (hn h).elim
    | ret j again => simp only [step] at h; split at h <;> exact (hn h).elim
  · intro hk hq
    simp [step, hk, St.pop, hq]

/-- **C110 (what happens instead).** While the head of the queue is neither due nor cancelled, a `dispatch()` that is awake stays awake however often it looks at the queue, and changes
nothing. -/
theorem C110_spins (ls : List Lbl) (k : Nat) (hk : k ∈ (exec ls).awake) (top : Ent) (rest : List Ent) (hq : (exec ls).queue = top :: rest)
    (h1 : (exec ls).now < top.tp) (h2 : top.id ∉ (exec ls).off) (n : Nat) : exec (ls ++ List.replicate n (.pop k)) = exec ls := by
  rw [exec_append]
  refine spin_many hk hq ?_ n
  simp only [ready, hq, Bool.or_eq_false_iff, decide_eq_false_iff_not, List.contains_iff_mem]
  exact ⟨by simpa using h2, by omega⟩

/-- One task is due in a hundred units; a `dispatch()` is called.  An example; no counterpart in /repo. -/
def later : List Lbl := [.schedule ⟨100, 0⟩, .add ⟨100, 0⟩, .ring 0, .dispatch]

/-- **C110 (it does not sleep).** The claim that a `dispatch()` sleeps while no task is due is false: with one task due later it stays awake for ever. -/
theorem C110_sleeps_refutes : ¬ Sleeps := by
  intro h
  obtain ⟨n, dl, hn⟩ := h later 0 (by decide) (by decide)
  rw [C110_spins later 0 (by decide) ⟨100, 0⟩ [] (by decide) (by decide) (by decide) n] at hn
  revert hn
  rw [show (exec later).asleep = [] by decide]
  exact fun h => by cases h

/-- Two `dispatch()`es sleep, a task is added: before the notification both sleep, after it one is awake.  An example; no counterpart in /repo. -/
def two : List Lbl := [.dispatch, .dispatch, .pop 0, .pop 1, .schedule ⟨0, 7⟩, .add ⟨0, 7⟩]

example : (exec two).asleep = [(0, none), (1, none)] ∧ (exec two).queue = [⟨0, 7⟩] ∧ (exec two).ring = 1 := by decide
example : (exec (two ++ [.ring 1])).asleep = [(0, none)] ∧ (exec (two ++ [.ring 1])).awake = [1] ∧ (exec (two ++ [.ring 1])).queue.length = 1 := by decide
example : (exec (two ++ [.ring 1, .pop 1])).asleep ≠ [] ∧ (exec (two ++ [.ring 1, .pop 1])).awake = [] ∧ (exec (two ++ [.ring 1, .pop 1])).ring = 0 ∧
    (exec (two ++ [.ring 1, .pop 1])).busy = [(1, ⟨0, 7⟩)] := by decide
example : (exec (later ++ [.tick 100, .pop 0])).busy = [(0, ⟨100, 0⟩)] := by decide
example : 0 ∈ (exec later).awake ∧ (exec later).queue = [⟨100, 0⟩] ∧ (exec later).now < 100 := by decide

end Rpp.Sched.Wake
