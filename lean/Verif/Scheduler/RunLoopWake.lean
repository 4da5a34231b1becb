import Verif.Scheduler.Queue

/-!
# C110: run_loop's `dispatch()` sleeps while there is nothing to do, and is woken

`Verif.Scheduler.RunLoop` lets a call that waits look at the queue again at any time.  Here the condition variable is modelled: a call that
sleeps goes on only after a notification (or a spurious wake-up, or the end of the time it may sleep), and a notification is lost if nobody sleeps.

Any number of threads call `schedule`, `dispatch` and `dispatch_if_ready`.  A critical section is one step; `notify_one` (run_loop.hpp 49) comes after the
mutex is released and is a step of its own.  The loop is not disposed of: that happens in its destructor only (run_loop.hpp 37).
-/

namespace Rpp.Sched.Wake
open Rpp.Sched

/-- `queue`: `m_queue`; `off`: the tasks whose handler is disposed of; `lock`: what calls of `emplace_and_notify` are about to add; `ring`: how many of them are between the
critical section and `notify_one`; `awake`: the calls of `dispatch` inside `pop` that do not sleep; `asleep`: those that sleep in `wait`
(no deadline) or `wait_for`; `peek`: the calls of `dispatch_if_ready` inside `pop`; `busy`: the calls that run a task; `next`: how many calls of either kind were made. (schedulers/run_loop.hpp 34-106, 156-166) -/
structure St where
  now : Int := 0
  queue : List Ent := []
  off : List Nat := []
  lock : List Ent := []
  ring : Nat := 0
  next : Nat := 0
  awake : List Nat := []
  asleep : List (Nat × Option Int) := []
  peek : List Nat := []
  busy : List (Nat × Ent) := []
deriving DecidableEq

/-- What may happen next: time passes; `schedule`; the call that is about to add `e` does so; a call notifies, and if anybody sleeps the `i`-th sleeper is woken; a call of `dispatch`
or `dispatch_if_ready`; the `pop` of call `k` goes on; the `i`-th sleeper wakes up by itself; a handler is disposed of; the task that call `k` runs
returns and perhaps asks to be run again.  The choice is arbitrary; no counterpart in /repo. -/
inductive Lbl where
  | tick (d : Nat)
  | schedule (e : Ent)
  | add (e : Ent)
  | ring (i : Nat)
  | dispatch
  | dispatchIfReady
  | pop (k : Nat)
  | wake (i : Nat)
  | dispose (id : Nat)
  | ret (k : Nat) (again : Option Int)

/-- `is_any_ready_schedulable_unsafe`, run_loop.hpp 87-90. -/
def ready (s : St) : Bool := match s.queue with | [] => false | top :: _ => s.off.contains top.id || decide (top.tp ≤ s.now)

/-- The predicate of `wait_for`, run_loop.hpp 69, read when the queue has a top. -/
def pred (s : St) (top : Ent) : Bool := !s.queue.isEmpty || decide (top.tp ≤ s.now)

/-- One iteration of the loop in `pop(true)`, run_loop.hpp 54-70, for an awake call `k`; `wait` (57) and `wait_for` (69) sleep only if their predicate is false. -/
def St.pop (s : St) (k : Nat) : St :=
  match s.queue with
  | [] => { s with awake := s.awake.erase k, asleep := s.asleep ++ [(k, none)] }
  | top :: rest =>
    if ready s then { s with queue := rest, awake := s.awake.erase k, busy := s.busy ++ [(k, top)] }
    else if pred s top then s
    else { s with awake := s.awake.erase k, asleep := s.asleep ++ [(k, some top.tp)] }

/-- The same for `pop(false)`, which never sleeps and makes one iteration (run_loop.hpp 57, 63-67, 71). -/
def St.popIfReady (s : St) (k : Nat) : St :=
  match s.queue with
  | [] => { s with peek := s.peek.erase k }
  | top :: rest =>
    if ready s then { s with queue := rest, peek := s.peek.erase k, busy := s.busy ++ [(k, top)] }
    else { s with peek := s.peek.erase k }

/-- The `i`-th sleeper is not asleep any more, and looks at its predicate again (run_loop.hpp 57, 69). -/
def St.wake (s : St) (i : Nat) : St :=
  match s.asleep[i]? with
  | some (k, _) => { s with asleep := s.asleep.eraseIdx i, awake := s.awake ++ [k] }
  | none => s

/-- One step (schedulers/run_loop.hpp 39-72, 156-166).  A task whose handler is disposed of is not run (160-161): it `ret`urns without asking to be run again. -/
def step (s : St) : Lbl → St
  | .tick d => { s with now := s.now + d }
  | .schedule e => { s with lock := s.lock ++ [e] }
  | .add e => if e ∈ s.lock then { s with lock := s.lock.erase e, queue := emplace s.queue e, ring := s.ring + 1 } else s
  | .ring i =>
    if s.ring = 0 then s
    else if s.asleep = [] then { s with ring := s.ring - 1 }
    else if i < s.asleep.length then { s with ring := s.ring - 1 }.wake i
    else s
  | .dispatch => { s with next := s.next + 1, awake := s.awake ++ [s.next] }
  | .dispatchIfReady => { s with next := s.next + 1, peek := s.peek ++ [s.next] }
  | .pop k => if k ∈ s.awake then s.pop k else if k ∈ s.peek then s.popIfReady k else s
  | .wake i => s.wake i
  | .dispose id => { s with off := id :: s.off }
  | .ret k again => match s.busy.find? (·.1 = k) with
    | some (_, e) =>
      { s with busy := s.busy.erase (k, e),
               lock := match again with | some tp => s.lock ++ [⟨tp, e.id⟩] | none => s.lock }
    | none => s

/-- The state after a sequence of steps; no counterpart in /repo. -/
def exec (ls : List Lbl) : St := ls.foldl step {}

/-! ## Proofs -/

theorem emplace_length (q : List Ent) (e : Ent) : (emplace q e).length = q.length + 1 := by
  have h : ∀ q : List Ent, (insertAfter e q).length = q.length + 1 := by
    intro q
    induction q with
    | nil => rfl
    | cons x q ih => simp only [insertAfter]; split <;> simp_all
  cases q with
  | nil => rfl
  | cons x q => simp only [emplace]; split <;> simp [h]

/-- Invariant of the proofs; models no code. -/
structure Inv (s : St) : Prop where
  woken : s.asleep ≠ [] → s.queue.length ≤ s.ring + s.awake.length
  nodl : ∀ p ∈ s.asleep, p.2 = none

theorem pred_true {s : St} {top : Ent} {rest : List Ent} (h : s.queue = top :: rest) : pred s top = true := by simp [pred, h]

theorem inv_pop {s : St} (h : Inv s) {k : Nat} (hk : k ∈ s.awake) : Inv (s.pop k) := by
  have hl := List.length_erase_of_mem hk
  have hp : 0 < s.awake.length := List.length_pos_of_mem hk
  unfold St.pop
  split
  · rename_i hq
    refine ⟨fun _ => by dsimp only; rw [hq]; simp, fun p hp => ?_⟩
    rcases List.mem_append.1 hp with hp | hp
    · exact h.nodl p hp
    · rw [List.mem_singleton] at hp; subst hp; rfl
  · rename_i top rest hq
    split
    · refine ⟨fun ha => ?_, h.nodl⟩
      have := h.woken ha
      rw [hq, List.length_cons] at this
      dsimp only
      omega
    · rw [pred_true hq, if_pos rfl]; exact h

theorem inv_popIfReady {s : St} (h : Inv s) {k : Nat} : Inv (s.popIfReady k) := by
  unfold St.popIfReady
  split
  · exact ⟨h.woken, h.nodl⟩
  · rename_i top rest hq
    split
    · refine ⟨fun ha => ?_, h.nodl⟩
      have := h.woken ha
      rw [hq, List.length_cons] at this
      dsimp only
      omega
    · exact ⟨h.woken, h.nodl⟩

theorem inv_wake {s : St} (h : Inv s) (i : Nat) : Inv (s.wake i) := by
  unfold St.wake
  split
  · rename_i k dl hi
    refine ⟨fun ha => ?_, fun p hp => h.nodl p (List.mem_of_mem_eraseIdx hp)⟩
    have := h.woken (by intro h0; rw [h0] at hi; simp at hi)
    simp only [List.length_append, List.length_singleton]
    omega
  · exact h

theorem inv_ringWake {s : St} (h : Inv s) {i : Nat} (hr : s.ring ≠ 0) (hi : i < s.asleep.length) : Inv ({ s with ring := s.ring - 1 }.wake i) := by
  unfold St.wake
  dsimp only
  rw [List.getElem?_eq_getElem hi]
  refine ⟨fun ha => ?_, fun p hp => h.nodl p (List.mem_of_mem_eraseIdx hp)⟩
  have := h.woken (by intro h0; rw [h0] at hi; simp at hi)
  simp only [List.length_append, List.length_singleton]
  omega

theorem inv_step {s : St} (h : Inv s) (l : Lbl) : Inv (step s l) := by
  cases l with
  | tick d => exact ⟨h.woken, h.nodl⟩
  | schedule e => exact ⟨h.woken, h.nodl⟩
  | add e =>
    simp only [step]
    split
    · refine ⟨fun ha => ?_, h.nodl⟩
      have := h.woken ha
      simp only [emplace_length]
      omega
    · exact h
  | ring i =>
    simp only [step]
    split
    · exact h
    · rename_i hr
      split
      · rename_i ha
        exact ⟨fun hn => (hn ha).elim, h.nodl⟩
      · split
        · exact inv_ringWake h hr ‹_›
        · exact h
  | dispatch =>
    refine ⟨fun ha => ?_, h.nodl⟩
    have := h.woken ha
    simp only [step, List.length_append, List.length_singleton]
    omega
  | dispatchIfReady => exact ⟨h.woken, h.nodl⟩
  | pop k =>
    simp only [step]
    split
    · exact inv_pop h ‹_›
    · split
      · exact inv_popIfReady h
      · exact h
  | wake i => exact inv_wake h i
  | dispose id => exact ⟨h.woken, h.nodl⟩
  | ret k again =>
    simp only [step]
    split
    · exact ⟨h.woken, h.nodl⟩
    · exact h

theorem inv_exec (ls : List Lbl) : Inv (exec ls) := by
  have : ∀ (ls : List Lbl) (s : St), Inv s → Inv (ls.foldl step s) := by
    intro ls
    induction ls with
    | nil => exact fun _ h => h
    | cons l ls ih => exact fun s h => ih _ (inv_step h l)
  exact this ls {} ⟨fun h => (h rfl).elim, fun p hp => by cases hp⟩

theorem exec_append (ls ms : List Lbl) : exec (ls ++ ms) = ms.foldl step (exec ls) := by simp [exec, List.foldl_append]

/-- An awake call that finds tasks but none at the head ready stays as it is. -/
theorem spin {s : St} {k : Nat} (hk : k ∈ s.awake) {top : Ent} {rest : List Ent} (hq : s.queue = top :: rest) (hr : ready s = false) : step s (.pop k) = s := by
  simp only [step, hk, if_true, St.pop, hq]
  rw [pred_true hq, hr]
  simp

theorem spin_many {s : St} {k : Nat} (hk : k ∈ s.awake) {top : Ent} {rest : List Ent} (hq : s.queue = top :: rest) (hr : ready s = false) (n : Nat) :
    (List.replicate n (Lbl.pop k)).foldl step s = s := by
  induction n with
  | zero => rfl
  | succ n ih => rw [List.replicate_succ, List.foldl_cons, spin hk hq hr, ih]

end Rpp.Sched.Wake
