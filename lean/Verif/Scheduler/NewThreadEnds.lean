import Verif.Scheduler.NewThreadProps

/-!
# C111: a cancelled task lets its thread go

A task is scheduled for later on new_thread, then the worker is dropped (sources and operators do so when they have scheduled what they need) and the task is cancelled by disposing of its handler.
The thread ought to end then, and the task with everything it has captured ought to be destroyed.

* Whenever the thread gets to go on, it drops all cancelled tasks and ends, without waiting for any of them (`C111_ends`).
* If the tasks were cancelled before the worker was dropped, dropping it wakes the thread (`C111_woken`).
* But nobody wakes it when a handler is disposed of: it sleeps until the time of a task that will not run (`C111_awake_refutes`), at the longest until that time
  (`C111_deadline_partial`).
-/

namespace Rpp.Sched.NT
open Rpp.Sched

variable {c : Cfg}

/-! ## Specification -/

/-- The worker objects are gone, no task is running, and the handler of every task that waits is disposed of.  Specification; models no code. -/
structure Deserted (c : Cfg) (s : St) : Prop where
  stop : .stop ∈ s.log
  idle : ∀ e, s.mode ≠ .run e
  off : ∀ e ∈ waiting s.log, .disp (c.hnd e.id) ∈ s.log

/-- The full claim: a thread that nobody needs does not sleep.  Specification; models no code. -/
def Awake (c : Cfg) : Prop := ∀ ls, Deserted c (exec c ls) → blocked (exec c ls) = false

/-! ## Proofs -/

theorem exec_append (ls ms : List Lbl) : exec c (ls ++ ms) = ms.foldl (step c) (exec c ls) := by simp [exec, List.foldl_append]

theorem drains : ∀ (q : List Ent) (s : St), s.queue = q → s.mode = .loop → s.stopping = true → (∀ e ∈ q, isDisposed c s e.id = true) →
    ((List.replicate (q.length + 1) Lbl.work).foldl (step c) s).log = s.log ++ q.map .drop ++ [.exit] ∧
    ((List.replicate (q.length + 1) Lbl.work).foldl (step c) s).mode = .exited
  | [], s, hq, hm, hs, _ => by
    simp [step, hm, loopStep, hq, hs, St.emit]
  | top :: rest, s, hq, hm, hs, hd => by
    have h1 : step c s .work = ({ s with queue := rest }).emit (.drop top) := by
      simp only [step, hm, loopStep, hq, hd top List.mem_cons_self, if_true]
    rw [List.length_cons, List.replicate_succ, List.foldl_cons, h1]
    have := drains rest (({ s with queue := rest }).emit (.drop top)) rfl hm hs (fun e he => hd e (List.mem_cons_of_mem _ he))
    simpa [St.emit] using this

theorem Deserted.disposed {ls : List Lbl} (h : Deserted c (exec c ls)) : ∀ e ∈ (exec c ls).queue, isDisposed c (exec c ls) e.id = true := by
  intro e he
  have hi := Inv.exec (c := c) ls
  have hw : e ∈ waiting (exec c ls).log := by rw [← hi.rep] at he; exact mem_isort.mp he
  simpa [isDisposed] using (hi.disp _).2 (h.off e hw)

/-- Invariant of the proofs: what the worker saw when it last looked at the head of the queue; models no code. -/
def Looked (c : Cfg) (s : St) : Prop := ∀ x, s.mode = .wait x → s.signal = false → ∀ pre post, s.log = pre ++ .stop :: post → ∃ e ∈ s.queue, .disp (c.hnd e.id) ∉ pre

theorem Looked.snoc {s s' : St} (h : Looked c s) {ev : Ev} (he : ev ≠ .stop) (hl : s'.log = s.log ++ [ev]) (hm : s'.mode = s.mode) (hs : s'.signal = s.signal) (hq : s'.queue = s.queue) : Looked c s' := by
  intro x hx hsig pre post heq
  rw [hl] at heq
  rcases QueueRun.snoc_eq heq with ⟨_, rfl, _⟩ | ⟨post', h1, h2⟩
  · exact (he rfl).elim
  · rw [hq]; exact h x (by rw [← hm]; exact hx) (by rw [← hs]; exact hsig) pre post' h2

theorem Looked.step {s : St} (hi : Inv c s) (h : Looked c s) (l : Lbl) : Looked c (step c s l) := by
  have hnew : ∀ (top : Ent) (s' : St), isDisposed c s top.id = false → top ∈ s'.queue → s'.log = s.log → Looked c s' := by
    intro top s' hd hq hl x _ _ pre post heq
    refine ⟨top, hq, fun hh => ?_⟩
    have : c.hnd top.id ∈ s.disposed := (hi.disp _).2 (by rw [← hl, heq]; exact List.mem_append_left _ hh)
    simp [isDisposed, this] at hd
  cases l with
  | tick d => exact h
  | defer tp => intro x _ hs; simp [NT.step, St.enqueue, St.emit] at hs
  | store i =>
    simp only [NT.step]
    split
    · exact h.snoc (by simp) rfl rfl rfl rfl
    · exact h
  | ctDefer tp =>
    simp only [NT.step]
    cases hm : s.mode with
    | run e =>
      dsimp only
      split
      · intro x hx; exact absurd (hm.symm.trans hx) (by simp)
      · intro x hx; exact absurd (hm.symm.trans hx) (by simp)
    | _ => exact h
  | dispose d => exact h.snoc (by simp) rfl rfl rfl rfl
  | stop => intro x _ hs; simp [NT.step, St.emit] at hs
  | work =>
    simp only [NT.step]
    cases hm : s.mode with
    | loop =>
      simp only [loopStep]
      split
      · split
        · intro x hx; simp [St.emit] at hx
        · exact h
      · rename_i top rest hq
        split
        · intro x hx; exact absurd (hm.symm.trans hx) (by simp)
        · rename_i hd
          split
          · exact hnew top _ (by simpa using hd) (by dsimp only; rw [hq]; exact List.mem_cons_self) rfl
          · intro x hx; simp [St.emit] at hx
    | wait dl =>
      simp only [waitStep]
      split
      · intro x hx; cases hx
      · rename_i top rest hq
        split
        · intro x hx; cases hx
        · rename_i hd
          split
          · intro x hx; cases hx
          · exact hnew top _ (by simpa using hd) (by dsimp only; rw [hq]; exact List.mem_cons_self) rfl
    | run e => exact h
    | exited => exact h
  | ret r =>
    simp only [NT.step]
    cases hm : s.mode with
    | run e =>
      dsimp only [retStep]
      intro x hx
      revert hx
      cases r with
      | stop => intro hx; cases hx
      | throw => intro hx; cases hx
      | again v =>
        dsimp only
        split
        · intro hx; cases hx
        · split
          · intro hx; cases hx
          · intro hx; cases hx
    | _ => exact h

theorem Looked.exec (ls : List Lbl) : Looked c (exec c ls) := by
  have : ∀ (ls : List Lbl) (s : St), Inv c s → Looked c s → Looked c (ls.foldl (NT.step c) s) := by
    intro ls
    induction ls with
    | nil => exact fun _ _ h => h
    | cons l ls ih => exact fun s hi h => ih _ (hi.step l) (h.step hi l)
  exact this ls {} Inv.init (fun x hx => by cases hx)

/-! ## Theorems -/

/-- **C111 (the thread ends).** A thread that nobody needs and that gets to go on drops every task that waits, and ends; no time has to pass for that. -/
theorem C111_ends (ls : List Lbl) (h : Deserted c (exec c ls)) (hx : (exec c ls).mode ≠ .exited) :
    ∃ n es, (exec c (ls ++ List.replicate n .work)).log = (exec c ls).log ++ es ++ [.exit] ∧
      (∀ e ∈ waiting (exec c ls).log, .drop e ∈ es) ∧ ∀ ev ∈ es, ∃ e ∈ waiting (exec c ls).log, ev = .drop e := by
  have hi := Inv.exec (c := c) ls
  have hq : ∀ e, e ∈ (exec c ls).queue ↔ e ∈ waiting (exec c ls).log := fun e => by rw [← hi.rep]; exact mem_isort
  have hs := hi.stp.2 h.stop
  have hd := h.disposed
  have fin : ∀ s : St, s.queue = (exec c ls).queue → s.log = (exec c ls).log → s.mode = .loop → s.stopping = true → (∀ e ∈ s.queue, isDisposed c s e.id = true) →
      ∃ n es, ((List.replicate n Lbl.work).foldl (step c) s).log = (exec c ls).log ++ es ++ [.exit] ∧
      (∀ e ∈ waiting (exec c ls).log, .drop e ∈ es) ∧ ∀ ev ∈ es, ∃ e ∈ waiting (exec c ls).log, ev = .drop e := by
    intro s h1 h2 h3 h4 h5
    refine ⟨_, _, by rw [(drains s.queue s rfl h3 h4 h5).1, h2], fun e he => ?_, fun ev hev => ?_⟩
    · exact List.mem_map_of_mem (by rw [h1]; exact (hq e).2 he)
    · obtain ⟨e, he, rfl⟩ := List.mem_map.1 hev
      exact ⟨e, (hq e).1 (by rw [← h1]; exact he), rfl⟩
  cases hm : (exec c ls).mode with
  | loop =>
    obtain ⟨n, es, h1, h2⟩ := fin (exec c ls) rfl rfl hm hs hd
    exact ⟨n, es, by rw [exec_append]; exact h1, h2⟩
  | wait dl =>
    have hw : ∃ last, step c (exec c ls) .work = { exec c ls with mode := .loop, last := last } := by
      simp only [step, hm, waitStep]
      split
      · exact ⟨(exec c ls).last, rfl⟩
      · rename_i top rest hq'
        rw [if_pos (hd top (by rw [hq']; exact List.mem_cons_self))]
        exact ⟨(exec c ls).last, rfl⟩
    obtain ⟨last, hw⟩ := hw
    obtain ⟨n, es, h1, h2⟩ := fin (step c (exec c ls) .work) (by rw [hw]) (by rw [hw]) (by rw [hw]) (by rw [hw]; exact hs) (by rw [hw]; exact hd)
    exact ⟨n + 1, es, by rw [exec_append, List.replicate_succ, List.foldl_cons]; exact h1, h2⟩
  | run e => exact (h.idle e hm).elim
  | exited => exact (hx hm).elim

/-- **C111 (cancelled in time).** If every task that waits was cancelled before the worker was dropped, the thread does not sleep: dropping the worker wakes it. -/
theorem C111_woken (ls : List Lbl) (pre post : List Ev) (hl : (exec c ls).log = pre ++ .stop :: post)
    (hd : ∀ e ∈ waiting (exec c ls).log, .disp (c.hnd e.id) ∈ pre) : blocked (exec c ls) = false := by
  have hi := Inv.exec (c := c) ls
  cases hb : blocked (exec c ls) with
  | false => rfl
  | true =>
    cases hm : (exec c ls).mode with
    | loop => simp [blocked, hm, hi.stp.2 (by rw [hl]; simp)] at hb
    | wait dl =>
      have hb' : (exec c ls).signal = false ∧ (exec c ls).now < dl := by simpa [blocked, hm] using hb
      obtain ⟨e, he, hn⟩ := Looked.exec ls dl hm hb'.1 pre post hl
      rw [← hi.rep] at he
      exact (hn (hd e (mem_isort.mp he))).elim
    | run e => simp [blocked, hm] at hb
    | exited => simp [blocked, hm] at hb

/-- **C111 (how long it sleeps).** If the thread sleeps although nobody needs it, it sleeps until the time of a task that waits and will not run; from that time on it is not asleep.
Missing: that it is woken when the task is cancelled, see `C111_awake_refutes`. -/
theorem C111_deadline_partial (ls : List Lbl) (h : Deserted c (exec c ls)) (hb : blocked (exec c ls) = true) :
    ∃ f ∈ waiting (exec c ls).log, (exec c ls).now < f.tp ∧ ∀ d : Nat, f.tp ≤ (exec c ls).now + d →
      blocked (exec c (ls ++ [.tick d])) = false ∧ Deserted c (exec c (ls ++ [.tick d])) := by
  have hi := Inv.exec (c := c) ls
  cases hm : (exec c ls).mode with
  | loop => simp [blocked, hm, hi.stp.2 h.stop] at hb
  | wait dl =>
    obtain ⟨a, f, b, h1, h2, _⟩ := hi.dl dl hm
    have hb' : (exec c ls).signal = false ∧ (exec c ls).now < dl := by simpa [blocked, hm] using hb
    refine ⟨f, by rw [h1]; simp, by rw [h2]; exact hb'.2, fun d hd => ?_⟩
    rw [exec_append]
    refine ⟨?_, ⟨h.stop, h.idle, h.off⟩⟩
    simp only [List.foldl_cons, List.foldl_nil, step, blocked, hm, Bool.and_eq_false_iff, decide_eq_false_iff_not]
    right; omega
  | run e => simp [blocked, hm] at hb
  | exited => simp [blocked, hm] at hb

/-- A task due at 100 is scheduled, the worker is dropped, the thread sleeps, and at time 1 the task is cancelled.  An example; no counterpart in /repo. -/
def cancelled : List Lbl := [.defer 100, .store 0, .stop, .work, .tick 1, .dispose 0]

theorem cancelled_deserted : Deserted exCfg (exec exCfg cancelled) := by
  refine ⟨by decide, fun e => ?_, by decide⟩
  rw [show (exec exCfg cancelled).mode = .wait 100 by decide]
  exact fun h => by cases h

/-- **C111 is false in full.** The thread of a cancelled task sleeps though nobody needs it any more. -/
theorem C111_awake_refutes : ¬ Awake exCfg := fun h => by
  have := h cancelled cancelled_deserted
  exact absurd this (by decide)

/-- It goes on sleeping, with the task, until time 100. -/
theorem C111_sleeps_refutes (d : Nat) (h : d < 99) : blocked (exec exCfg (cancelled ++ [.tick d])) = true ∧
    waiting (exec exCfg (cancelled ++ [.tick d])).log = [⟨100, 0⟩] := by
  rw [exec_append]
  refine ⟨?_, show waiting (exec exCfg cancelled).log = _ by decide⟩
  have h1 : (exec exCfg cancelled).mode = .wait 100 := by decide
  have h2 : (exec exCfg cancelled).signal = false := by decide
  have h3 : (exec exCfg cancelled).now = 1 := by decide
  simp only [List.foldl_cons, List.foldl_nil, step, blocked, h1, h2, h3, Bool.not_false, Bool.true_and, decide_eq_true_eq]
  omega

/-- Had the handler been disposed of before the worker was dropped, the thread would have ended at once. -/
example : (exec exCfg [.defer 100, .store 0, .work, .dispose 0, .stop, .work, .work, .work]).log =
    [.call 0 100, .sched ⟨100, 0⟩ 0, .fresh 0, .disp 0, .stop, .drop ⟨100, 0⟩, .exit] := by decide

example : blocked (exec exCfg [.defer 100, .store 0, .work, .dispose 0]) = true ∧ blocked (exec exCfg [.defer 100, .store 0, .work, .dispose 0, .stop]) = false := by decide

example : (exec exCfg (cancelled ++ [.tick 99, .work, .work, .work])).log =
    [.call 0 100, .sched ⟨100, 0⟩ 0, .fresh 0, .stop, .disp 0, .drop ⟨100, 0⟩, .exit] := by decide

end Rpp.Sched.NT
