import Verif.Ext.StrandLive

/-!
# The asio strand scheduler: properties C77-C82
-/

namespace Rpp.Strand

/-! ## A concrete execution

On thread 3 a task (1) for handler 7 starts, schedules two tasks (2, 3) on `current_thread` and returns; they run later, on
other threads of the `io_context`.  Task 2 repeats itself after 5, task 3 throws. -/

/-- An example. -/
def demo : List Lbl :=
  [.schedule 7 0, .start 3, .current 7 0, .current 8 0, .finish .done, .expire 0, .expire 0, .start 4, .tick 2,
   .finish (.again (.fromThis 5)), .start 5, .finish .throws, .tick 3, .expire 0, .start 3, .finish .done]

example : NoOuter demo := by intro t; simp [demo]

example : (exec demo).log =
    [.asked 1 7 0 .posted, .began 1 3 0 .posted, .asked 2 7 0 .queued, .asked 3 8 0 .queued, .ended 1 0 .done,
     .handed 2, .handed 3, .began 2 4 0 .timed, .ended 2 2 (.again (.fromThis 5)), .asked 2 7 5 .timed,
     .began 3 5 2 .timed, .onError 3 8, .ended 3 2 .throws, .began 2 3 5 .timed, .ended 2 5 .done] := by decide

/-! ## C77: one at a time -/

/-- Functions scheduled on a worker, and those scheduled on `current_thread` while they run, are entered and left one at a time:
never concurrently, never one inside the other. -/
theorem C77_serial (ls : List Lbl) : serial none (exec ls).log = true := (exec_logs ls).ser

example : serial none (exec demo).log = true := by decide
/-- The specification rejects nesting. -/
example : serial none [.began 1 0 0 .posted, .began 2 0 0 .queued, .ended 2 0 .done, .ended 1 0 .done] = false := by decide

/-- If `io_context::run()` is not called from inside a `current_thread` task, what a task schedules on `current_thread` is never
left to another queue: it is refused or dropped (disposed handler), or passed on to the strand. -/
theorem C77_stays_partial (ls : List Lbl) (h : NoOuter ls) (id : Nat) : Ev.outer id ∉ (exec ls).log := by
  have : Inner (exec ls) := by
    revert h
    refine Sched.snoc_ind (P := fun ls => NoOuter ls → Inner (exec ls)) ?_ ?_ ls
    · intro _; exact ⟨by simp [exec], by simp [exec]⟩
    · intro ls l ih h
      rw [exec_snoc]
      exact (ih fun t ht => h t (by simp [ht])).step (fun t ht => h t (by simp [ht]))
  exact this.2 id

/-- Otherwise it is not: the guard leaves a queue that is already there in place (strand.hpp 83), so what the task schedules on
`current_thread` is run by the enclosing `current_thread` loop, outside the strand. -/
theorem C77_refutes : ∃ ls id, Ev.asked id 7 0 .queued ∈ (exec ls).log ∧ Ev.outer id ∈ (exec ls).log :=
  ⟨[.own 3, .schedule 7 0, .start 3, .current 7 0, .finish .done], 2, by decide, by decide⟩

/-! ## C78: not early, not disposed, once -/

/-- A function is entered only on request, not before the time asked for, and not if its handler was disposed of before. -/
theorem C78_starts (ls : List Lbl) (pre post : List Ev) (id t : Nat) (at' : Int) (how : How)
    (h : (exec ls).log = pre ++ .began id t at' how :: post) :
    ∃ g due, waiting id pre = some (g, due) ∧ due ≤ at' ∧ Ev.disposed g ∉ pre :=
  ((exec_inv ls).1.ok _ _ _ h).1

/-- There is never more than one outstanding request for a function: each request (`C78_starts` uses it up) makes it run at most
once. -/
theorem C78_once (ls : List Lbl) (pre post : List Ev) (id g : Nat) (due : Int) (how : How)
    (h : (exec ls).log = pre ++ .asked id g due how :: post) : waiting id pre = none :=
  ((exec_inv ls).1.ok _ _ _ h).1

/-- Requests are given up only if the handler is disposed of. -/
theorem C78_given_up (ls : List Lbl) (pre post : List Ev) (id : Nat) (how : How)
    (h : (exec ls).log = pre ++ .dropped id how :: post ∨ (exec ls).log = pre ++ .refused id how :: post) :
    ∃ g due, waiting id pre = some (g, due) ∧ Ev.disposed g ∈ pre := by
  rcases h with h | h
  · exact (exec_inv ls).1.ok _ _ _ h
  · obtain ⟨g, due, pre', hp, hd⟩ := (exec_inv ls).1.ok _ _ _ h
    exact ⟨g, due, by rw [hp, waiting_snoc]; simp [waitStep], hd⟩

/-- Every request is served, if the environment does its part: the function is entered (at or after the time asked for), or its
handler is disposed of. -/
theorem C78_served (σ : Nat → Lbl) (fair : Fair σ) (n id g : Nat) (due : Int)
    (hw : waiting id (run σ n).log = some (g, due)) :
    ∃ k l, (run σ (n + k)).log = (run σ n).log ++ l ∧
      ((∃ t a how, Ev.began id t a how ∈ l ∧ due ≤ a) ∨ Ev.disposed g ∈ (run σ (n + k)).log) := by
  obtain ⟨k, l, hl, he⟩ := served_live fair hw
  refine ⟨k, l, hl, ?_⟩
  have hok : AllOk ((run σ n).log ++ l) := by rw [← hl]; exact (run_book σ (n + k)).1.ok
  rcases leave_why hok hw he with h | h | h
  · exact .inl h
  · exact .inr (by rw [hl]; exact h)
  · exact absurd (by rw [hl]; simp [h]) ((run_inner fair.inner (n + k)).2 id)

/-- Requests in the example, and what becomes of them. -/
example : waiting 3 ((exec demo).log.take 8) = some (8, 0) ∧ waiting 3 (exec demo).log = none := by decide

/-- A disposed handler. -/
example : (exec [.schedule 7 5, .dispose 7, .tick 5, .expire 0, .start 0, .schedule 7 0]).log =
    [.asked 1 7 5 .timed, .disposed 7, .dropped 1 .timed, .asked 2 7 5 .posted, .refused 2 .posted] := by decide

/-- A fair endless execution with a timer and a task handed over by the guard. -/
def demoσ : Nat → Lbl
  | 0 => .schedule 7 5
  | 1 => .tick 5
  | 2 => .expire 0
  | 3 => .start 0
  | 4 => .current 8 0
  | 5 => .finish .done
  | 6 => .expire 0
  | 7 => .start 1
  | 8 => .finish .done
  | _ => .tick 1

theorem demoσ_late (n : Nat) : run demoσ (9 + n) = { run demoσ 9 with now := 5 + n } := by
  induction n with
  | zero => rfl
  | succ n ih =>
    show step (run demoσ (9 + n)) (demoσ (9 + n)) = _
    have : demoσ (9 + n) = .tick 1 := by
      rw [Nat.add_comm]; rfl
    rw [ih, this]
    rfl

theorem demoσ_fair : Fair demoσ := by
  have hlate : ∀ n, 9 ≤ n → (run demoσ n).timers = [] ∧ (run demoσ n).ready = [] ∧ (run demoσ n).run = [] := by
    intro n hn
    obtain ⟨k, rfl⟩ := Nat.exists_eq_add_of_le hn
    rw [demoσ_late]
    exact ⟨(by decide : (run demoσ 9).timers = []), (by decide : (run demoσ 9).ready = []), (by decide : (run demoσ 9).run = [])⟩
  refine ⟨?_, ?_, ?_, ?_, ?_⟩
  · intro T
    refine ⟨9 + T.toNat, ?_⟩
    rw [demoσ_late]
    simp only
    omega
  · intro n j hj _
    refine ⟨n + 9, by omega, ?_⟩
    rw [(hlate (n + 9) (by omega)).1]
    simp
  · intro n hn
    match n, hn with
    | 0, hn | 1, hn | 2, hn | 3, hn | 4, hn | 5, hn => exact ⟨5, by omega, .done, rfl⟩
    | 6, hn | 7, hn | 8, hn => exact ⟨8, by omega, .done, rfl⟩
    | n + 9, hn => exact absurd (hlate (n + 9) (by omega)).2.2 hn
  · intro n hn
    match n, hn with
    | 0, hn | 1, hn | 2, hn | 3, hn => exact ⟨3, by omega, by decide, 0, rfl⟩
    | 4, hn | 5, hn | 6, hn | 7, hn => exact ⟨7, by omega, by decide, 1, rfl⟩
    | 8, hn => exact absurd (by decide) hn
    | n + 9, hn => exact absurd (hlate (n + 9) (by omega)).2.1 hn
  · intro n t
    match n with
    | 0 | 1 | 2 | 3 | 4 | 5 | 6 | 7 | 8 => simp [demoσ]
    | n + 9 => simp [demoσ]

example : waiting 2 (run demoσ 5).log = some (8, 5) ∧ Ev.began 2 1 5 .timed ∈ (run demoσ 8).log := by decide

/-! ## C79: order -/

/-- Requests with zero delay are served in the order in which they were made, whoever makes them. -/
theorem C79_partial (ls : List Lbl) : served (exec ls).log <+: posted (exec ls).log := by
  rw [(exec_logs ls).fifo]
  exact List.prefix_append _ _

example : posted (exec [.schedule 7 0, .schedule 8 0, .schedule 9 0, .dispose 8, .schedule 8 0, .start 0, .finish .done, .start 1]).log = [1, 2, 3]
    ∧ served (exec [.schedule 7 0, .schedule 8 0, .schedule 9 0, .dispose 8, .schedule 8 0, .start 0, .finish .done, .start 1]).log = [1, 2] := by
  decide

/-- Two tasks scheduled by a task on `current_thread` for the same time need not run in the order in which they were scheduled (as
they do everywhere else): the guard gives each a timer of its own (strand.hpp 122), and asio does not order timers that expire at
the same time.  Functions are numbered in the order of their first scheduling. -/
theorem C79_refutes : ∃ ls pre post a b t at' how g g' due, NoOuter ls ∧
    (exec ls).log = pre ++ .began b t at' how :: post ∧ OnCurrent a pre ∧ OnCurrent b pre ∧
    waiting a pre = some (g, due) ∧ waiting b pre = some (g', due) ∧ a < b := by
  refine ⟨[.schedule 7 0, .start 0, .current 7 0, .current 7 0, .finish .done, .expire 1, .start 0],
    [.asked 1 7 0 .posted, .began 1 0 0 .posted, .asked 2 7 0 .queued, .asked 3 7 0 .queued, .ended 1 0 .done, .handed 2, .handed 3],
    [], 2, 3, 0, 0, .timed, 7, 7, 0, by intro t; simp, by decide, ⟨7, 0, by simp⟩, ⟨7, 0, by simp⟩, by decide, by decide, by decide⟩

/-! ## C80: exceptions -/

/-- A function that threw is not asked for and not entered again; if it was scheduled on `current_thread` each exception was reported
once to its handler. -/
theorem C80_partial (ls : List Lbl) (id : Nat) :
    (∀ pre post at', (exec ls).log = pre ++ .ended id at' .throws :: post →
      ∀ e ∈ post, (∀ g due how, e ≠ .asked id g due how) ∧ (∀ t a how, e ≠ .began id t a how)) ∧
    (OnCurrent id (exec ls).log →
      (errors id (exec ls).log).length = throwsOf id (exec ls).log ∧
      ∀ g, Ev.onError id g ∈ (exec ls).log → ∃ due how, Ev.asked id g due how ∈ (exec ls).log) := by
  refine ⟨?_, fun h => ⟨(exec_logs ls).err id h, ?_⟩⟩
  · intro pre post at' h e he
    obtain ⟨l1, l2, rfl⟩ := List.append_of_mem he
    have hsplit : (exec ls).log = (pre ++ .ended id at' .throws :: l1) ++ e :: l2 := by rw [h]; simp
    have hok := (exec_inv ls).1.ok _ _ _ hsplit
    have hdead : Dead id (pre ++ .ended id at' .throws :: l1) := ⟨at', .throws, by simp, by simp⟩
    refine ⟨?_, ?_⟩
    · rintro g due how rfl; exact hok.2 hdead
    · rintro t a how rfl; exact hok.2 hdead
  · intro g hg
    obtain ⟨l1, l2, hl⟩ := List.append_of_mem hg
    obtain ⟨_, due, how, hm⟩ := (exec_inv ls).1.ok _ _ _ hl
    exact ⟨due, how, by rw [hl]; simp [hm]⟩

example : OnCurrent 3 (exec demo).log ∧ errors 3 (exec demo).log = [8] ∧ throwsOf 3 (exec demo).log = 1 :=
  ⟨⟨8, 0, by decide⟩, by decide, by decide⟩

/-- A function scheduled directly on the worker is called without a handler for exceptions (strand.hpp 55, 72): what it throws
leaves `io_context::run()`, its handler hears nothing. -/
theorem C80_refutes : ∃ ls id, NoOuter ls ∧ throwsOf id (exec ls).log = 1 ∧ errors id (exec ls).log = [] ∧
    Ev.escaped id ∈ (exec ls).log :=
  ⟨[.schedule 7 0, .start 0, .finish .throws], 1, by intro t; simp, by decide, by decide, by decide⟩

/-! ## C81: rescheduling -/

/-- A function that asks for another run gets it, for the same handler, at the time documented for the delay it returned; the case
missing is `delay_from_this_timepoint` returned by a function scheduled directly on the worker. -/
theorem C81_partial (ls : List Lbl) (pre post : List Ev) (id : Nat) (at' : Int) (w : Delay)
    (h : (exec ls).log = pre ++ .ended id at' (.again w) :: post) :
    ∃ g due post', post = .asked id g due .timed :: post' ∧ (∃ d0 how, Ev.asked id g d0 how ∈ pre) ∧
      ((OnCurrent id pre ∨ ∀ d, w ≠ .fromThis d) → ∃ D, lastDue id pre = some D ∧ due = wanted at' D w) :=
  (exec_logs ls).per pre post id at' w h

/-- In the example: asked for at 0, entered at 0, left at 2 with `delay_from_this_timepoint(5)`, due at 5 and not at 7. -/
example : Ev.asked 2 7 5 .timed ∈ (exec demo).log ∧ lastDue 2 ((exec demo).log.take 9) = some 0 := by decide

/-- `delay_from_this_timepoint(d)` returned by a function scheduled directly counts from the time it returned (strand.hpp 56, 73 pass
the duration to a new timer): periodic functions are late by their own duration, and more with each period. -/
theorem C81_refutes : ∃ ls pre post id at' d D due, NoOuter ls ∧
    (exec ls).log = pre ++ .ended id at' (.again (.fromThis d)) :: .asked id 7 due .timed :: post ∧
    lastDue id pre = some D ∧ wanted at' D (.fromThis d) < due :=
  ⟨[.schedule 7 0, .start 0, .tick 2, .finish (.again (.fromThis 5))],
    [.asked 1 7 0 .posted, .began 1 0 0 .posted], [], 1, 2, 5, 0, 7, by intro t; simp, by decide, by decide, by decide⟩

/-! ## C82: references -/

/-- A function scheduled directly on the worker is released when it has ended for good. -/
theorem C82_partial (ls : List Lbl) (id : Nat) (at' : Int) (r : Res) (hr : ∀ w, r ≠ .again w)
    (he : Ev.ended id at' r ∈ (exec ls).log) (hc : ¬ OnCurrent id (exec ls).log) : ¬ Held (exec ls) id := by
  have b := (exec_inv ls).1
  have hd : Dead id (exec ls).log := ⟨at', r, he, hr⟩
  have hne := b.dead id hd
  intro hh
  cases hh with
  | ready h => exact hne _ (by simp [St.pend, h]) rfl
  | timer h => exact hne _ (by simp [St.pend, h]) rfl
  | queue h => exact hne _ (by simp [St.pend, h]) rfl
  | run h => exact hne _ (by simp [St.live]; exact .inl ⟨_, h, rfl⟩) rfl
  | next ha hl => exact hc ((exec_logs ls).link _ _ hl)

example : Ev.ended 1 0 .done ∈ (exec demo).log ∧ ¬ OnCurrent 1 (exec demo).log := by
  refine ⟨by decide, ?_⟩
  rintro ⟨g, d, hm⟩
  have : (exec demo).log = [.asked 1 7 0 .posted, .began 1 3 0 .posted, .asked 2 7 0 .queued, .asked 3 8 0 .queued, .ended 1 0 .done,
     .handed 2, .handed 3, .began 2 4 0 .timed, .ended 2 2 (.again (.fromThis 5)), .asked 2 7 5 .timed,
     .began 3 5 2 .timed, .onError 3 8, .ended 3 2 .throws, .began 2 3 5 .timed, .ended 2 5 .done] := by decide
  rw [this] at hm
  simp at hm

/-- One scheduled on `current_thread` need not be: `pop` leaves `m_next` of the schedulable in place (queue.hpp 239-242), and while
everywhere else it is set anew when the schedulable is queued again, the guard puts it in a timer (strand.hpp 118-133).  So long as the
first task of the queue repeats itself, it keeps the ones that were behind it, with their handlers. -/
theorem C82_refutes : ∃ ls id at', NoOuter ls ∧ Ev.ended id at' .done ∈ (exec ls).log ∧ Held (exec ls) id :=
  ⟨[.schedule 7 0, .start 0, .current 7 0, .current 8 0, .finish .done, .expire 0, .expire 0, .start 0, .finish (.again (.fromThis 5)),
      .start 0, .finish .done], 3, 0, by intro t; simp, by decide,
    .next (a := 2) (.timer (j := ⟨2, 7, 5, .timed, true⟩) (by decide)) (by decide)⟩

end Rpp.Strand
