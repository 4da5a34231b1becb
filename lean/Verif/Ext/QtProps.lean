import Verif.Ext.QtProofs

/-!
# The Qt main thread scheduler: properties C83-C85

`exec ls` is any execution: threads asking for runs, disposing handlers, the clock advancing, the event loop picking any of the
timers that are up, functions returning in any way, the application ending and a new one starting.  What the theorems say reads
the log only (`waiting`, `lastReq`, `serial`, `wanted` in `Ext/Qt.lean`).
-/

namespace Rpp.Qt

/-- A concrete run: a function asked for 2 ms, run after 3 ms, reschedules itself from now, is run again and returns; a disposed
handler; a function that throws. -/
def demo : List Lbl :=
  [.schedule 7 2000000, .schedule 8 0, .dispose 8, .fire 1, .tick 3000000, .fire 0, .tick 10, .finish (.again (.fromNow 1000000)),
   .tick 1000000, .fire 0, .finish .done, .schedule 9 0, .fire 0, .finish .throws]

/-- **C83** (one at a time). -/
theorem C83_serial (ls : List Lbl) : serial none (exec ls).log = true := (exec_logs ls).ser

example : (exec demo).log = [.asked 1 7 0 2000000, .asked 2 8 0 0, .disposed 8, .dropped 2, .began 1 3000000,
    .ended 1 3000010 (.again (.fromNow 1000000)), .asked 1 7 3000010 4000010, .began 1 4000010, .ended 1 4000010 .done,
    .asked 3 9 4000010 4000010, .began 3 4000010, .ended 3 4000010 .throws, .escaped 3] := by decide

/-- **C83** (in part): a function is entered only on an outstanding request, which that uses up, whose handler is not disposed.
The time of the entry is at most a millisecond before the time point asked for, and not before it when the delay asked for is a
whole number of milliseconds.  Missing: with other delays it may be entered early (`C83_refutes`). -/
theorem C83_starts_partial (ls : List Lbl) (pre post : List Ev) (id : Nat) (at' : Int)
    (h : (exec ls).log = pre ++ .began id at' :: post) :
    ∃ r, waiting id pre = some r ∧ Ev.disposed r.h ∉ pre ∧ r.due - 1000000 < at' ∧ (Whole r → r.due ≤ at') := by
  obtain ⟨⟨r, h1, h2, h3, h4⟩, _⟩ := (exec_book ls).ok _ _ _ h
  exact ⟨r, h1, h4, h2, h3⟩

example : ∃ pre post, (exec demo).log = pre ++ .began 1 3000000 :: post ∧ Whole ⟨7, 0, 2000000⟩ ∧
    waiting 1 pre = some ⟨7, 0, 2000000⟩ :=
  ⟨[.asked 1 7 0 2000000, .asked 2 8 0 0, .disposed 8, .dropped 2], _, rfl, by unfold Whole; decide, by decide⟩

/-- The delay is cut down to whole milliseconds: a function asked for at 0.9 ms runs at once. -/
theorem C83_refutes : ∃ ls pre post id at' r, (exec ls).log = pre ++ .began id at' :: post ∧ waiting id pre = some r ∧
    at' < r.due :=
  ⟨[.schedule 7 900000, .fire 0], [.asked 1 7 0 900000], [], 1, 0, ⟨7, 0, 900000⟩, by decide, by decide, by decide⟩

/-- **C83** (asking again): while a request is outstanding there is no second one for the same function. -/
theorem C83_once (ls : List Lbl) (pre post : List Ev) (id h : Nat) (at' due : Int)
    (hx : (exec ls).log = pre ++ .asked id h at' due :: post) : waiting id pre = none :=
  ((exec_book ls).ok _ _ _ hx).1

/-- **C83** (giving up): a request is dropped at its time only if its handler is disposed. -/
theorem C83_dropped (ls : List Lbl) (pre post : List Ev) (id : Nat) (h : (exec ls).log = pre ++ .dropped id :: post) :
    ∃ r, waiting id pre = some r ∧ Ev.disposed r.h ∈ pre := (exec_book ls).ok _ _ _ h

example : ∃ pre post, (exec demo).log = pre ++ .dropped 2 :: post ∧ waiting 2 pre = some ⟨8, 0, 0⟩ :=
  ⟨[.asked 1 7 0 2000000, .asked 2 8 0 0, .disposed 8], _, rfl, by decide⟩

/-- **C83** (no application): asking while there is no application gives the handler an error, and the function never runs. -/
theorem C83_no_app (ls ls' : List Lbl) (h : Nat) (d : Int) (ha : (exec ls).app = false) :
    ∃ id a due, (exec (ls ++ [.schedule h d])).log = (exec ls).log ++ [.asked id h a due, .noApp id h] ∧
      (∀ e ∈ (exec ls).log, e.about ≠ some id) ∧
      ∀ t, Ev.began id t ∉ (exec (ls ++ [.schedule h d] ++ ls')).log := by
  have hl : (exec (ls ++ [.schedule h d])).log =
      (exec ls).log ++ [.asked ((exec ls).count + 1) h (exec ls).now ((exec ls).now + d), .noApp ((exec ls).count + 1) h] := by
    rw [exec_snoc]; simp [step, deferFor, ha, St.say]
  refine ⟨(exec ls).count + 1, _, _, hl, ?_, ?_⟩
  · intro e he ha
    have := (exec_book ls).evle e he _ ha
    omega
  · intro t ht
    have o : Out ((exec ls).count + 1) (exec (ls ++ [.schedule h d])) := by
      rw [exec_snoc]
      simp only [step, deferFor, ha, Bool.false_eq_true, if_false]
      refine ⟨Nat.le_refl _, ?_⟩
      intro j hj he
      have := (exec_book ls).le j hj
      omega
    have := (out_stays _ ls' o).2 t ht
    rw [hl] at this
    simp at this
    exact no_began_above ls (Nat.lt_succ_self _) t this

example : (exec [.quit]).app = false ∧
    (exec [.quit, .schedule 7 0, .launch, .tick 5, .fire 0]).log = [.asked 1 7 0 0, .noApp 1 7] := by decide

theorem app_quit (ls' : List Lbl) (hl : .launch ∉ ls') : ∀ s : St, s.app = false → (ls'.foldl step s).app = false := by
  induction ls' with
  | nil => exact fun s h => h
  | cons l ls' ih =>
    intro s h
    refine ih (fun hh => hl (by simp [hh])) _ ?_
    have hd : ∀ (s : St) id g d, s.app = false → (deferFor s id g d).app = false := by
      intro s id g d h; simp [deferFor, St.say, h]
    cases l with
    | schedule g d => exact hd _ _ _ _ h
    | dispose g => exact h
    | tick k => exact h
    | fire i =>
      simp only [step, fire]
      split
      · split
        · split <;> exact h
        · exact h
      · exact h
    | finish r =>
      simp only [step, finish]
      split
      · exact h
      · split
        · exact h
        · exact h
        all_goals exact hd _ _ _ _ h
    | quit => rfl
    | launch => simp at hl

/-- **C83** (no application): in particular whatever is asked for after the application object is destroyed, until there is a new one. -/
theorem C83_no_app_after_quit (ls later ls' : List Lbl) (hl : .launch ∉ later) (h : Nat) (d : Int) :
    ∃ id a due, (exec (ls ++ [.quit] ++ later ++ [.schedule h d])).log =
        (exec (ls ++ [.quit] ++ later)).log ++ [.asked id h a due, .noApp id h] ∧
      ∀ t, Ev.began id t ∉ (exec (ls ++ [.quit] ++ later ++ [.schedule h d] ++ ls')).log := by
  have ha : (exec (ls ++ [.quit] ++ later)).app = false := by
    have : exec (ls ++ [.quit] ++ later) = later.foldl step (step (exec ls) .quit) := by simp [exec, List.foldl_append]
    rw [this]
    exact app_quit later hl _ rfl
  obtain ⟨id, a, due, h1, _, h3⟩ := C83_no_app (ls ++ [.quit] ++ later) ls' h d ha
  exact ⟨id, a, due, h1, h3⟩

example : .launch ∉ [Lbl.tick 5] ∧ (exec ([.schedule 7 0] ++ [.quit] ++ [.tick 5] ++ [.schedule 8 1] ++ [.tick 9])).log =
    [.asked 1 7 0 0, .lost 1, .asked 2 8 5 6, .noApp 2 8] := by decide

theorem app_launch (ls' : List Lbl) (hl : .quit ∉ ls') : ∀ s : St, s.app = true → (ls'.foldl step s).app = true := by
  induction ls' with
  | nil => exact fun s h => h
  | cons l ls' ih =>
    intro s h
    refine ih (fun hh => hl (by simp [hh])) _ ?_
    have hd : ∀ (s : St) id g d, s.app = true → (deferFor s id g d).app = true := by
      intro s id g d h; simp [deferFor, St.say, h]
    cases l with
    | schedule g d => exact hd _ _ _ _ h
    | dispose g => exact h
    | tick k => exact h
    | fire i =>
      simp only [step, fire]
      split
      · split
        · split <;> exact h
        · exact h
      · exact h
    | finish r =>
      simp only [step, finish]
      split
      · exact h
      · split
        · exact h
        · exact h
        all_goals exact hd _ _ _ _ h
    | quit => simp at hl
    | launch => rfl

/-- **C83** (a new application): whatever is asked for once there is a new application object, until it is destroyed, is taken by
Qt: its call is pending and no error is raised. -/
theorem C83_app_after_launch (ls later : List Lbl) (hl : .quit ∉ later) (h : Nat) (d : Int) :
    ∃ j a due, (exec (ls ++ [.launch] ++ later ++ [.schedule h d])).log =
        (exec (ls ++ [.launch] ++ later)).log ++ [.asked j.id h a due] ∧ j.h = h ∧ j.due = due ∧ due = a + d ∧
      (exec (ls ++ [.launch] ++ later ++ [.schedule h d])).timers = (exec (ls ++ [.launch] ++ later)).timers ++ [j] := by
  have ha : (exec (ls ++ [.launch] ++ later)).app = true := by
    have : exec (ls ++ [.launch] ++ later) = later.foldl step (step (exec ls) .launch) := by simp [exec, List.foldl_append]
    rw [this]
    exact app_launch later hl _ rfl
  rw [exec_snoc]
  generalize exec (ls ++ [.launch] ++ later) = s at *
  simp only [step, deferFor, St.say, ha, if_true]
  exact ⟨_, _, _, rfl, rfl, rfl, rfl, rfl⟩

example : .quit ∉ [Lbl.tick 5] ∧ (exec ([.quit] ++ [.launch] ++ [.tick 5] ++ [.schedule 8 1] ++ [.tick 9, .fire 0])).log =
    [.asked 1 8 5 6, .began 1 14] := by decide

/-- **C83** (the application ends): what was asked for before and is not running at that moment is never run, also not under a
later application. -/
theorem C83_after_quit (ls ls' : List Lbl) (id : Nat) (t : Int) (hid : id ≤ (exec ls).count)
    (hrun : ∀ j t, (exec ls).run = some (j, t) → j.id ≠ id) :
    Ev.began id t ∈ (exec (ls ++ [.quit] ++ ls')).log → Ev.began id t ∈ (exec ls).log := by
  intro h
  obtain ⟨_, h1, h2, _, _⟩ := loseAll_book (s := exec ls) (js := (exec ls).timers) (exec_book ls)
  have o : Out id (exec (ls ++ [.quit])) := by
    rw [exec_snoc]
    refine ⟨by simp only [step, h2]; exact hid, ?_⟩
    intro k hk
    simp only [step, St.live, h1, List.append_nil, List.mem_map] at hk
    obtain ⟨⟨j, t'⟩, hj, rfl⟩ := hk
    exact hrun j t' (by simpa using hj)
  have q := (out_stays _ ls' o).2 t h
  rw [exec_snoc] at q
  exact loseAll_began q

example : (exec [.schedule 7 0, .quit, .launch, .tick 5, .fire 0]).log = [.asked 1 7 0 0, .lost 1] := by decide

/-- **C84** (in part): a function that asks to run again is requested again at once, for the same handler, and not more than a
millisecond before the time point the delay means: `wanted` of the time of the return and of the time point it was asked for.
For `delay_from_now` and `delay_to` it is that time point exactly.  Missing: for `delay_from_this_timepoint` it is counted
from when the function was entered (`C84_refutes`). -/
theorem C84_partial (ls : List Lbl) (pre post : List Ev) (id : Nat) (at' : Int) (w : Delay)
    (h : (exec ls).log = pre ++ .ended id at' (.again w) :: post) :
    ∃ r due post', lastReq id pre = some r ∧ post = .asked id r.h at' due :: post' ∧
      ((∀ d, w ≠ .fromThis d) → due = wanted at' r.due w) ∧
      wanted at' r.due w - 1000000 < due ∧ (Whole r → wanted at' r.due w ≤ due) := by
  obtain ⟨r, t, due, post', h1, _, ⟨_, h3, h4⟩, h5, h6⟩ := (exec_logs ls).per _ _ _ _ _ h
  refine ⟨r, due, post', h1, h5, ?_, ?_, ?_⟩
  · intro hw
    cases w with
    | fromThis d => exact absurd rfl (hw d)
    | _ => exact h6
  · cases w <;> simp only [nextDue, wanted] at h6 ⊢ <;> omega
  · intro hw
    have := h4 hw
    cases w <;> simp only [nextDue, wanted] at h6 ⊢ <;> omega

example : ∃ pre post, (exec demo).log = pre ++ .ended 1 3000010 (.again (.fromNow 1000000)) :: post ∧
    lastReq 1 pre = some ⟨7, 0, 2000000⟩ :=
  ⟨[.asked 1 7 0 2000000, .asked 2 8 0 0, .disposed 8, .dropped 2, .began 1 3000000], _, rfl, by decide⟩

/-- A periodic function that is entered late stays late: asked for 1 ms, entered at 3 ms, its next run one period after "this
time point" is asked for 4 ms and not for 2 ms. -/
theorem C84_refutes : ∃ ls pre post id at' d r due, (exec ls).log = pre ++ .ended id at' (.again (.fromThis d)) :: post ∧
    lastReq id pre = some r ∧ post = [.asked id r.h at' due] ∧ Whole r ∧ wanted at' r.due (.fromThis d) < due :=
  ⟨[.schedule 7 1000000, .tick 3000000, .fire 0, .finish (.again (.fromThis 1000000))],
   [.asked 1 7 0 1000000, .began 1 3000000], [.asked 1 7 3000000 4000000], 1, 3000000, 1000000, ⟨7, 0, 1000000⟩, 4000000,
   by decide, by decide, by decide, by unfold Whole; decide, by decide⟩

/-- **C85** (in part): a function that returned without asking for a further run, or threw, never runs again, and no run of it
is asked for.  Missing: the exception is to go to the handler's `on_error` (`C85_refutes`). -/
theorem C85_partial (ls : List Lbl) (pre post : List Ev) (id : Nat) (at' : Int) (r : Res) (hr : ∀ w, r ≠ .again w)
    (h : (exec ls).log = pre ++ .ended id at' r :: post) :
    (∀ t, Ev.began id t ∉ post) ∧ ∀ g t d, Ev.asked id g t d ∉ post := by
  constructor
  · intro t ht
    obtain ⟨p1, p2, rfl⟩ := List.append_of_mem ht
    have hok := (exec_book ls).ok (pre ++ .ended id at' r :: p1) (.began id t) p2 (by rw [h]; simp)
    exact hok.2 ⟨at', r, by simp, hr⟩
  · intro g t d ht
    obtain ⟨p1, p2, rfl⟩ := List.append_of_mem ht
    have hok := (exec_book ls).ok (pre ++ .ended id at' r :: p1) (.asked id g t d) p2 (by rw [h]; simp)
    exact hok.2 ⟨at', r, by simp, hr⟩

example : ∃ pre post, (exec demo).log = pre ++ .ended 3 4000010 .throws :: post ∧ post ≠ [] :=
  ⟨(exec demo).log.take 11, [.escaped 3], by decide, by decide⟩

/-- The handler of a function that throws is not told: the exception leaves the callback into Qt's event loop. -/
theorem C85_refutes : ∃ ls id h at' d t, Ev.asked id h at' d ∈ (exec ls).log ∧ Ev.ended id t .throws ∈ (exec ls).log ∧
    Ev.escaped id ∈ (exec ls).log ∧ ∀ i, Ev.noApp i h ∉ (exec ls).log := by
  have hl : (exec [.schedule 7 0, .fire 0, .finish .throws]).log =
      [.asked 1 7 0 0, .began 1 0, .ended 1 0 .throws, .escaped 1] := by decide
  refine ⟨[.schedule 7 0, .fire 0, .finish .throws], 1, 7, 0, 0, 0, ?_, ?_, ?_, ?_⟩
  · rw [hl]; simp
  · rw [hl]; simp
  · rw [hl]; simp
  · rw [hl]; simp

end Rpp.Qt
