import Verif.Scheduler.NewThread
/-!
# new_thread and thread_pool: properties (C61, C62, C63, C64, C65)
-/

namespace Rpp.Sched.NT
open Rpp.Sched

variable {c : Cfg}

/-! ## C61 -/

/-- C61: no run starts before the time requested for it. -/
theorem C61_not_early (ls : List Lbl) (pre post : List Ev) (e : Ent) (t : Int)
    (h : (exec c ls).log = pre ++ .start e t :: post ∨ (exec c ls).log = pre ++ .rerun e t :: post) :
    requested c.kind pre e.id = some e.tp ∧ e.tp ≤ t := by
  rcases h with h | h
  · have k := (Inv.exec ls).legal _ _ _ h
    exact ⟨k.2.2.2.2.1, k.2.1⟩
  · have k := (Inv.exec ls).legal _ _ _ h
    exact ⟨k.2.2.2.1, k.1⟩

/-- C61: tasks leave the queue in order of time, first come first served among equal times. -/
theorem C61_order (ls : List Lbl) (pre post : List Ev) (e : Ent) (t : Int)
    (h : (exec c ls).log = pre ++ .start e t :: post) : TrampSpec.IsNext (waiting pre) e :=
  ((Inv.exec ls).legal _ _ _ h).1

/-- C61: a request made with `schedule`, and a repetition asked for, enters the queue (or, for a repetition, is
run at once or its handler is disposed). -/
theorem C61_requests_kept (ls : List Lbl) (pre post : List Ev) (ev : Ev)
    (h : (exec c ls).log = pre ++ ev :: post) :
    (∀ id due, ev = .call id due → ∃ t p, post = .sched ⟨due, id⟩ t :: p) ∧
    (∀ id t v, ev = .fin id t (.again v) → .disp (c.hnd id) ∈ pre ∨ (∃ tp p, post = .sched ⟨tp, id⟩ t :: p) ∨
      ∃ tp p, post = .rerun ⟨tp, id⟩ t :: p) := by
  have := (Inv.exec ls).follow _ _ _ h
  constructor
  · rintro id due rfl; exact this
  · rintro id t v rfl; exact this

/-- C61: the thread ends only when the scheduler's worker objects are gone and every task has been run or
discarded as disposed. -/
theorem C61_exit (ls : List Lbl) (pre post : List Ev) (h : (exec c ls).log = pre ++ .exit :: post) :
    waiting pre = [] ∧ .stop ∈ pre :=
  (Inv.exec ls).legal _ _ _ h

/-- Events by which the worker thread shows that it runs. -/
def byWorker : Ev → Bool
  | .start .. | .rerun .. | .drop _ | .fin .. | .err _ | .exit | .ctcall .. => true
  | _ => false

/-- What the log says about the worker's end. -/
structure Over (s : St) : Prop where
  mode : .exit ∈ s.log → s.mode = .exited
  after : ∀ pre post, s.log = pre ++ .exit :: post → ∀ ev ∈ post, byWorker ev = false

theorem Over.live {s s' : St} {es : List Ev} (h : Over s) (hm : s.mode ≠ .exited) (hl : s'.log = s.log ++ es)
    (he : .exit ∉ es ∨ (es = [.exit] ∧ s'.mode = .exited)) : Over s' := by
  have hn : Ev.exit ∉ s.log := fun hh => hm (h.mode hh)
  refine ⟨fun hh => ?_, fun pre post hx ev hev => ?_⟩
  · rw [hl, List.mem_append] at hh
    rcases he with he | ⟨_, he⟩
    · rcases hh with hh | hh
      · exact absurd hh hn
      · exact absurd hh he
    · exact he
  · rw [hl] at hx
    rcases he with he | ⟨rfl, he⟩
    · have : Ev.exit ∈ s.log ++ es := by rw [hx]; simp
      rcases List.mem_append.1 this with hh | hh
      · exact absurd hh hn
      · exact absurd hh he
    · rcases List.eq_nil_or_concat post with rfl | ⟨p, x, rfl⟩
      · cases hev
      · have h2 : s.log ++ [Ev.exit] = (pre ++ .exit :: p) ++ [x] := by simpa using hx
        have := (List.append_inj' h2 rfl).1
        exact absurd (by rw [this]; simp) hn

theorem Over.dead {s s' : St} {es : List Ev} (h : Over s) (hm : s'.mode = s.mode) (hl : s'.log = s.log ++ es)
    (he : ∀ ev ∈ es, byWorker ev = false) : Over s' := by
  have hne : Ev.exit ∉ es := fun hh => by have := he _ hh; simp [byWorker] at this
  refine ⟨fun hh => ?_, fun pre post hx ev hev => ?_⟩
  · rw [hm]
    rw [hl, List.mem_append] at hh
    exact h.mode (hh.resolve_right hne)
  · rw [hl] at hx
    rcases List.append_eq_append_iff.1 hx with ⟨as, h1, h2⟩ | ⟨bs, h1, h2⟩
    · exact absurd (by rw [h2]; simp) hne
    · cases bs with
      | nil => exact absurd (by simp only [List.nil_append] at h2; rw [← h2]; simp) hne
      | cons b bs =>
        injection h2 with h2 h3
        subst h2
        rw [h3] at hev
        rcases List.mem_append.1 hev with hev | hev
        · exact h.after pre bs h1 ev hev
        · exact he ev hev

theorem Over.step {s : St} (h : Over s) (l : Lbl) : Over (step c s l) := by
  cases l with
  | tick d => exact h.dead (es := []) rfl (by simp [NT.step]) (by simp)
  | defer tp => exact h.dead (es := [.call s.next tp, .sched ⟨tp, s.next⟩ s.now]) rfl (by simp [NT.step, St.emit, St.enqueue]) (by simp [byWorker])
  | store i =>
    simp only [NT.step]
    split
    · exact h.dead (es := [.fresh i]) rfl rfl (by simp [byWorker])
    · exact h
  | dispose g => exact h.dead (es := [.disp g]) rfl rfl (by simp [byWorker])
  | stop => exact h.dead (es := [.stop]) rfl rfl (by simp [byWorker])
  | ctDefer tp =>
    simp only [NT.step]
    split
    · rename_i e hx
      by_cases hd : isDisposed c { s.emit (.ctcall s.next tp) with next := s.next + 1 } s.next = true
      · simp only [hd, if_true]
        exact h.live (es := [.ctcall s.next tp]) (by simp [hx]) rfl (by simp)
      · simp only [hd]
        exact h.live (es := [.ctcall s.next tp, .sched ⟨tp, s.next⟩ s.now]) (by simp [hx]) (by simp [St.emit, St.enqueue]) (by simp)
    · exact h
  | work =>
    simp only [NT.step]
    split
    · rename_i hx
      have hx' : s.mode ≠ .exited := by simp [hx]
      unfold loopStep
      split
      · split
        · exact h.live (es := [.exit]) hx' rfl (.inr ⟨rfl, rfl⟩)
        · exact h
      · rename_i top rest _
        split
        · exact h.live (es := [.drop top]) hx' rfl (by simp)
        · split
          · exact h.live (es := []) hx' (by simp) (by simp)
          · exact h.live (es := [.start top s.now]) hx' rfl (by simp)
    · rename_i hx
      have hx' : s.mode ≠ .exited := by simp [hx]
      unfold waitStep
      split
      · exact h.live (es := []) hx' (by simp) (by simp)
      · split
        · exact h.live (es := []) hx' (by simp) (by simp)
        · split
          · exact h.live (es := []) hx' (by simp) (by simp)
          · exact h.live (es := []) hx' (by simp) (by simp)
    · exact h
  | ret r =>
    simp only [NT.step]
    split
    · rename_i e hx
      have hx' : s.mode ≠ .exited := by simp [hx]
      unfold retStep
      simp only
      split
      · exact h.live (es := [.fin e.id s.now .stop]) hx' rfl (by simp)
      · exact h.live (es := [.fin e.id s.now .throw, .err e.id]) hx' (by simp [St.emit]) (by simp)
      · rename_i v
        split
        · exact h.live (es := [.fin e.id s.now (.again v)]) hx' rfl (by simp)
        · split
          · exact h.live (es := [.fin e.id s.now (.again v), .rerun _ s.now]) hx' (by simp [St.emit]; rfl) (by simp)
          · exact h.live (es := [.fin e.id s.now (.again v), .sched _ s.now]) hx' (by simp [St.emit, St.enqueue]; rfl) (by simp)
    · exact h

theorem Over.exec (ls : List Lbl) : Over (exec c ls) := by
  have : ∀ (ls : List Lbl) (s : St), Over s → Over (ls.foldl (NT.step c) s) := by
    intro ls
    induction ls with
    | nil => exact fun _ h => h
    | cons l ls ih => exact fun s h => ih _ (h.step l)
  exact this ls {} ⟨by simp, by simp⟩

/-- C61: when the worker thread has ended it has: nothing is run, dropped or reported by it afterwards, and it ends once. -/
theorem C61_exit_last (ls : List Lbl) (pre post : List Ev) (h : (exec c ls).log = pre ++ .exit :: post) :
    ∀ ev ∈ post, byWorker ev = false := (Over.exec ls).after pre post h

/-- The full C61: the worker never sleeps (with no reason for the operating system to wake it) while a task that is
not disposed is due. -/
def OnTime (c : Cfg) : Prop :=
  ∀ ls, blocked (exec c ls) = true → ∀ e ∈ waiting (exec c ls).log, .disp (c.hnd e.id) ∉ (exec c ls).log →
    (exec c ls).now < e.tp

/-- An example. -/
def exCfg : Cfg := { kind := fun _ => .fromNow, hnd := id }

/-- C61 is false: the worker waits for a task due at 100 when, at time 10, a task due at 50 is scheduled; the
notification makes the worker look and go back to sleep with the old deadline; at time 60 it still sleeps. -/
theorem C61_refutes : ¬ OnTime exCfg := by
  intro h
  have := h [.defer 100, .store 0, .work, .tick 10, .defer 50, .store 1, .work, .tick 50] (by decide) ⟨50, 1⟩ (by decide)
    (by decide)
  exact absurd this (by decide)

/-- C61 is false, seen from outside: with an operating system that wakes the worker exactly when asked (time passes
only while the worker is blocked) the task due at 50 starts at 100. -/
theorem C61_late_refutes :
    ∃ ls, (exec exCfg ls).log = [.call 0 100, .sched ⟨100, 0⟩ 0, .fresh 0, .call 1 50, .sched ⟨50, 1⟩ 10, .fresh 1,
      .start ⟨50, 1⟩ 100] ∧
    ∀ pre d post, ls = pre ++ .tick d :: post → blocked (exec exCfg pre) = true := by
  refine ⟨[.defer 100, .store 0, .work, .tick 10, .defer 50, .store 1, .work, .tick 90, .work, .work], by decide, ?_⟩
  have := split_of_take (l := [Lbl.defer 100, .store 0, .work, .tick 10, .defer 50, .store 1, .work, .tick 90, .work,
      .work]) (Q := fun pre x => (match x with | .tick _ => blocked (exec exCfg pre) | _ => true) = true) (by decide)
  intro pre d post h
  exact this pre _ post h

/-- C61, what holds: the worker sleeps past the time of a task `e` only if it sleeps for a later task `f` that was
queued before `e`, and `e` was not yet due when it was queued. In particular tasks queued in order of their times, and
tasks due when they are scheduled, are started as soon as the worker is free. Missing: the case above. -/
theorem C61_on_time_partial (ls : List Lbl) (hb : blocked (exec c ls) = true) (e : Ent)
    (he : e ∈ waiting (exec c ls).log) (hdue : e.tp ≤ (exec c ls).now) :
    (∃ a f b, waiting (exec c ls).log = a ++ f :: b ∧ e ∈ b ∧ (exec c ls).now < f.tp) ∧
    ∀ t, .sched e t ∈ (exec c ls).log → t < e.tp := by
  have h := Inv.exec (c := c) ls
  have heq : e ∈ (exec c ls).queue := by rw [← h.rep]; exact mem_isort.mpr he
  simp only [blocked] at hb
  cases hm : (exec c ls).mode with
  | wait dl =>
    simp only [hm, Bool.and_eq_true, Bool.not_eq_true', decide_eq_true_eq] at hb
    obtain ⟨a, f, b, hw, hf, ha⟩ := h.dl dl hm
    obtain ⟨l1, l2⟩ := h.look dl hm hb.1
    refine ⟨⟨a, f, b, hw, ?_, by omega⟩, ?_⟩
    · rw [hw, List.mem_append, List.mem_cons] at he
      rcases he with he | rfl | he
      · have := ha e he; omega
      · omega
      · exact he
    · intro t ht
      have := l1 e t ht
      have := l2 e heq
      omega
  | loop =>
    simp only [hm, Bool.and_eq_true, List.isEmpty_iff] at hb
    rw [hb.1] at heq; cases heq
  | run e => simp [hm] at hb
  | exited => simp [hm] at hb

/-- C61: a worker that is neither sleeping nor running a task (nor has ended) takes the next task out of the queue in
its next two steps if one is due. -/
theorem C61_progress (ls : List Lbl) (hm : (exec c ls).mode = .loop) (e : Ent)
    (he : e ∈ waiting (exec c ls).log) (hdue : e.tp ≤ (exec c ls).now) :
    ∃ f, (step c (exec c ls) .work).log = (exec c ls).log ++ [.drop f] ∨
      (step c (exec c ls) .work).log = (exec c ls).log ++ [.start f (exec c ls).now] := by
  have h := Inv.exec (c := c) ls
  simp only [step, hm, loopStep]
  cases hq : (exec c ls).queue with
  | nil => have := h.rep; rw [hq] at this; rw [isort_nil this] at he; cases he
  | cons top rest =>
    have := (Test.IsNext_of_rep (by rw [h.rep, hq]) :
      TrampSpec.IsNext (waiting (exec c ls).log) top ∧ _ ∧ _).2.2 e he
    dsimp only
    split
    · exact ⟨top, .inl rfl⟩
    · rw [if_neg (by simp only [Bool.and_eq_true, decide_eq_true_eq]; omega)]
      exact ⟨top, .inr rfl⟩

/-- Non-vacuity of C61_on_time_partial and C61_not_early: the blocked state of `C61_refutes`; and two tasks
scheduled in order, started on time. -/
example : blocked (exec exCfg [.defer 100, .store 0, .work, .tick 10, .defer 50, .store 1, .work, .tick 50]) = true ∧
    waiting (exec exCfg [.defer 100, .store 0, .work, .tick 10, .defer 50, .store 1, .work, .tick 50]).log =
      [⟨100, 0⟩, ⟨50, 1⟩] := by decide

example : (exec exCfg [.defer 5, .store 0, .defer 7, .work, .tick 5, .work, .work, .tick 1, .ret (.again 1), .work, .tick 1,
      .stop, .work, .work, .ret .stop, .work, .ret .stop, .work]).log =
    [.call 0 5, .sched ⟨5, 0⟩ 0, .fresh 0, .call 1 7, .sched ⟨7, 1⟩ 0, .start ⟨5, 0⟩ 5, .fin 0 6 (.again 1),
     .sched ⟨7, 0⟩ 6, .stop, .start ⟨7, 1⟩ 7, .fin 1 7 .stop, .start ⟨7, 0⟩ 7, .fin 0 7 .stop, .exit] := by decide

/-! ## C63 -/

/-- The full C63: a task that is due and waiting when another task asks for a zero-delay repetition is started or
discarded before that other task runs again. -/
def NoStarvation (c : Cfg) : Prop :=
  ∀ ls pre j t mid ev post e, (exec c ls).log = pre ++ .fin j t (.again 0) :: (mid ++ ev :: post) →
    (∃ x t', x.id = j ∧ (ev = .start x t' ∨ ev = .rerun x t')) → c.kind j ≠ .to →
    e ∈ waiting pre → e.tp ≤ t → (∃ t', .start e t' ∈ mid) ∨ .drop e ∈ mid

/-- The run of a zero-delay task that schedules another task through current_thread, then `n` more repetitions. -/
def hog (n : Nat) : List Lbl := [.defer 0, .store 0, .work, .ctDefer 0] ++ List.replicate n (.ret (.again 0))

theorem hog_state (n : Nat) : (exec exCfg (hog n)).mode = .run ⟨0, 0⟩ ∧ (exec exCfg (hog n)).hasFresh = false ∧
    (exec exCfg (hog n)).now = 0 ∧ (exec exCfg (hog n)).disposed = [] ∧
    (exec exCfg (hog n)).log = [.call 0 0, .sched ⟨0, 0⟩ 0, .fresh 0, .start ⟨0, 0⟩ 0, .ctcall 1 0, .sched ⟨0, 1⟩ 0] ++
      (List.replicate n [Ev.fin 0 0 (.again 0), .rerun ⟨0, 0⟩ 0]).flatten := by
  induction n with
  | zero => decide
  | succ n ih =>
    obtain ⟨i1, i2, i3, i4, i5⟩ := ih
    have hs : exec exCfg (hog (n + 1)) = step exCfg (exec exCfg (hog n)) (.ret (.again 0)) := by
      simp only [hog, exec, List.replicate_succ', List.foldl_append, List.foldl_cons, List.foldl_nil]
    rw [hs]
    simp only [step, i1, retStep, isDisposed, St.emit, i2, i3, i4, i5]
    refine ⟨rfl, rfl, rfl, rfl, ?_⟩
    simp only [List.replicate_succ', List.flatten_append, List.append_assoc]
    rfl

/-- C63 is false: a task scheduled through current_thread by code running on the worker thread never starts,
however often the zero-delay task that is running there repeats. -/
theorem C63_starved_refutes (n : Nat) : ∃ ls, (∃ pre, (exec exCfg ls).log = pre ++
      (List.replicate n [Ev.fin 0 0 (.again 0), .rerun ⟨0, 0⟩ 0]).flatten ∧ ⟨0, 1⟩ ∈ waiting pre) ∧
    ⟨0, 1⟩ ∈ waiting (exec exCfg ls).log ∧ ∀ t, .start ⟨0, 1⟩ t ∉ (exec exCfg ls).log := by
  have hw : ∀ n, waiting ([.call 0 0, .sched ⟨0, 0⟩ 0, .fresh 0, .start ⟨0, 0⟩ 0, .ctcall 1 0, .sched ⟨0, 1⟩ 0] ++
      (List.replicate n [Ev.fin 0 0 (.again 0), .rerun ⟨0, 0⟩ 0]).flatten) = [⟨0, 1⟩] := by
    intro n
    induction n with
    | zero => decide
    | succ n ih =>
      simp only [List.replicate_succ', List.flatten_append, ← List.append_assoc, List.flatten_cons, List.flatten_nil,
        List.append_nil] at ih ⊢
      have hsplit : ∀ l : List Ev, l ++ [Ev.fin 0 0 (.again 0), .rerun ⟨0, 0⟩ 0] =
        l ++ [Ev.fin 0 0 (.again 0)] ++ [.rerun ⟨0, 0⟩ 0] := by simp
      rw [hsplit, waiting_snoc, waiting_snoc]; exact ih
  refine ⟨hog n, ⟨_, (hog_state n).2.2.2.2, by decide⟩, ?_, ?_⟩
  · rw [(hog_state n).2.2.2.2, hw]; simp
  · intro t
    rw [(hog_state n).2.2.2.2]
    simp

theorem C63_refutes : ¬ NoStarvation exCfg := by
  intro h
  have := h (hog 1) [.call 0 0, .sched ⟨0, 0⟩ 0, .fresh 0, .start ⟨0, 0⟩ 0, .ctcall 1 0, .sched ⟨0, 1⟩ 0] 0 0 []
    (.rerun ⟨0, 0⟩ 0) [] ⟨0, 1⟩ (by decide) ⟨⟨0, 0⟩, 0, rfl, .inr rfl⟩ (by decide) (by decide) (by decide)
  simp at this

/-- C63 is false also for tasks scheduled through the worker, if the repeating task uses
`delay_from_this_timepoint`: it keeps its old time and goes in front of every task due later. -/
theorem C63_from_this_refutes : ¬ NoStarvation { exCfg with kind := fun _ => .fromThis } := by
  intro h
  have := h [.defer 0, .store 0, .tick 9, .work, .defer 5, .store 1, .ret (.again 0), .work]
    [.call 0 0, .sched ⟨0, 0⟩ 0, .fresh 0, .start ⟨0, 0⟩ 9, .call 1 5, .sched ⟨5, 1⟩ 9, .fresh 1] 0 9
    [.sched ⟨0, 0⟩ 9] (.start ⟨0, 0⟩ 9) [] ⟨5, 1⟩ (by decide) ⟨⟨0, 0⟩, 9, rfl, .inl rfl⟩ (by decide) (by decide) (by decide)
  revert this; simp

/-- C63, part one of what holds: a task is run again without going through the queue only if every waiting task came
through current_thread or its `schedule` call has not returned yet. -/
theorem C63_in_place_partial (ls : List Lbl) (pre post : List Ev) (x : Ent) (t : Int)
    (h : (exec c ls).log = pre ++ .rerun x t :: post) :
    ∀ f ∈ waiting pre, (∃ due, .ctcall f.id due ∈ pre) ∨ .fresh f.id ∉ pre :=
  ((Inv.exec ls).legal _ _ _ h).2.2.2.2

theorem nodup_of_map {l : List Ent} (h : (l.map (·.id)).Nodup) : l.Nodup := by
  induction l with
  | nil => exact List.nodup_nil
  | cons a l ih =>
    rw [List.map_cons, List.nodup_cons] at h
    exact List.nodup_cons.mpr ⟨fun hm => h.1 (List.mem_map_of_mem hm), ih h.2⟩

theorem inj_of_nodup_map {l : List Ent} (h : (l.map (·.id)).Nodup) {x y : Ent} (hx : x ∈ l) (hy : y ∈ l)
    (hid : x.id = y.id) : x = y := by
  induction l with
  | nil => cases hx
  | cons a l ih =>
    rw [List.map_cons, List.nodup_cons] at h
    simp only [List.mem_cons] at hx hy
    rcases hx with rfl | hx <;> rcases hy with rfl | hy
    · rfl
    · exact absurd (hid ▸ List.mem_map_of_mem hy) h.1
    · exact absurd (hid ▸ List.mem_map_of_mem hx) h.1
    · exact ih h.2 hx hy

theorem split_unique {l a b c : List Ent} {g : Ent} (h : (l ++ g :: c).Nodup) (he : l ++ g :: c = a ++ g :: b) :
    l = a := by
  rcases List.append_eq_append_iff.mp he with ⟨x, rfl, hx⟩ | ⟨x, rfl, hx⟩
  · cases x with
    | nil => simp
    | cons y x =>
      simp only [List.cons_append, List.cons.injEq] at hx
      obtain ⟨rfl, hx⟩ := hx
      rw [List.nodup_append, List.nodup_cons, hx] at h
      exact absurd (by simp) h.2.1.1
  · cases x with
    | nil => simp
    | cons y x =>
      simp only [List.cons_append, List.cons.injEq] at hx
      obtain ⟨rfl, hx⟩ := hx
      rw [List.append_assoc, List.nodup_append, List.cons_append, List.nodup_cons] at h
      exact absurd (by simp) h.2.1.1

theorem erase_keeps {a b d : List Ent} {e g x : Ent} (he : x ≠ e) (hg : x ≠ g) :
    ∃ a' b' d', (a ++ e :: (b ++ g :: d)).erase x = a' ++ e :: (b' ++ g :: d') := by
  by_cases h1 : x ∈ a
  · exact ⟨a.erase x, b, d, by rw [List.erase_append_left _ h1]⟩
  · rw [List.erase_append_right _ h1, List.erase_cons_tail (by simpa using he.symm)]
    by_cases h2 : x ∈ b
    · exact ⟨a, b.erase x, d, by rw [List.erase_append_left _ h2]⟩
    · rw [List.erase_append_right _ h2, List.erase_cons_tail (by simpa using hg.symm)]
      exact ⟨a, b, d.erase x, rfl⟩

/-- C63, part two: a repetition with `delay_from_now` that goes through the queue lets every waiting task due by then
run first. Missing: repetitions with `delay_from_this_timepoint`, and tasks queued through current_thread. -/
theorem C63_queued_partial (ls : List Lbl) (pre mid post : List Ev) (j : Nat) (t v t' : Int) (x e : Ent)
    (h : (exec c ls).log = pre ++ .fin j t (.again v) :: (mid ++ .start x t' :: post)) (hx : x.id = j)
    (hno : ∀ ev ∈ mid, ∀ y u, y.id = j → ev ≠ .start y u ∧ ev ≠ .rerun y u)
    (hk : c.kind j = .fromNow) (he : e ∈ waiting pre) (hdue : e.tp ≤ t + v) :
    (∃ u, .start e u ∈ mid) ∨ .drop e ∈ mid := by
  have hi := Inv.exec (c := c) ls
  -- how the repetition was put back
  have hst : Ok c (pre ++ .fin j t (.again v) :: mid) (.start x t') :=
    hi.legal _ _ post (by simp [h])
  rcases hi.follow _ _ _ h with hd | ⟨tp, p, hp⟩ | ⟨tp, p, hp⟩
  · exact absurd (by rw [hx]; simp [hd]) hst.2.2.2.1
  · cases mid with
    | nil => simp at hp
    | cons m0 mid =>
      simp only [List.cons_append, List.cons.injEq] at hp
      obtain ⟨rfl, hp⟩ := hp
      have htp : tp = t + v := by
        have hs : Ok c (pre ++ [.fin j t (.again v)]) (.sched ⟨tp, j⟩ t) :=
          hi.legal (pre ++ [.fin j t (.again v)]) (.sched ⟨tp, j⟩ t) (mid ++ .start x t' :: post) (by simp [h])
        have := hs.1
        rw [requested_snoc] at this
        simp only [reqStep, if_true, hk, Option.some.injEq] at this
        exact this.symm
      apply Classical.byContradiction
      intro hcon
      simp only [not_or, not_exists] at hcon
      -- `e` stays in front of the repetition
      have key : ∀ m rest, mid = m ++ rest → ∃ a b d,
          waiting (pre ++ [.fin j t (.again v)] ++ [.sched ⟨tp, j⟩ t] ++ m) = a ++ e :: (b ++ ⟨tp, j⟩ :: d) := by
        intro m
        induction m using snoc_ind with
        | h0 =>
          intro rest _
          obtain ⟨a, b, hab⟩ := List.append_of_mem he
          exact ⟨a, b, [], by simp only [List.append_nil, waiting_snoc, hab]; simp⟩
        | h1 m y ih =>
          intro rest hm
          obtain ⟨a, b, d, hw⟩ := ih (y :: rest) (by simp [hm])
          have hy : y ∈ mid := by rw [hm]; simp
          rw [← List.append_assoc, waiting_snoc, hw]
          cases y with
          | sched g u => exact ⟨a, b, d ++ [g], by simp⟩
          | start g u =>
            refine erase_keeps ?_ ?_
            · rintro rfl; exact hcon.1 u (List.mem_cons_of_mem _ hy)
            · rintro rfl; exact (hno _ (List.mem_cons_of_mem _ hy) _ _ rfl).1 rfl
          | drop g =>
            have hdr : Ok c (pre ++ [.fin j t (.again v)] ++ [.sched ⟨tp, j⟩ t] ++ m) (.drop g) :=
              hi.legal _ _ (rest ++ .start x t' :: post) (by simp [h, hm])
            refine erase_keeps ?_ ?_
            · rintro rfl; exact hcon.2 (List.mem_cons_of_mem _ hy)
            · rintro rfl
              -- the repetition's handler is disposed, so it cannot start later
              have hd : Ev.disp (c.hnd j) ∈ _ := hdr.2
              refine hst.2.2.2.1 ?_
              rw [hx, hm]
              simp only [List.mem_append, List.mem_cons] at hd ⊢
              grind
          | _ => exact ⟨a, b, d, rfl⟩
      obtain ⟨a, b, d, hw⟩ := key mid [] (by simp)
      have hw' : waiting (pre ++ .fin j t (.again v) :: .sched ⟨tp, j⟩ t :: mid) = a ++ e :: (b ++ ⟨tp, j⟩ :: d) := by
        rw [← hw]; simp
      obtain ⟨⟨a', b', hn, hna, hnb⟩, _, _, _, _, hnd⟩ := hst
      rw [hw'] at hn hnd
      -- the entry of task `j` is unique
      have hxeq : x = ⟨tp, j⟩ := by
        have hxm : x ∈ a ++ e :: (b ++ ⟨tp, j⟩ :: d) := by rw [hn]; simp
        exact inj_of_nodup_map hnd hxm (by simp) hx
      subst hxeq
      have hpre : a' = a ++ e :: b := by
        have hn' : (a ++ e :: b) ++ ⟨tp, j⟩ :: d = a' ++ ⟨tp, j⟩ :: b' := by simpa using hn
        have hnd' : ((a ++ e :: b) ++ (⟨tp, j⟩ : Ent) :: d).Nodup := by
          have := nodup_of_map hnd
          simpa using this
        exact (split_unique hnd' hn').symm
      have := hna e (by rw [hpre]; simp)
      simp only at this
      omega
  · cases mid with
    | nil => simp at hp
    | cons m0 mid =>
      simp only [List.cons_append, List.cons.injEq] at hp
      exact absurd hp.1 (hno m0 (by simp) ⟨tp, j⟩ t rfl).2

/-- Non-vacuity of C63_queued_partial: the repeating task 0 lets task 1, scheduled meanwhile, go first. -/
example : (exec exCfg [.defer 0, .work, .defer 0, .store 0, .store 1, .ret (.again 0), .work, .ret .stop, .work]).log =
    [.call 0 0, .sched ⟨0, 0⟩ 0, .start ⟨0, 0⟩ 0, .call 1 0, .sched ⟨0, 1⟩ 0, .fresh 0, .fresh 1, .fin 0 0 (.again 0),
     .sched ⟨0, 0⟩ 0, .start ⟨0, 1⟩ 0, .fin 1 0 .stop, .start ⟨0, 0⟩ 0] := by decide

/-- Non-vacuity of C63_in_place_partial: a rerun while the schedule call for task 1 is not complete. -/
example : (exec exCfg [.defer 0, .store 0, .work, .defer 0, .ret (.again 0), .store 1]).log =
    [.call 0 0, .sched ⟨0, 0⟩ 0, .fresh 0, .start ⟨0, 0⟩ 0, .call 1 0, .sched ⟨0, 1⟩ 0, .fin 0 0 (.again 0),
     .rerun ⟨0, 0⟩ 0, .fresh 1] := by decide

/-! ## C64, C65 -/

/-- C64 for new_thread: a task whose handler is disposed is not started, nor run again. -/
theorem C64_new_thread (ls : List Lbl) (pre post : List Ev) (e : Ent) (t : Int)
    (h : (exec c ls).log = pre ++ .start e t :: post ∨ (exec c ls).log = pre ++ .rerun e t :: post) :
    .disp (c.hnd e.id) ∉ pre := by
  rcases h with h | h
  · exact ((Inv.exec ls).legal _ _ _ h).2.2.2.1
  · exact ((Inv.exec ls).legal _ _ _ h).2.2.1

/-- C65 for new_thread: a throw is reported at once to the handler, once for the task, and the task neither
enters the queue nor is run again. -/
theorem C65_new_thread (ls : List Lbl) (pre post : List Ev) (id : Nat) (t : Int)
    (h : (exec c ls).log = pre ++ .fin id t .throw :: post) :
    ∃ p, post = .err id :: p ∧ .err id ∉ pre ∧ .err id ∉ p ∧
      (∀ e ∈ p.filterMap (fun | .sched e _ => some e | .start e _ => some e | .rerun e _ => some e | _ => none),
        e.id ≠ id) := by
  have hi := Inv.exec (c := c) ls
  obtain ⟨p, rfl⟩ := hi.follow _ _ _ h
  have h' : (exec c ls).log = (pre ++ [.fin id t .throw]) ++ .err id :: p := by simp [h]
  refine ⟨p, rfl, ?_, ?_, ?_⟩
  · have := (hi.legal _ _ _ h').1
    intro hm; exact this (by simp [hm])
  · intro hm
    obtain ⟨a, b, rfl⟩ := List.append_of_mem hm
    exact (hi.legal (pre ++ .fin id t .throw :: .err id :: a) (.err id) b (by simp [h])).1 (by simp)
  · intro e he hid
    obtain ⟨ev, hev, hx⟩ := List.mem_filterMap.mp he
    obtain ⟨a, b, rfl⟩ := List.append_of_mem hev
    have hl := hi.legal (pre ++ .fin id t .throw :: .err id :: a) ev b (by simp [h])
    cases ev <;> simp at hx
    · subst hx; exact hl.2 (by simp [hid])
    · subst hx; exact hl.2.2.1 (by simp [hid])
    · subst hx; exact hl.2.1 (by simp [hid])

/-- Non-vacuity: task 0 throws; task 1 is disposed while it waits. -/
example : (exec exCfg [.defer 0, .defer 1, .work, .ret .throw, .tick 1, .dispose 1, .work]).log =
    [.call 0 0, .sched ⟨0, 0⟩ 0, .call 1 1, .sched ⟨1, 1⟩ 0, .start ⟨0, 0⟩ 0, .fin 0 0 .throw, .err 0, .disp 1,
     .drop ⟨1, 1⟩] := by decide

end Rpp.Sched.NT

/-! ## thread_pool (C62)

`thread_pool` adds to `new_thread` only the choice of the worker. -/

namespace Rpp.Sched.Pool

/-- `thread_pool::state`, thread_pool.hpp 72-88: number of workers and `m_index`. -/
structure St where
  size : Nat
  index : Nat := 0
deriving DecidableEq, Repr

/-- The constructor, thread_pool.hpp 75-81. -/
def init (threads : Nat) : St := { size := max 1 threads }

/-- `get()`, thread_pool.hpp 83: the index of the worker handed out; `S` is the number of values of `size_t`. Calls
from several threads are assumed to be serialised by the user (`m_index++` is not atomic). -/
def get (S : Nat) (s : St) : St × Nat := ({ s with index := (s.index + 1) % S }, s.index % s.size)

/-- The indices handed out by the first `n` calls of `create_worker`. -/
def handed (S : Nat) (s : St) : Nat → List Nat
  | 0 => []
  | n + 1 => (get S s).2 :: handed S (get S s).1 n

theorem handed_eq (S : Nat) : ∀ (n : Nat) (s : St), s.index + n ≤ S →
    handed S s n = (List.range n).map fun i => (s.index + i) % s.size := by
  intro n
  induction n with
  | zero => intro s _; rfl
  | succ n ih =>
    intro s h
    rw [handed, List.range_succ_eq_map, List.map_cons, List.map_map]
    refine List.cons_eq_cons.mpr ⟨rfl, ?_⟩
    cases n with
    | zero => rfl
    | succ n =>
      have hs : s.index + 1 < S := by omega
      have : (get S s).1 = { s with index := s.index + 1 } := by simp only [get, Nat.mod_eq_of_lt hs]
      rw [this, ih _ (by dsimp only; omega)]
      refine List.map_congr_left fun i _ => ?_
      simp only [Function.comp]
      congr 1; omega

/-- C62: with `n` threads the `i`-th worker created uses thread `i mod max(1,n)` (up to 2^64 workers). -/
theorem C62_round_robin (threads n : Nat) (h : n ≤ 2 ^ 64) :
    handed (2 ^ 64) (init threads) n = (List.range n).map fun i => i % max 1 threads := by
  rw [handed_eq _ _ _ (by simpa [init] using h)]
  simp [init]

theorem count_mod (m r : Nat) (hr : r < m) : ∀ n, ((List.range n).map (· % m)).count r =
    n / m + if r < n % m then 1 else 0 := by
  intro n
  induction n with
  | zero => simp
  | succ n ih =>
    rw [List.range_succ, List.map_append, List.count_append, ih]
    simp only [List.map_cons, List.map_nil, List.count_singleton, beq_iff_eq]
    have hm : 0 < m := by omega
    have h1 : n % m < m := Nat.mod_lt _ hm
    have hd := Nat.div_add_mod n m
    by_cases hlast : n % m + 1 = m
    · have e1 : (n + 1) % m = 0 := by
        have : n + 1 = m * (n / m + 1) := by rw [Nat.mul_add]; omega
        rw [this]; simp
      have e2 : (n + 1) / m = n / m + 1 := by
        have : n + 1 = m * (n / m + 1) := by rw [Nat.mul_add]; omega
        rw [this, Nat.mul_div_cancel_left _ hm]
      rw [e1, e2]
      by_cases hx : n % m = r
      · simp [hx]
      · rw [if_pos (by omega), if_neg hx]; simp
    · have e1 : (n + 1) % m = n % m + 1 := by
        have : n + 1 = (n % m + 1) + m * (n / m) := by omega
        rw [this, Nat.add_mul_mod_self_left, Nat.mod_eq_of_lt (by omega)]
      have e2 : (n + 1) / m = n / m := by
        have : n + 1 = (n % m + 1) + m * (n / m) := by omega
        rw [this, Nat.add_mul_div_left _ _ hm, Nat.div_eq_of_lt (by omega)]; omega
      rw [e1, e2]
      grind

/-- C62: the loads of any two threads differ by at most one. -/
theorem C62_balanced (threads n a b : Nat) (h : n ≤ 2 ^ 64) (ha : a < max 1 threads) (hb : b < max 1 threads) :
    (handed (2 ^ 64) (init threads) n).count a ≤ (handed (2 ^ 64) (init threads) n).count b + 1 := by
  rw [C62_round_robin _ _ h, count_mod _ _ ha, count_mod _ _ hb]
  split <;> split <;> omega

/-- C62: the index is always that of an existing worker, even after `m_index` wraps. -/
theorem C62_in_range (S threads n : Nat) : ∀ i ∈ handed S (init threads) n, i < (init threads).size := by
  suffices ∀ s : St, 0 < s.size → ∀ i ∈ handed S s n, i < s.size from this _ (by simp [init]; omega)
  induction n with
  | zero => intro s _ i hi; cases hi
  | succ n ih =>
    intro s hs i hi
    simp only [handed, List.mem_cons] at hi
    rcases hi with rfl | hi
    · exact Nat.mod_lt _ hs
    · exact ih (get S s).1 hs i hi

/-- Non-vacuity. -/
example : handed (2 ^ 64) (init 3) 7 = [0, 1, 2, 0, 1, 2, 0] ∧ handed (2 ^ 64) (init 0) 2 = [0, 0] := by decide

end Rpp.Sched.Pool
