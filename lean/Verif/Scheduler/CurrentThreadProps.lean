import Verif.Scheduler.CurrentThreadProofs
/-!
# current_thread scheduler: properties (C56, C57, C64, C65)

`c` is an arbitrary program and environment, `ls` an arbitrary sequence of user actions and scheduler steps.
The specification functions are `TrampSpec.waiting`, `running`, `requested` and `IsNext`.
-/

namespace Rpp.Sched
open CT TrampSpec

variable (c : Cfg)

theorem inv0 (ls : List Lbl) : Inv c (fun i => c.kind i ≠ .fromThis) (exec c ls) :=
  Inv.exec ls (fun _ _ _ _ _ _ _ h => h)

/-- Where `running` goes from `[p]` to `[]`, the task `p` returned. -/
theorem running_gap {P} {tl : List Ev} (pre mid : List Ev) (p : Nat) (hl : Legal c P (pre ++ mid ++ tl))
    (h1 : running pre = [p]) (h2 : running (pre ++ mid) = []) : ∃ t r, Ev.fin p t r ∈ mid := by
  revert tl
  induction mid using snoc_ind with
  | h0 => simp [h1] at h2
  | h1 mid ev ih =>
    intro tl hl
    cases hrm : running (pre ++ mid) with
    | nil =>
      obtain ⟨t, r, hm⟩ := ih hrm (tl := ev :: tl) (by simpa using hl)
      exact ⟨t, r, by simp [hm]⟩
    | cons q qs =>
      have hok := hl (pre ++ mid) ev tl (by simp)
      rw [← List.append_assoc, running_snoc] at h2
      cases ev with
      | start e t => simp at h2
      | fin id t r =>
        -- the one returning is the only one running; it is `p` unless `p` returned before
        simp only [Ok] at hok
        by_cases hp : ∃ t r, Ev.fin p t r ∈ mid
        · obtain ⟨t, r, hm⟩ := hp; exact ⟨t, r, by simp [hm]⟩
        · suffices id = p by subst this; exact ⟨t, r, by simp⟩
          clear h2 ih
          -- until `p` returns, it stays the running one
          have key : ∀ l : List Ev, ∀ tl, Legal c P (pre ++ l ++ tl) → (¬ ∃ t r, Ev.fin p t r ∈ l) →
              running (pre ++ l) = [p] := by
            intro l
            induction l using snoc_ind with
            | h0 => intro _ _ _; simpa using h1
            | h1 l x ih =>
              intro tl hl' hno
              have ih' := ih (x :: tl) (by simpa using hl') (fun ⟨t, r, hm⟩ => hno ⟨t, r, by simp [hm]⟩)
              have hok' := hl' (pre ++ l) x tl (by simp)
              rw [← List.append_assoc, running_snoc]
              cases x with
              | start e t => simp [Ok, ih'] at hok'
              | fin i t r =>
                simp only [Ok, ih', List.cons.injEq, and_true] at hok'
                exact absurd ⟨t, r, by simp [hok']⟩ hno
              | _ => exact ih'
          have := key mid (.fin id t r :: tl) (by simpa using hl) hp
          rw [this] at hok
          simpa using hok.symm
      | _ => simp_all

/-! ## C56 -/

/-- C56: a task function is entered only when no other one is being executed, and it is the one with the least
time among all waiting requests (the first requested among those of equal time). -/
theorem C56_order (ls : List Lbl) (pre post : List Ev) (e : Ent) (t : Int)
    (h : (exec c ls).log = pre ++ .start e t :: post) : running pre = [] ∧ IsNext (waiting pre) e :=
  let k := (inv0 c ls).base.legal pre _ post h
  ⟨k.1, k.2.1⟩

/-- C56: no task function starts before the time of its request. -/
theorem C56_not_early (ls : List Lbl) (pre post : List Ev) (e : Ent) (t : Int)
    (h : (exec c ls).log = pre ++ .start e t :: post) : e.tp ≤ t :=
  ((inv0 c ls).base.legal pre _ post h).2.2.1

/-- C56: a run requested while task `p` is being executed starts only after `p` has returned. -/
theorem C56_after_parent (ls : List Lbl) (pre mid post : List Ev) (e : Ent) (t : Int) (p : Nat)
    (h : (exec c ls).log = pre ++ .sched e :: mid ++ .start e t :: post) (hr : running pre = [p]) :
    ∃ t' r, Ev.fin p t' r ∈ mid := by
  have hl := (inv0 c ls).base.legal
  rw [h] at hl
  have hr' : running (pre ++ [.sched e]) = [p] := by rw [running_snoc]; exact hr
  refine running_gap c (P := fun i => c.kind i ≠ .fromThis) (tl := .start e t :: post)
    (pre ++ [.sched e]) mid p ?_ hr' ?_
  · simpa using hl
  · have := hl (pre ++ .sched e :: mid) (.start e t) post (by simp)
    simpa using this.1

/-- C56: task functions never run nested. -/
theorem C56_not_nested (ls : List Lbl) (pre mid post : List Ev) (e f : Ent) (t u : Int)
    (h : (exec c ls).log = pre ++ .start e t :: mid ++ .start f u :: post) :
    ∃ t' r, Ev.fin e.id t' r ∈ mid := by
  have hl := (inv0 c ls).base.legal
  rw [h] at hl
  have h1 := (hl pre (.start e t) (mid ++ .start f u :: post) (by simp)).1
  have hr' : running (pre ++ [.start e t]) = [e.id] := by rw [running_snoc]; simp [h1]
  refine running_gap c (P := fun i => c.kind i ≠ .fromThis) (tl := .start f u :: post)
    (pre ++ [.start e t]) mid e.id ?_ hr' ?_
  · simpa using hl
  · have := hl (pre ++ .start e t :: mid) (.start f u) post (by simp)
    simpa using this.1

/-- C56: when the outermost `schedule` call (or queue-owning scope) has returned, every requested run has taken
place or was discarded because its handler is disposed. -/
theorem C56_all_run (ls : List Lbl) (hm : (exec c ls).mode = .user) (ho : (exec c ls).owned = false) :
    waiting (exec c ls).log = [] := by
  have h := inv0 c ls
  have hrep := h.base.rep
  have hown := h.own
  simp only [hm, pend] at hrep hown
  rw [hown ho] at hrep
  exact isort_nil hrep

/-- C56: the time of a request is the one user code asked for: the time given to `schedule`, or computed from
the value returned by the previous run. (For tasks returning `delay_from_this_timepoint` this is C57.) -/
theorem C56_times (ls : List Lbl) (pre post : List Ev) (e : Ent) (t : Int)
    (h : (exec c ls).log = pre ++ .start e t :: post) (hk : c.kind e.id ≠ .fromThis) :
    requested c.kind pre e.id = some e.tp :=
  ((inv0 c ls).base.legal pre _ post h).2.2.2.2.2 hk

/-- Non-vacuity: task 0 schedules task 1 (delay 2) and task 2 (delay 1) and asks to be repeated once after 3;
they run after it, in order of time. -/
def exTree : Cfg where
  body id n := if id = 0 ∧ n = 0 then ([.deferFor 2, .deferFor 1, .elapse 1], .again 3) else ([], .stop)
  kind _ := .fromNow
  hnd _ := 0
  ext _ := none
  lag _ := 0

example : (exec exTree [.act (.deferFor 5), .run, .run, .run, .run, .run, .run]).log =
    [.call 0 5, .sched ⟨5, 0⟩, .start ⟨5, 0⟩ 5, .call 1 7, .sched ⟨7, 1⟩, .call 2 6, .sched ⟨6, 2⟩,
     .fin 0 6 (.again 3), .sched ⟨9, 0⟩, .start ⟨6, 2⟩ 6, .fin 2 6 .stop, .start ⟨7, 1⟩ 7, .fin 1 7 .stop,
     .start ⟨9, 0⟩ 9, .fin 0 9 .stop] := by decide

example : (exec exTree [.act (.deferFor 5), .run, .run, .run, .run, .run, .run]).mode = .user ∧
    (exec exTree [.act (.deferFor 5), .run, .run, .run, .run, .run, .run]).owned = false := by decide

/-! ## C57 -/

/-- The full property: no run of a task returning `delay_from_this_timepoint` starts before the time requested
for it (start time plus the sum of the delays so far). -/
def KeepsPeriod (c : Cfg) (log : List Ev) : Prop :=
  ∀ pre e t post, log = pre ++ .start e t :: post → ∃ due, requested c.kind pre e.id = some due ∧ due ≤ t

/-- A task repeating itself every time unit. -/
def exPeriodic : Cfg where
  body _ _ := ([], .again 1)
  kind _ := .fromThis
  hnd _ := 0
  ext _ := none
  lag _ := 0

/-- C57 is false: inside a scope owning the queue, a lone task with period 1 scheduled at time 0 runs at
times 0, 1, 1, …: `drain_queue` never updates the time point of the task it keeps calling. -/
theorem C57_refutes : ¬ KeepsPeriod exPeriodic (exec exPeriodic [.own, .act (.deferFor 0), .release, .run, .run, .run]).log := by
  intro h
  have hl : (exec exPeriodic [.own, .act (.deferFor 0), .release, .run, .run, .run]).log =
      [.call 0 0, .sched ⟨0, 0⟩, .start ⟨0, 0⟩ 0, .fin 0 0 (.again 1), .sched ⟨1, 0⟩,
       .start ⟨1, 0⟩ 1, .fin 0 1 (.again 1), .sched ⟨1, 0⟩] ++ .start ⟨1, 0⟩ 1 ::
       [.fin 0 1 (.again 1), .sched ⟨1, 0⟩] := by decide
  obtain ⟨due, h1, h2⟩ := h _ _ _ _ hl
  have h3 : some (2 : Int) = some due := h1
  cases h3
  exact absurd h2 (by decide)

/-- The number of runs started so far. -/
def starts (log : List Ev) : Nat := log.countP (fun ev => match ev with | .start _ _ => true | _ => false)

/-- The burst is unbounded: from time 1 on the task is called over and over without time passing. -/
theorem C57_burst_refutes (n : Nat) :
    let s := exec exPeriodic ([.own, .act (.deferFor 0), .release, .run] ++ List.replicate n .run)
    s.now = 1 ∧ starts s.log = n + 1 := by
  have h : ∀ n, ∃ i l k, (List.replicate n Lbl.run).foldl (step exPeriodic)
      (exec exPeriodic [.own, .act (.deferFor 0), .release, .run]) =
      { now := 1, last := 1, owned := true, queue := [], mode := .inner ⟨0, 0⟩ 1, next := k, inv := i,
        disposed := [], log := l } ∧ starts l = n + 1 := by
    intro n
    induction n using Nat.rec with
    | zero =>
      exact ⟨(exec exPeriodic [.own, .act (.deferFor 0), .release, .run]).inv,
        (exec exPeriodic [.own, .act (.deferFor 0), .release, .run]).log, 1, rfl, by decide⟩
    | succ n ih =>
      obtain ⟨i, l, k, ih, hs⟩ := ih
      rw [List.replicate_succ', List.foldl_append, ih]
      refine ⟨_, l ++ [.start ⟨1, 0⟩ 1] ++ [.fin 0 1 (.again 1)] ++ [.sched ⟨1, 0⟩], k, rfl, ?_⟩
      simp only [starts, List.countP_append] at hs ⊢
      rw [hs]; rfl
  obtain ⟨i, l, k, h, hs⟩ := h n
  simp only [exec, List.foldl_append] at h ⊢
  rw [h]
  exact ⟨rfl, hs⟩

/-- The log of a step that keeps a task for an immediate further call: it asked for it while nothing else was
waiting. -/
theorem afterCall_inner {P} {s : St} {top top' : Ent} {r : Res} {due : Int} {t : Int} {l : List Ev}
    (h : Base c P s [] [] []) (hl : s.log = l ++ [.fin top.id t r])
    (hm : (afterCall c s top r).mode = .inner top' due) :
    top' = top ∧ ∃ v post, r = .again v ∧ (afterCall c s top r).log = l ++ .fin top.id t (.again v) :: post ∧
      waiting l = [] := by
  cases r with
  | stop => simp [afterCall] at hm
  | throw => simp [afterCall] at hm
  | again v =>
    simp only [afterCall] at hm ⊢
    split at hm
    · simp at hm
    rename_i hnd
    split at hm
    · rename_i hq
      have hq' : s.queue = [] := by simpa using hq
      have hw : waiting s.log = [] := isort_nil (by rw [h.rep, hq']; rfl)
      rw [hl, waiting_snoc] at hw
      simp only [hnd, hq]
      simp only [Bool.false_eq_true, if_false, if_true]
      cases hk : c.kind top.id with
      | fromNow =>
        simp only [hk] at hm
        simp only [Mode.inner.injEq] at hm
        obtain ⟨_, _, _, h4, _⟩ := sleepFor_props (c := c) (s.emit (.sched ⟨s.now + v, top.id⟩)) v
        exact ⟨hm.1.symm, v, _, rfl, by rw [h4]; simp only [St.emit, hl, List.append_assoc, List.singleton_append]; rfl, hw⟩
      | fromThis =>
        simp only [hk] at hm
        simp only [Mode.inner.injEq] at hm
        obtain ⟨_, _, _, h4, _⟩ := sleepUntil_props (c := c) (s.emit (.sched ⟨top.tp + v, top.id⟩)) (top.tp + v) h.1
        exact ⟨hm.1.symm, v, _, rfl, by rw [h4]; simp only [St.emit, hl, List.append_assoc, List.singleton_append]; rfl, hw⟩
      | to =>
        simp only [hk] at hm
        simp only [Mode.inner.injEq] at hm
        obtain ⟨_, _, _, h4, _⟩ := sleepUntil_props (c := c) (s.emit (.sched ⟨v, top.id⟩)) v h.1
        exact ⟨hm.1.symm, v, _, rfl, by rw [h4]; simp only [St.emit, hl, List.append_assoc, List.singleton_append]; rfl, hw⟩
    · split at hm <;> simp at hm

/-- The log only grows. -/
def Grows (s s' : St) : Prop := ∃ x, s'.log = s.log ++ x

theorem Grows.refl (s : St) : Grows s s := ⟨[], by simp⟩
theorem Grows.trans {a b d : St} (h1 : Grows a b) (h2 : Grows b d) : Grows a d := by
  obtain ⟨x, hx⟩ := h1
  obtain ⟨y, hy⟩ := h2
  exact ⟨x ++ y, by rw [hy, hx, List.append_assoc]⟩
theorem Grows.emit {s s' : St} (ev : Ev) (h : Grows s s') : Grows s (s'.emit ev) :=
  h.trans ⟨[ev], rfl⟩
theorem Grows.of {s s' s'' : St} (h : Grows s s') (he : s''.log = s'.log) : Grows s s'' := by
  obtain ⟨x, hx⟩ := h
  exact ⟨x, by rw [he, hx]⟩

theorem sleepFor_log (s : St) (d : Int) : (sleepFor c s d).log = s.log := by
  simp only [sleepFor]; split <;> rfl

theorem sleepUntil_log (s : St) (tp : Int) : (sleepUntil c s tp).1.log = s.log := by
  simp only [sleepUntil]; split
  · rfl
  · exact sleepFor_log c s _

theorem deferFor_grows (s : St) (d : Int) : Grows s (deferFor c s d) := by
  simp only [deferFor]
  split
  · exact (Grows.refl s).of rfl
  split
  · exact ((Grows.refl s).emit _).of rfl
  · split <;> exact (Grows.refl s).of rfl

theorem act_grows (s : St) (a : Act) : Grows s (doAct c s a) := by
  cases a with
  | elapse d => exact (Grows.refl s).of rfl
  | deferFor d => exact ((Grows.refl s).emit _).trans (deferFor_grows c _ d)
  | deferTo tp =>
    refine ((Grows.refl s).emit (.call s.next tp)).trans ?_
    simp only [doAct, deferTo]
    split
    · exact (Grows.refl _).of rfl
    split
    · exact ((Grows.refl _).emit (.sched ⟨tp, s.next⟩)).of rfl
    · exact ((Grows.refl _).of rfl).trans (deferFor_grows c _ _)
  | dispose x => exact ((Grows.refl s).emit (.disp x)).of rfl

theorem acts_grows (as : List Act) : ∀ s : St, Grows s (as.foldl (doAct c) s) := by
  induction as with
  | nil => exact fun s => .refl s
  | cons a as ih => exact fun s => (act_grows c s a).trans (ih _)

theorem runTask_log (s : St) (e : Ent) : ∃ x, (runTask c s e).1.log = s.log ++ .start e s.now :: x ∧
    ∃ l t, (runTask c s e).2 ≠ .throw → (runTask c s e).1.log = l ++ [.fin e.id t (runTask c s e).2] := by
  obtain ⟨x, hx⟩ := acts_grows c (c.body e.id (s.inv e.id)).1 (entered s e)
  have hl : (leaving c s e).log = s.log ++ .start e s.now :: x := by
    rw [show (leaving c s e).log = _ from hx]; simp [entered, St.emit]
  have hrun : runTask c s e = (match (c.body e.id (s.inv e.id)).2 with
      | .throw => ((leaving c s e).emit (.fin e.id (leaving c s e).now (c.body e.id (s.inv e.id)).2)).emit (.err e.id)
      | _ => (leaving c s e).emit (.fin e.id (leaving c s e).now (c.body e.id (s.inv e.id)).2),
      (c.body e.id (s.inv e.id)).2) := rfl
  rw [hrun]
  cases (c.body e.id (s.inv e.id)).2 with
  | throw => exact ⟨_, by simp only [St.emit, hl, List.append_assoc, List.cons_append]; rfl, [], 0, by simp⟩
  | stop =>
    exact ⟨_, by simp only [St.emit, hl, List.append_assoc, List.cons_append]; rfl, _, _, fun _ => rfl⟩
  | again v =>
    exact ⟨_, by simp only [St.emit, hl, List.append_assoc, List.cons_append]; rfl, _, _, fun _ => rfl⟩

theorem runTask_grows (s : St) (e : Ent) : Grows s (runTask c s e).1 := by
  obtain ⟨x, hx, _⟩ := runTask_log c s e
  exact ⟨_, hx⟩

theorem afterCall_grows (s : St) (top : Ent) (r : Res) : Grows s (afterCall c s top r) := by
  cases r with
  | stop => exact (Grows.refl s).of rfl
  | throw => exact (Grows.refl s).of rfl
  | again v =>
    simp only [afterCall]
    split
    · exact (Grows.refl s).of rfl
    split
    · split
      · exact ((Grows.refl s).emit _).of (sleepFor_log c _ _)
      · exact ((Grows.refl s).emit _).of (sleepUntil_log c _ _)
      · exact ((Grows.refl s).emit _).of (sleepUntil_log c _ _)
    · split <;> exact ((Grows.refl s).emit _).of rfl

theorem step_grows (s : St) (l : Lbl) : Grows s (step c s l) := by
  cases l with
  | act a => simp only [step]; split; exact act_grows c s a; exact .refl s
  | own => simp only [step]; split; split; exact .refl s; exact (Grows.refl s).of rfl; exact .refl s
  | release => simp only [step]; split; split; exact (Grows.refl s).of rfl; exact .refl s; exact .refl s
  | run =>
    simp only [step]
    split
    · exact .refl s
    · rename_i id w _
      simp only [immStep]
      split
      · cases w with
        | till tp => dsimp only; split; exact (Grows.refl s).of rfl; exact ((Grows.refl s).emit _).of rfl
        | dur d =>
          dsimp only; split
          · exact (Grows.refl s).of rfl
          · exact ((Grows.refl s).emit (.sched ⟨s.now + d, id⟩)).of rfl
      split
      · exact (Grows.refl s).of rfl
      · have main : ∀ (s' : St) (slept : Bool) (due : Int), s'.log = s.log →
            Grows s (if slept && isDisposed c s' id then { s' with mode := .drain }
              else match (runTask c (s'.emit (.sched ⟨due, id⟩)) ⟨due, id⟩).2 with
                | .again v => { (runTask c (s'.emit (.sched ⟨due, id⟩)) ⟨due, id⟩).1 with
                    mode := .imm id (match c.kind id with
                      | .fromThis => .till (due + v)
                      | .fromNow => .dur v
                      | .to => .till v) }
                | _ => { (runTask c (s'.emit (.sched ⟨due, id⟩)) ⟨due, id⟩).1 with mode := .drain }) := by
          intro s' slept due hl
          split
          · exact (Grows.refl s).of hl
          · have : Grows s (runTask c (s'.emit (.sched ⟨due, id⟩)) ⟨due, id⟩).1 :=
              ((((Grows.refl s).of hl).emit _).trans (runTask_grows c _ _))
            split <;> exact this.of rfl
        cases w with
        | till tp => exact main _ _ _ (sleepUntil_log c s tp)
        | dur d => exact main _ (decide (d > 0)) _ (sleepFor_log c s d)
    · simp only [drainStep]
      split
      · exact (Grows.refl s).of rfl
      · rename_i top rest _
        split
        · exact ((Grows.refl s).emit _).of rfl
        · have h1 : Grows s (sleepUntil c { s with queue := rest } top.tp).1 :=
            (Grows.refl s).of (sleepUntil_log c { s with queue := rest } top.tp)
          exact h1.trans ((runTask_grows c _ _).trans (afterCall_grows c _ _ _))
    · simp only [innerStep]
      exact (runTask_grows c _ _).trans (afterCall_grows c _ _ _)

theorem exec_grows (ls ls' : List Lbl) : Grows (exec c ls) (exec c (ls ++ ls')) := by
  induction ls' using snoc_ind with
  | h0 => rw [List.append_nil]; exact .refl _
  | h1 ls' l ih =>
    rw [← List.append_assoc]
    have : exec c (ls ++ ls' ++ [l]) = step c (exec c (ls ++ ls')) l := by simp [exec]
    rw [this]
    exact ih.trans (step_grows c _ _)

/-- When the scheduler keeps a task for an immediate further call, the task asked for it while nothing else was
waiting. -/
theorem step_inner {s : St} {P} (h : Inv c P s) (hP : ∀ i, ¬ P i) (l : Lbl) {top : Ent} {due : Int}
    (hm : (step c s l).mode = .inner top due) (hs : ∀ t d, s.mode ≠ .inner t d ∨ l = .run) :
    ∃ pre t v post, (step c s l).log = pre ++ .fin top.id t (.again v) :: post ∧ waiting pre = [] := by
  have hb := h.base
  have ho := h.own
  have hw := h.wait
  have fin : ∀ (s' : St) (e tp' : Ent), tp'.id = e.id → Base c P (runTask c s' e).1 [] [] [] →
      (afterCall c (runTask c s' e).1 tp' (runTask c s' e).2).mode = .inner top due →
      ∃ pre t v post, (afterCall c (runTask c s' e).1 tp' (runTask c s' e).2).log =
        pre ++ .fin top.id t (.again v) :: post ∧ waiting pre = [] := by
    intro s' e tp' hid hb' hm'
    obtain ⟨x, _, l', t, hl'⟩ := runTask_log c s' e
    by_cases ht : (runTask c s' e).2 = .throw
    · rw [ht] at hm'; simp [afterCall] at hm'
    · obtain ⟨rfl, v, post, hv, h2, h3⟩ := afterCall_inner c (t := t) (l := l') hb' (by rw [hid]; exact hl' ht) hm'
      exact ⟨l', t, v, post, h2, h3⟩
  cases l with
  | act a =>
    simp only [step] at hm
    split at hm
    · rename_i hu
      simp only [hu] at hb ho
      exfalso
      cases hown : s.owned with
      | true => rw [(hb.act hown a).2.2, hu] at hm; cases hm
      | false =>
        have hdf : ∀ s' : St, ∀ d, s'.mode = .user → (deferFor c s' d).mode ≠ .inner top due := by
          intro s' d hu'
          simp only [deferFor]
          split
          · simp [hu']
          split
          · simp [St.enqueue, St.emit, readNow, hu']
          · split <;> simp
        cases a with
        | elapse d => simp [doAct, hu] at hm
        | deferFor d => exact hdf (s.emit (.call s.next (s.now + d))) d hu hm
        | deferTo tp =>
          simp only [doAct, deferTo] at hm
          split at hm
          · simp [St.emit, hu] at hm
          split at hm
          · simp [St.enqueue, St.emit, hu] at hm
          · exact hdf (readNow (s.emit (.call s.next tp))) _ hu hm
        | dispose x => simp [doAct, St.emit, hu] at hm
    · exact absurd hm (by rcases hs top due with h | h <;> simp_all)
  | own =>
    simp only [step] at hm
    split at hm
    · split at hm <;> simp_all
    · exact absurd hm (by rcases hs top due with h | h <;> simp_all)
  | release =>
    simp only [step] at hm
    split at hm
    · split at hm <;> simp_all
    · exact absurd hm (by rcases hs top due with h | h <;> simp_all)
  | run =>
    cases hmo : s.mode with
    | user => simp [step, hmo] at hm
    | imm id w =>
      exfalso
      simp only [step, hmo, immStep] at hm
      split at hm
      · cases w <;> (dsimp only at hm; split at hm <;> simp at hm)
      split at hm
      · simp at hm
      cases w <;>
        (dsimp only at hm
         split at hm
         · simp at hm
         · split at hm <;> simp at hm)
    | drain =>
      simp only [step, hmo] at hm ⊢
      simp only [hmo, held, pend] at hb ho
      simp only [drainStep] at hm ⊢
      cases hq : s.queue with
      | nil => simp [hq] at hm
      | cons tp' rest =>
        simp only [hq] at hm ⊢
        split at hm
        · simp [St.emit, hmo] at hm
        rename_i hnd
        simp only [hnd, Bool.false_eq_true, if_false] at hm ⊢
        have hnd' := not_disposed hnd
        obtain ⟨b1, b2, b3, b4, b5, b6, b7, b8, b9, b10⟩ := hb
        rw [hq] at b3 b5 b6 b7 b8
        have hp : (rest.map (·.id) ++ [tp'.id]).Perm (tp'.id :: (rest.map (·.id) ++ [])) := by
          simpa using List.perm_append_comm (l₁ := rest.map (·.id)) (l₂ := [tp'.id])
        have hb' : Base c P { s with queue := rest } [] [tp'.id] [tp'] := by
          refine ⟨b1, b2, b3, b4, ?_, ?_, ?_, b8, b9, b10⟩
          · intro i hi; exact b5 i (hp.mem_iff.mp hi)
          · exact hp.nodup_iff.mpr b6
          · intro i hi; exact ⟨(b7 i hi).1, fun hm => (b7 i hi).2 (hp.mem_iff.mp hm)⟩
        obtain ⟨a1, a2, a3, a4, a5, a6, a7, a8⟩ := sleepUntil_props (c := c) { s with queue := rest } tp'.tp b1
        exact fin _ tp' tp' rfl (Base.task (hb'.clock a3 a4 a5 a7 a8) (a6.trans ho) a2
          (by rw [a8]; exact hnd')).1 hm
    | inner tp' d =>
      simp only [step, hmo] at hm ⊢
      simp only [hmo, held, pend] at hb ho hw
      exact fin s ⟨d, tp'.id⟩ tp' rfl (Base.task (e := ⟨d, tp'.id⟩) hb ho hw.2.1 hw.2.2.1).1 hm

theorem inner_origin (ls : List Lbl) {top : Ent} {due : Int} (hm : (exec c ls).mode = .inner top due) :
    ∃ pre t v post, (exec c ls).log = pre ++ .fin top.id t (.again v) :: post ∧ waiting pre = [] := by
  induction ls using snoc_ind with
  | h0 => simp [exec] at hm
  | h1 ls l ih =>
    have he : exec c (ls ++ [l]) = step c (exec c ls) l := by simp [exec]
    rw [he] at hm ⊢
    have hinv : Inv c (fun _ => False) (exec c ls) := Inv.exec ls (fun _ _ _ _ _ _ _ h => h.elim)
    by_cases hs : ∀ t d, (exec c ls).mode ≠ .inner t d ∨ l = .run
    · exact step_inner c hinv (fun _ h => h) l hm hs
    · -- a label without effect while the scheduler is running
      have : ∃ t d, (exec c ls).mode = .inner t d ∧ l ≠ .run := by
        apply Classical.byContradiction
        intro hno
        apply hs
        intro t d
        by_cases hl : l = .run
        · exact .inr hl
        · exact .inl (fun h => hno ⟨t, d, h, hl⟩)
      obtain ⟨t, d, hmo, hl⟩ := this
      have hsame : step c (exec c ls) l = exec c ls := by
        cases l with
        | run => exact absurd rfl hl
        | _ => simp only [step, hmo]
      rw [hsame] at hm ⊢
      exact ih hm

/-- C57, what does hold: if, whenever a task returning `delay_from_this_timepoint` asks to be repeated,
something else is waiting in the queue, then every run is requested for exactly the right time and no run
starts early. Missing: a task that is alone in the queue (see `C57_refutes`). -/
theorem C57_busy_partial (ls : List Lbl)
    (hbusy : ∀ pre id t v post, (exec c ls).log = pre ++ .fin id t (.again v) :: post →
      c.kind id = .fromThis → waiting pre ≠ []) :
    KeepsPeriod c (exec c ls).log := by
  have hinv : Inv c (fun _ => True) (exec c ls) := by
    refine Inv.exec ls ?_
    intro ls' l ls'' he top due hm _ hk
    have he' : exec c (ls' ++ [l]) = step c (exec c ls') l := by simp [exec]
    rw [← he'] at hm
    obtain ⟨pre, t, v, post, hl, hw⟩ := inner_origin c _ hm
    obtain ⟨x, hx⟩ := exec_grows c (ls' ++ [l]) ls''
    have : ls' ++ [l] ++ ls'' = ls := by simp [he]
    rw [this] at hx
    exact hbusy pre top.id t v (post ++ x) (by rw [hx, hl]; simp) hk hw
  intro pre e t post hl
  have k := hinv.base.legal pre _ post hl
  exact ⟨e.tp, k.2.2.2.2.2 trivial, k.2.2.1⟩

/-- A property of every event of a concrete log can be checked position by position. -/
theorem split_of_take {α} {l : List α} {Q : List α → α → Prop}
    (h : ∀ k (hk : k < l.length), Q (l.take k) l[k]) : ∀ pre x post, l = pre ++ x :: post → Q pre x := by
  intro pre x post hl
  have := h pre.length (by rw [hl]; simp)
  simpa [hl] using this

theorem keepsPeriod_of_no_inner (ls : List Lbl)
    (hno : ∀ ls' ls'', ls = ls' ++ ls'' → ∀ top due, (exec c ls').mode ≠ .inner top due) :
    KeepsPeriod c (exec c ls).log := by
  have hinv : Inv c (fun _ => True) (exec c ls) := by
    refine Inv.exec ls ?_
    intro ls' l ls'' he top due hm
    have he' : exec c (ls' ++ [l]) = step c (exec c ls') l := by simp [exec]
    rw [← he'] at hm
    exact absurd hm (hno (ls' ++ [l]) ls'' (by simp [he]) top due)
  intro pre e t post hl
  have k := hinv.base.legal pre _ post hl
  exact ⟨e.tp, k.2.2.2.2.2 trivial, k.2.2.1⟩

/-- Two periodic tasks keeping each other company. -/
def exTwo : Cfg where
  body _ n := ([], if n < 2 then .again 2 else .stop)
  kind id := if id = 0 then .fromThis else .fromNow
  hnd _ := 0
  ext _ := none
  lag _ := 0

/-- Non-vacuity of `C57_busy_partial`: task 0 has period 2, task 1 lasts longer. -/
example : (exec exTwo [.own, .act (.deferFor 1), .act (.deferFor 2), .release, .run, .run, .run, .run, .run, .run, .run]).log =
    [.call 0 1, .sched ⟨1, 0⟩, .call 1 2, .sched ⟨2, 1⟩, .start ⟨1, 0⟩ 1, .fin 0 1 (.again 2), .sched ⟨3, 0⟩,
     .start ⟨2, 1⟩ 2, .fin 1 2 (.again 2), .sched ⟨4, 1⟩, .start ⟨3, 0⟩ 3, .fin 0 3 (.again 2), .sched ⟨5, 0⟩,
     .start ⟨4, 1⟩ 4, .fin 1 4 (.again 2), .sched ⟨6, 1⟩, .start ⟨5, 0⟩ 5, .fin 0 5 .stop,
     .start ⟨6, 1⟩ 6, .fin 1 6 .stop] := by decide

example : ∀ pre id t v post, (exec exTwo [.own, .act (.deferFor 1), .act (.deferFor 2), .release, .run, .run, .run, .run,
    .run, .run, .run]).log = pre ++ .fin id t (.again v) :: post → exTwo.kind id = .fromThis → waiting pre ≠ [] := by
  intro pre id t v post h hk
  have := split_of_take (Q := fun pre x => (match x with
    | .fin id _ (.again _) => decide (exTwo.kind id ≠ .fromThis) || !(waiting pre).isEmpty
    | _ => true) = true) (by decide) pre _ post h
  simp only [hk] at this
  intro hw
  simp [hw] at this

/-- C57, the other case that does hold: a task scheduled while the thread has no queue, which schedules nothing
itself, keeps its period for ever, whatever it does and however long the sleeps take. -/
theorem C57_alone_partial (n : Nat) (d : Int)
    (hq : ∀ k, ∀ a ∈ (c.body 0 k).1, (∃ x, a = .elapse x) ∨ ∃ h, a = .dispose h) :
    KeepsPeriod c (exec c (.act (.deferFor d) :: List.replicate n .run)).log := by
  -- the queue stays empty and the scheduler stays in the immediate loop
  have hacts : ∀ (as : List Act), (∀ a ∈ as, (∃ x, a = Act.elapse x) ∨ ∃ h, a = Act.dispose h) →
      ∀ s : St, (as.foldl (doAct c) s).queue = s.queue := by
    intro as
    induction as with
    | nil => exact fun _ _ => rfl
    | cons a as ih =>
      intro ha s
      rw [List.foldl_cons, ih (fun x hx => ha x (List.mem_cons_of_mem _ hx))]
      rcases ha a (by simp) with ⟨x, rfl⟩ | ⟨x, rfl⟩ <;> rfl
  have hrun : ∀ (s : St) (due : Int), (runTask c s ⟨due, 0⟩).1.queue = s.queue := by
    intro s due
    have := hacts (c.body 0 (s.inv 0)).1 (hq _) (entered s ⟨due, 0⟩)
    simp only [runTask]
    split <;> exact this
  let Q : St → Prop := fun s => s.queue = [] ∧ (s.mode = .user ∨ s.mode = .drain ∨ ∃ w, s.mode = .imm 0 w)
  have hQ : ∀ s, Q s → Q (step c s .run) := by
    rintro s ⟨h1, h2⟩
    rcases h2 with h2 | h2 | ⟨w, h2⟩
    · simp only [step, h2]; exact ⟨h1, .inl h2⟩
    · simp only [step, h2, drainStep, h1]
      exact ⟨rfl, .inl rfl⟩
    · simp only [step, h2]
      have main : ∀ (s' : St) (slept : Bool) (due : Int), s'.queue = [] →
          Q (if slept && isDisposed c s' 0 then { s' with mode := .drain }
            else match (runTask c (s'.emit (.sched ⟨due, 0⟩)) ⟨due, 0⟩).2 with
              | .again v => { (runTask c (s'.emit (.sched ⟨due, 0⟩)) ⟨due, 0⟩).1 with
                  mode := .imm 0 (match c.kind 0 with
                    | .fromThis => .till (due + v)
                    | .fromNow => .dur v
                    | .to => .till v) }
              | _ => { (runTask c (s'.emit (.sched ⟨due, 0⟩)) ⟨due, 0⟩).1 with mode := .drain }) := by
        intro s' slept due hq'
        split
        · exact ⟨hq', .inr (.inl rfl)⟩
        · split
          · exact ⟨(hrun _ _).trans hq', .inr (.inr ⟨_, rfl⟩)⟩
          · exact ⟨(hrun _ _).trans hq', .inr (.inl rfl)⟩
      simp only [immStep, h1, List.isEmpty_nil, Bool.not_true, Bool.false_eq_true, if_false]
      split
      · exact ⟨rfl, .inr (.inl rfl)⟩
      · cases w with
        | till tp =>
          exact main _ _ _ (by
            simp only [sleepUntil, sleepFor]; split
            · exact h1
            · dsimp only; split <;> exact h1)
        | dur d' => exact main _ (decide (d' > 0)) _ (by simp only [sleepFor]; split <;> exact h1)
  have h0 : Q (exec c [.act (.deferFor d)]) := by
    simp only [exec, List.foldl_cons, List.foldl_nil, step, doAct, deferFor]
    split
    · exact ⟨rfl, .inl rfl⟩
    · simp only [St.emit, Bool.false_eq_true, if_false]
      split <;> exact ⟨rfl, .inr (.inr ⟨_, rfl⟩)⟩
  have hall : ∀ k, Q (exec c (.act (.deferFor d) :: List.replicate k .run)) := by
    intro k
    induction k with
    | zero => exact h0
    | succ k ih =>
      rw [List.replicate_succ', ← List.cons_append]
      have : exec c (Lbl.act (.deferFor d) :: List.replicate k Lbl.run ++ [Lbl.run]) =
        step c (exec c (Lbl.act (.deferFor d) :: List.replicate k Lbl.run)) .run := by simp [exec]
      rw [this]
      exact hQ _ ih
  refine keepsPeriod_of_no_inner c _ ?_
  intro ls' ls'' he top due hm
  have : ls' = [] ∨ ∃ k, ls' = .act (.deferFor d) :: List.replicate k .run := by
    cases ls' with
    | nil => exact .inl rfl
    | cons x xs =>
      right
      simp only [List.cons_append, List.cons.injEq] at he
      obtain ⟨rfl, he⟩ := he
      refine ⟨xs.length, ?_⟩
      congr 1
      refine List.eq_replicate_of_mem (fun b hb => ?_)
      have : b ∈ List.replicate n Lbl.run := by rw [he]; exact List.mem_append_left _ hb
      exact List.eq_of_mem_replicate this
  rcases this with rfl | ⟨k, rfl⟩
  · simp [exec] at hm
  · rcases (hall k).2 with h | h | ⟨w, h⟩ <;> rw [h] at hm <;> cases hm

/-- Non-vacuity: alone and without an owned queue, the same task as in `C57_refutes` runs at 0, 1, 2, 3. -/
example : (exec exPeriodic [.act (.deferFor 0), .run, .run, .run]).log =
    [.call 0 0, .sched ⟨0, 0⟩, .start ⟨0, 0⟩ 0, .fin 0 0 (.again 1), .sched ⟨1, 0⟩, .start ⟨1, 0⟩ 1,
     .fin 0 1 (.again 1), .sched ⟨2, 0⟩, .start ⟨2, 0⟩ 2, .fin 0 2 (.again 1)] := by decide

/-! ## C64 -/

/-- C64 for handlers disposed on the scheduler's own thread: such a task is not started any more. Missing:
disposal by another thread while the scheduler sleeps (see `C64_current_thread_refutes`). -/
theorem C64_current_thread_partial (ls : List Lbl) (pre post : List Ev) (e : Ent) (t : Int)
    (h : (exec c ls).log = pre ++ .start e t :: post) : Ev.disp (c.hnd e.id) ∉ pre :=
  ((inv0 c ls).base.legal pre _ post h).2.2.2.2.1

/-- A handler disposed by another thread at time 5, a task due at time 10. -/
def exLate : Cfg where
  body _ _ := ([], .stop)
  kind _ := .fromNow
  hnd _ := 0
  ext _ := some 5
  lag _ := 0

/-- C64 is false of current_thread: `drain_queue` does not look at the handler again after sleeping, so the task
starts at time 10 although its handler was disposed at time 5. -/
theorem C64_current_thread_refutes :
    ∃ pre post e t, (exec exLate [.own, .act (.deferFor 10), .release, .run]).log = pre ++ .start e t :: post ∧
      ∃ td, exLate.ext (exLate.hnd e.id) = some td ∧ td < t :=
  ⟨[.call 0 10, .sched ⟨10, 0⟩], [.fin 0 10 .stop], ⟨10, 0⟩, 10, by decide, 5, rfl, by decide⟩

/-- Non-vacuity of the positive part: task 0 disposes the handler of the waiting task 1, which is dropped. -/
def exDisp : Cfg where
  body id _ := if id = 0 then ([.deferFor 1, .dispose 1], .stop) else ([], .stop)
  kind _ := .fromNow
  hnd id := id
  ext _ := none
  lag _ := 0

example : (exec exDisp [.act (.deferFor 0), .run, .run, .run]).log =
    [.call 0 0, .sched ⟨0, 0⟩, .start ⟨0, 0⟩ 0, .call 1 1, .sched ⟨1, 1⟩, .disp 1, .fin 0 0 .stop,
     .drop ⟨1, 1⟩] := by decide

/-! ## C65 -/

/-- C65 for current_thread: a throwing run is followed at once by `on_error` of its handler; that is the only
`on_error` of the task, and the task is never requested or started again. -/
theorem C65_current_thread (ls : List Lbl) (pre post : List Ev) (id : Nat) (t : Int)
    (h : (exec c ls).log = pre ++ .fin id t .throw :: post) :
    ∃ post', post = .err id :: post' ∧ Ev.err id ∉ pre ∧ Ev.err id ∉ post' ∧
      ∀ e, e.id = id → Ev.sched e ∉ post' ∧ ∀ u, Ev.start e u ∉ post' := by
  have hb := (inv0 c ls).base
  obtain ⟨post', rfl⟩ := hb.paired _ _ _ _ h
  have hl := hb.legal
  rw [h] at hl
  refine ⟨post', rfl, ?_, ?_, ?_⟩
  · have := (hl (pre ++ [.fin id t .throw]) (.err id) post' (by simp)).1
    simpa using this
  · intro hm
    obtain ⟨a, b, rfl⟩ := List.append_of_mem hm
    have := (hl (pre ++ .fin id t .throw :: .err id :: a) (.err id) b (by simp)).1
    simp at this
  · rintro e rfl
    constructor
    · intro hm
      obtain ⟨a, b, rfl⟩ := List.append_of_mem hm
      have := (hl (pre ++ .fin e.id t .throw :: .err e.id :: a) (.sched e) b (by simp)).2
      simp at this
    · intro u hm
      obtain ⟨a, b, rfl⟩ := List.append_of_mem hm
      have := (hl (pre ++ .fin e.id t .throw :: .err e.id :: a) (.start e u) b (by simp)).2.2.2.1
      simp at this

/-- C65: `on_error` is called only because of a throw. -/
theorem C65_current_thread_only_on_throw (ls : List Lbl) (pre post : List Ev) (id : Nat)
    (h : (exec c ls).log = pre ++ .err id :: post) : ∃ pre' t, pre = pre' ++ [.fin id t .throw] :=
  ((inv0 c ls).base.legal pre _ post h).2

/-- An example. -/
def exThrow : Cfg where
  body id n := if id = 0 ∧ n = 2 then ([.deferFor 0], .throw) else ([], if id = 0 then .again 1 else .stop)
  kind _ := .fromNow
  hnd id := id
  ext _ := none
  lag _ := 0

/-- Non-vacuity: the third run of task 0 throws, the task scheduled by it still runs. -/
example : (exec exThrow [.act (.deferFor 0), .run, .run, .run, .run, .run]).log =
    [.call 0 0, .sched ⟨0, 0⟩, .start ⟨0, 0⟩ 0, .fin 0 0 (.again 1), .sched ⟨1, 0⟩, .start ⟨1, 0⟩ 1,
     .fin 0 1 (.again 1), .sched ⟨2, 0⟩, .start ⟨2, 0⟩ 2, .call 1 2, .sched ⟨2, 1⟩, .fin 0 2 .throw, .err 0,
     .start ⟨2, 1⟩ 2, .fin 1 2 .stop] := by decide

end Rpp.Sched
