import Verif.Scheduler.CurrentThreadProps
/-!
# test_scheduler (C59, C64, C65)

Models schedulers/test_scheduler.hpp 18-110. Time is the integer `s_current_time`, moved only by `time_advance`
of this scheduler or of another test scheduler (the variable is static). One thread. Tasks may schedule further
tasks, advance time and dispose handlers while they run; `schedule` and `time_advance` inside a task drain the
queue in a nested call, which is modelled by an explicit call stack.
-/

namespace Rpp.Sched.Test
open Rpp.Sched

/-- What user code does. -/
inductive Act where
  | call (d : Int)      -- worker.schedule(duration, …); with a time point the duration is `tp - now()`
  | advance (d : Int)   -- time_advance of this scheduler
  | skew (d : Int)      -- time_advance of another test_scheduler
  | dispose (h : Nat)
deriving DecidableEq, Repr

/-- Parameters: what the program's own functions do and when (schedulers/test_scheduler.hpp 25-110 calls them). -/
structure Cfg where
  /-- what the `n`-th invocation of task `id` does -/
  body : Nat → Nat → List Act × Res
  kind : Nat → Kind
  /-- the handler passed with task `id` -/
  hnd : Nat → Nat

/-- Observable events. `clock` : time moves by `d`; `call` : `schedule` is called for task `id` with this due
time; `sched` : a run is requested; `drop` : the request is discarded; `start` / `fin` : the user function is
entered / left; `ret` : a `schedule` or `time_advance` call is about to return. -/
inductive Ev where
  | clock (d : Int)
  | skewed
  | call (id : Nat) (due : Int)
  | sched (e : Ent)
  | drop (e : Ent)
  | start (e : Ent) (t : Int)
  | fin (id : Nat) (t : Int) (r : Res)
  | err (id : Nat)
  | disp (h : Nat)
  | ret
deriving DecidableEq, Repr

/-- The call stack: `drain()` (test_scheduler.hpp 36-59) or a user function with the actions left to do and its
result. -/
inductive Frame where
  | drain
  | run (e : Ent) (acts : List Act) (r : Res)
deriving DecidableEq, Repr

/-- State: the members of the objects of schedulers/test_scheduler.hpp 25-110, what the running calls are doing, and the log. -/
structure St where
  /-- `s_current_time` -/
  cur : Int
  queue : List Ent := []
  stack : List Frame := []
  next : Nat := 0
  inv : Nat → Nat := fun _ => 0
  disposed : List Nat := []
  /-- the vectors `schedulings` and `executions` -/
  schedulings : List Int := []
  executions : List Int := []
  log : List Ev := []

variable (c : Cfg)

/-- Log an event; no counterpart in /repo. -/
def St.emit (s : St) (ev : Ev) : St := { s with log := s.log ++ [ev] }

/-- `is_disposed()` of a scheduled function's handler at that moment (schedulers/test_scheduler.hpp 25-110). -/
def isDisposed (s : St) (id : Nat) : Bool := s.disposed.contains (c.hnd id)

/-- `schedulings.push_back` and `queue.emplace`, test_scheduler.hpp 32-33 and 54-55. -/
def St.enqueue (s : St) (e : Ent) : St :=
  { s with queue := emplace s.queue e, schedulings := s.schedulings ++ [e.tp] }.emit (.sched e)

/-- Replace one component of the state; no counterpart in /repo. -/
def St.push (s : St) (f : Frame) : St := { s with stack := f :: s.stack }

/-- User code: `defer_for` (test_scheduler.hpp 74-82), `time_advance` (102-106). -/
def doAct (s : St) : Act → St
  | .call d =>
    let s1 := { s.emit (.call s.next (s.cur + d)) with next := s.next + 1 }
    (s1.enqueue ⟨s.cur + d, s.next⟩).push .drain
  | .advance d => ({ s with cur := s.cur + d }.emit (.clock d)).push .drain
  | .skew d => ({ s with cur := s.cur + d }.emit (.clock d)).emit .skewed
  | .dispose h => { s with disposed := h :: s.disposed }.emit (.disp h)

/-- One iteration of the `while` of `drain`, test_scheduler.hpp 38-49, up to the call of the user function. -/
def drainStep (s : St) (rest : List Frame) : St :=
  match s.queue with
  | [] => { s with stack := rest }.emit .ret
  | top :: q =>
    if top.tp > s.cur then { s with stack := rest }.emit .ret
    else
      let s := { s with queue := q }
      if isDisposed c s top.id then s.emit (.drop top)
      else
        let b := c.body top.id (s.inv top.id)
        ({ s with
          inv := fun i => if i = top.id then s.inv top.id + 1 else s.inv i,
          executions := s.executions ++ [s.cur] }.emit (.start top s.cur)).push (.run top b.1 b.2)

/-- `operator()` (queue.hpp 129-141) when the user function has returned or thrown, and the rest of the loop body
of `drain` (test_scheduler.hpp 50-56). -/
def finish (s : St) (e : Ent) (r : Res) (rest : List Frame) : St :=
  let s := { s with stack := rest }.emit (.fin e.id s.cur r)
  match r with
  | .stop => s
  | .throw => s.emit (.err e.id)
  | .again v =>
    let tp := match c.kind e.id with
      | .fromNow => s.cur + v
      | .fromThis => e.tp + v
      | .to => v
    if isDisposed c s e.id then s else s.enqueue ⟨max s.cur tp, e.id⟩

/-- `user a` : code outside any task does `a` (possible only when no call is active); `run` : the active call
makes its next step. -/
inductive Lbl where
  | user (a : Act)
  | run
deriving DecidableEq, Repr

/-- One step; the single cases cite the lines of schedulers/test_scheduler.hpp 25-110 they model. -/
def step (s : St) : Lbl → St
  | .user a => match s.stack with
    | [] => doAct s a
    | _ => s
  | .run => match s.stack with
    | [] => s
    | .drain :: rest => drainStep c s rest
    | .run e [] r :: rest => finish c s e r rest
    | .run e (a :: as) r :: rest => doAct { s with stack := .run e as r :: rest } a

/-- The state after a sequence of steps; no counterpart in /repo. -/
def exec (t0 : Int) (ls : List Lbl) : St := ls.foldl (step c) { cur := t0 }

/-! ## Specification -/

/-- The virtual time. -/
def clock (t0 : Int) (log : List Ev) : Int :=
  log.foldl (fun t ev => match ev with | .clock d => t + d | _ => t) t0

/-- The requested runs that have neither started nor been discarded, in order of request. -/
def waiting (log : List Ev) : List Ent :=
  log.foldl (fun w ev => match ev with
    | .sched e => w ++ [e]
    | .drop e => w.erase e
    | .start e _ => w.erase e
    | _ => w) []

/-- How an event changes the requested time of task `id`. -/
def reqStep (kind : Nat → Kind) (id : Nat) (r : Option Int) : Ev → Option Int
  | .call i due => if i = id then some due else r
  | .fin i t (.again v) =>
    if i = id then
      match kind id with
      | .fromNow => some (max t (t + v))
      | .fromThis => r.map fun p => max t (p + v)
      | .to => some (max t v)
    else r
  | _ => r

/-- The time for which the next run of task `id` is requested: the time given to `schedule`; after a run that
asks for another one the end of the run plus the delay, the time of the run before plus the delay, or the given
time, but not before the current time. -/
def requested (kind : Nat → Kind) (log : List Ev) (id : Nat) : Option Int :=
  log.foldl (reqStep kind id) none

/-! ## Proofs -/

theorem clock_snoc (t0 : Int) (l : List Ev) (ev : Ev) : clock t0 (l ++ [ev]) = (match ev with
    | .clock d => clock t0 l + d
    | _ => clock t0 l) := by
  simp only [clock, List.foldl_append, List.foldl_cons, List.foldl_nil]
  try (cases ev <;> rfl)

theorem waiting_snoc (l : List Ev) (ev : Ev) : waiting (l ++ [ev]) = (match ev with
    | .sched e => waiting l ++ [e]
    | .drop e => (waiting l).erase e
    | .start e _ => (waiting l).erase e
    | _ => waiting l) := by
  simp only [waiting, List.foldl_append, List.foldl_cons, List.foldl_nil]
  try (cases ev <;> rfl)

theorem requested_snoc (k : Nat → Kind) (l : List Ev) (ev : Ev) (id : Nat) :
    requested k (l ++ [ev]) id = reqStep k id (requested k l id) ev := by
  simp only [requested, List.foldl_append, List.foldl_cons, List.foldl_nil]

variable {c} {t0 : Int}

/-- What the logs satisfy (for the proofs); models no code. -/
def Ok (c : Cfg) (t0 : Int) (pre : List Ev) : Ev → Prop
  | .sched e => requested c.kind pre e.id = some e.tp ∧ .err e.id ∉ pre
  | .start e t => TrampSpec.IsNext (waiting pre) e ∧ e.tp ≤ t ∧ t = clock t0 pre ∧ .err e.id ∉ pre ∧
      .disp (c.hnd e.id) ∉ pre ∧ requested c.kind pre e.id = some e.tp
  | .drop e => TrampSpec.IsNext (waiting pre) e ∧ .disp (c.hnd e.id) ∈ pre
  | .err id => .err id ∉ pre ∧ ∃ pre' t, pre = pre' ++ [.fin id t .throw]
  | .ret => ∀ e ∈ waiting pre, clock t0 pre < e.tp
  | .fin _ t _ => t = clock t0 pre
  | _ => True

/-- What the logs satisfy (for the proofs); models no code. -/
def Legal (c : Cfg) (t0 : Int) (log : List Ev) : Prop := ∀ pre ev post, log = pre ++ ev :: post → Ok c t0 pre ev

theorem Legal.snoc {log : List Ev} {ev : Ev} (h : Legal c t0 log) (ho : Ok c t0 log ev) :
    Legal c t0 (log ++ [ev]) := by
  intro pre ev' post heq
  rcases QueueRun.snoc_eq heq with ⟨rfl, rfl, _⟩ | ⟨post', _, h2⟩
  · exact ho
  · exact h _ _ _ h2

/-- What has to follow an event: a call puts the task into the queue, a throw is reported, a run that asks for
another one is put into the queue again unless its handler is disposed. -/
def Follow (c : Cfg) (pre : List Ev) (ev : Ev) (post : List Ev) : Prop :=
  match ev with
  | .call id due => ∃ p, post = .sched ⟨due, id⟩ :: p
  | .fin id _ .throw => ∃ p, post = .err id :: p
  | .fin id _ (.again _) => .disp (c.hnd id) ∈ pre ∨ ∃ tp p, post = .sched ⟨tp, id⟩ :: p
  | _ => True

/-- What the logs satisfy (for the proofs); models no code. -/
def Followed (c : Cfg) (log : List Ev) : Prop := ∀ pre ev post, log = pre ++ ev :: post → Follow c pre ev post

theorem Follow.append {pre post : List Ev} {ev x : Ev} (h : Follow c pre ev post) :
    Follow c pre ev (post ++ [x]) := by
  cases ev with
  | call id due => obtain ⟨p, rfl⟩ := h; exact ⟨p ++ [x], rfl⟩
  | fin id t r =>
    cases r with
    | throw => obtain ⟨p, rfl⟩ := h; exact ⟨p ++ [x], rfl⟩
    | again v =>
      rcases h with h | ⟨tp, p, rfl⟩
      · exact .inl h
      · exact .inr ⟨tp, p ++ [x], rfl⟩
    | stop => trivial
  | _ => trivial

theorem Followed.snoc {log : List Ev} {x : Ev} (h : Followed c log) (hx : Follow c log x []) :
    Followed c (log ++ [x]) := by
  intro pre ev post heq
  rcases QueueRun.snoc_eq heq with ⟨rfl, rfl, rfl⟩ | ⟨post', rfl, h2⟩
  · exact hx
  · exact (h _ _ _ h2).append

theorem Followed.snoc2 {log : List Ev} {x y : Ev} (h : Followed c log) (hx : Follow c log x [y])
    (hy : Follow c (log ++ [x]) y []) : Followed c (log ++ [x] ++ [y]) := by
  intro pre ev post heq
  rcases QueueRun.snoc_eq heq with ⟨rfl, rfl, rfl⟩ | ⟨post', rfl, h2⟩
  · exact hy
  · rcases QueueRun.snoc_eq h2 with ⟨rfl, rfl, rfl⟩ | ⟨post'', rfl, h3⟩
    · exact hx
    · exact ((h _ _ _ h3).append).append

/-- The tasks being executed. -/
def ids : List Frame → List Ent
  | [] => []
  | .drain :: r => ids r
  | .run e _ _ :: r => e :: ids r

/-- A user function is always called from a `drain`. -/
def Shape : List Frame → Prop
  | [] => True
  | .drain :: r => Shape r
  | .run _ _ _ :: r => (∃ r', r = .drain :: r') ∧ Shape r

/-- Invariant of the proofs; models no code. -/
structure Inv (c : Cfg) (t0 : Int) (s : St) : Prop where
  shape : Shape s.stack
  clk : clock t0 s.log = s.cur
  rep : isort (waiting s.log) = s.queue
  legal : Legal c t0 s.log
  follow : Followed c s.log
  lt : ∀ i ∈ (s.queue ++ ids s.stack).map (·.id), i < s.next
  nd : ((s.queue ++ ids s.stack).map (·.id)).Nodup
  dead : ∀ i, .err i ∈ s.log → i < s.next ∧ i ∉ (s.queue ++ ids s.stack).map (·.id)
  req : ∀ e ∈ s.queue ++ ids s.stack, requested c.kind s.log e.id = some e.tp
  disp : ∀ h, h ∈ s.disposed ↔ .disp h ∈ s.log
  idle : s.stack = [] → .skewed ∉ s.log → ∀ e ∈ waiting s.log, s.cur < e.tp
  execs : s.executions = s.log.filterMap fun | .start _ t => some t | _ => none
  scheds : s.schedulings = s.log.filterMap fun | .sched e => some e.tp | _ => none

theorem Inv.init : Inv c t0 { cur := t0 } := by
  constructor <;> simp [Shape, clock, waiting, isort, Legal, Followed, ids]

theorem IsNext_of_rep {w q : List Ent} {top : Ent} (h : isort w = top :: q) :
    TrampSpec.IsNext w top ∧ isort (w.erase top) = q ∧ ∀ f ∈ w, top.tp ≤ f.tp := by
  obtain ⟨pre, post, rfl, h1, h2, rfl⟩ := isort_cons w top q h
  refine ⟨⟨pre, post, rfl, h1, h2⟩, by rw [erase_mid h1], ?_⟩
  intro f hf
  simp only [List.mem_append, List.mem_cons] at hf
  rcases hf with hf | rfl | hf
  · exact Int.le_of_lt (h1 f hf)
  · exact Int.le_refl _
  · exact h2 f hf

/-- User code keeps the invariant, whatever the stack, provided a frame is there to continue or it is idle. -/
theorem Inv.doAct {s : St} (h : Inv c t0 s) (a : Act) : Inv c t0 (doAct s a) := by
  obtain ⟨h1, h2, h3, h4, h5, h6, h7, h8, h9, h10, h11, h12, h13⟩ := h
  cases a with
  | call d =>
    have hfresh : ∀ e ∈ s.queue ++ ids s.stack, e.id ≠ s.next := by
      intro e he hh
      have := h6 e.id (List.mem_map_of_mem he); omega
    have hmem : ∀ f, f ∈ emplace s.queue ⟨s.cur + d, s.next⟩ ++ ids s.stack ↔
        f = ⟨s.cur + d, s.next⟩ ∨ f ∈ s.queue ++ ids s.stack := by
      intro f; simp only [List.mem_append, CT.mem_emplace]; grind
    have hreq : requested c.kind (s.log ++ [Ev.call s.next (s.cur + d)]) s.next = some (s.cur + d) := by
      simp [requested_snoc, reqStep]
    refine ⟨h1, ?_, ?_, ?_, ?_, ?_, ?_, ?_, ?_, ?_, by simp [Test.doAct, St.push], ?_, ?_⟩ <;>
      simp only [Test.doAct, St.push, St.enqueue, St.emit, ids]
    · simp only [clock_snoc]; exact h2
    · simp only [waiting_snoc, isort_snoc, h3]
    · refine (h4.snoc (ev := .call _ _) trivial).snoc ⟨hreq, fun hm => ?_⟩
      have : Ev.err s.next ∈ s.log := by simpa using hm
      exact Nat.lt_irrefl _ (h8 _ this).1
    · exact h5.snoc2 ⟨_, rfl⟩ trivial
    · intro i hi
      obtain ⟨f, hf, rfl⟩ := List.mem_map.mp hi
      rcases (hmem f).mp hf with rfl | hf
      · exact Nat.lt_succ_self _
      · exact Nat.lt_succ_of_lt (h6 _ (List.mem_map_of_mem hf))
    · have hp : (emplace s.queue ⟨s.cur + d, s.next⟩ ++ ids s.stack).Perm
          (⟨s.cur + d, s.next⟩ :: (s.queue ++ ids s.stack)) := (emplace_perm _ _).append_right _
      rw [(hp.map (·.id)).nodup_iff, List.map_cons, List.nodup_cons]
      refine ⟨fun hm => ?_, h7⟩
      obtain ⟨f, hf, hid⟩ := List.mem_map.mp hm
      exact hfresh f hf hid
    · intro i hi
      have : Ev.err i ∈ s.log := by simpa using hi
      refine ⟨Nat.lt_succ_of_lt (h8 i this).1, fun hm => ?_⟩
      obtain ⟨f, hf, rfl⟩ := List.mem_map.mp hm
      rcases (hmem f).mp hf with rfl | hf
      · exact Nat.lt_irrefl _ (h8 _ this).1
      · exact (h8 _ this).2 (List.mem_map_of_mem hf)
    · intro f hf
      rw [requested_snoc]
      rcases (hmem f).mp hf with rfl | hf
      · exact hreq
      · have := hfresh f hf
        rw [requested_snoc]
        simp only [reqStep]
        rw [if_neg (by omega)]
        exact h9 f hf
    · intro x; rw [h10]; simp
    · rw [h12]; simp
    · rw [h13]; simp
  | advance d =>
    refine ⟨h1, ?_, ?_, h4.snoc trivial, h5.snoc trivial, h6, h7, ?_, ?_, ?_, by simp [Test.doAct, St.push], ?_, ?_⟩ <;>
      simp only [Test.doAct, St.push, St.emit, ids]
    · simp only [clock_snoc, h2]
    · simp only [waiting_snoc]; exact h3
    · intro i hi; exact h8 i (by simpa using hi)
    · intro e he; rw [requested_snoc]; exact h9 e he
    · intro x; rw [h10]; simp
    · rw [h12]; simp
    · rw [h13]; simp
  | skew d =>
    refine ⟨h1, ?_, ?_, (h4.snoc (ev := .clock _) trivial).snoc trivial, (h5.snoc (x := .clock _) trivial).snoc trivial, h6, h7, ?_, ?_, ?_, ?_,
      ?_, ?_⟩ <;>
      simp only [Test.doAct, St.push, St.emit, ids]
    · simp only [clock_snoc, h2]
    · simp only [waiting_snoc]; exact h3
    · intro i hi; exact h8 i (by simpa using hi)
    · intro e he; rw [requested_snoc, requested_snoc]; exact h9 e he
    · intro x; rw [h10]; simp
    · simp
    · rw [h12]; simp
    · rw [h13]; simp
  | dispose hd =>
    refine ⟨h1, ?_, ?_, h4.snoc trivial, h5.snoc trivial, h6, h7, ?_, ?_, ?_, ?_,
      ?_, ?_⟩ <;>
      simp only [Test.doAct, St.push, St.emit, ids]
    · simp only [clock_snoc]; exact h2
    · simp only [waiting_snoc]; exact h3
    · intro i hi; exact h8 i (by simpa using hi)
    · intro e he; rw [requested_snoc]; exact h9 e he
    · intro x; simp only [List.mem_cons, h10]; simp; grind
    · intro hs hn; simp only [waiting_snoc]; exact h11 hs (by simpa using hn)
    · rw [h12]; simp
    · rw [h13]; simp

theorem Inv.drainStep {s : St} {rest : List Frame} (h : Inv c t0 s) (hs : s.stack = .drain :: rest) :
    Inv c t0 (Test.drainStep c s rest) := by
  obtain ⟨h1, h2, h3, h4, h5, h6, h7, h8, h9, h10, h11, h12, h13⟩ := h
  rw [hs] at h1 h6 h7 h8 h9
  simp only [Shape, ids] at h1 h6 h7 h8 h9
  have hret : (∀ e ∈ waiting s.log, s.cur < e.tp) → Inv c t0 ({ s with stack := rest }.emit .ret) := by
    intro hd
    refine ⟨h1, ?_, ?_, h4.snoc (by simpa [Ok, h2] using hd), h5.snoc trivial, h6, h7, ?_, ?_, ?_, ?_, ?_, ?_⟩ <;>
      simp only [St.emit]
    · simp only [clock_snoc]; exact h2
    · simp only [waiting_snoc]; exact h3
    · intro i hi; exact h8 i (by simpa using hi)
    · intro e he; rw [requested_snoc]; exact h9 e he
    · intro x; rw [h10]; simp
    · intro _ _; simpa only [waiting_snoc] using hd
    · rw [h12]; simp
    · rw [h13]; simp
  simp only [Test.drainStep]
  cases hq : s.queue with
  | nil =>
    have := hret (by rw [hq] at h3; rw [isort_nil h3]; simp)
    rwa [hq] at this
  | cons top q =>
    rw [hq] at h3 h6 h7 h8 h9
    obtain ⟨hn, hrep, hmin⟩ := IsNext_of_rep h3
    dsimp only
    split
    · rename_i hgt
      have := hret (fun e he => by have := hmin e he; omega)
      rwa [hq] at this
    · rename_i hle
      simp only [List.cons_append, List.map_cons, List.mem_cons, forall_eq_or_imp, List.nodup_cons] at h6 h7 h8 h9
      split
      · rename_i hd
        have hd' : Ev.disp (c.hnd top.id) ∈ s.log := by
          simp only [isDisposed, List.contains_iff_mem] at hd
          exact (h10 _).mp hd
        refine ⟨?_, ?_, ?_, h4.snoc ⟨hn, hd'⟩, h5.snoc trivial, ?_, ?_, ?_, ?_, ?_, ?_, ?_, ?_⟩ <;>
          simp only [St.emit, hs, Shape, ids]
        · exact h1
        · simp only [clock_snoc]; exact h2
        · simp only [waiting_snoc]; exact hrep
        · exact h6.2
        · exact h7.2
        · intro i hi
          have := h8 i (by simpa using hi)
          exact ⟨this.1, fun hm => this.2 (.inr hm)⟩
        · intro e he; rw [requested_snoc]; exact h9.2 e he
        · intro x; rw [h10]; simp
        · intro hc; cases hc
        · rw [h12]; simp
        · rw [h13]; simp
      · rename_i hd
        have hd' : Ev.disp (c.hnd top.id) ∉ s.log := by
          simp only [isDisposed, List.contains_iff_mem] at hd
          exact fun hm => hd ((h10 _).mpr hm)
        have hp : (q ++ top :: ids rest).Perm (top :: (q ++ ids rest)) := List.perm_middle
        refine ⟨?_, ?_, ?_, h4.snoc ⟨hn, by omega, h2.symm, fun hm => (h8 _ hm).2 (.inl rfl), hd', h9.1⟩,
          h5.snoc trivial, ?_, ?_, ?_, ?_, ?_, ?_, ?_, ?_⟩ <;>
          simp only [St.emit, St.push, hs, Shape, ids]
        · exact ⟨⟨_, rfl⟩, h1⟩
        · simp only [clock_snoc]; exact h2
        · simp only [waiting_snoc]; exact hrep
        · intro i hi
          have := (hp.map (·.id)).mem_iff.mp hi
          simp only [List.map_cons, List.mem_cons] at this
          rcases this with rfl | hm
          · exact h6.1
          · exact h6.2 i hm
        · rw [(hp.map (·.id)).nodup_iff]
          simp only [List.map_cons, List.nodup_cons]
          exact h7
        · intro i hi
          have := h8 i (by simpa using hi)
          refine ⟨this.1, fun hm => this.2 ?_⟩
          simpa only [List.map_cons, List.mem_cons] using (hp.map (·.id)).mem_iff.mp hm
        · intro e he
          rw [requested_snoc]
          have := hp.mem_iff.mp he
          simp only [List.mem_cons] at this
          rcases this with rfl | hm
          · exact h9.1
          · exact h9.2 e hm
        · intro x; rw [h10]; simp
        · intro hc; cases hc
        · rw [h12]; simp
        · rw [h13]; simp

theorem Inv.finish {s : St} {e : Ent} {r : Res} {rest : List Frame} (h : Inv c t0 s)
    (hs : s.stack = .run e [] r :: rest) : Inv c t0 (Test.finish c s e r rest) := by
  obtain ⟨h1, h2, h3, h4, h5, h6, h7, h8, h9, h10, h11, h12, h13⟩ := h
  rw [hs] at h1 h6 h7 h8 h9
  simp only [Shape, ids] at h1 h6 h7 h8 h9
  obtain ⟨⟨r', hr'⟩, h1'⟩ := h1
  have hp : (s.queue ++ e :: ids rest).Perm (e :: (s.queue ++ ids rest)) := List.perm_middle
  have h6' : ∀ f ∈ s.queue ++ e :: ids rest, f.id < s.next := fun f hf => h6 _ (List.mem_map_of_mem hf)
  rw [(hp.map (·.id)).nodup_iff, List.map_cons, List.nodup_cons] at h7
  have hne : ∀ f ∈ s.queue ++ ids rest, f.id ≠ e.id := fun f hf hh => h7.1 (hh ▸ List.mem_map_of_mem hf)
  have h9e := h9 e (by simp)
  have hnerr : Ev.err e.id ∉ s.log := fun hm => (h8 _ hm).2 (by simp)
  have hreq : ∀ f ∈ s.queue ++ ids rest, requested c.kind (s.log ++ [.fin e.id s.cur r]) f.id = some f.tp := by
    intro f hf
    have := hne f hf
    rw [requested_snoc]
    cases r with
    | again v =>
      simp only [reqStep]
      rw [if_neg (fun hh => this hh.symm)]
      exact h9 f (hp.mem_iff.mpr (List.mem_cons_of_mem _ hf))
    | stop => exact h9 f (hp.mem_iff.mpr (List.mem_cons_of_mem _ hf))
    | throw => exact h9 f (hp.mem_iff.mpr (List.mem_cons_of_mem _ hf))
  have hdead : ∀ i, Ev.err i ∈ s.log → i < s.next ∧ i ∉ (s.queue ++ ids rest).map (·.id) := by
    intro i hi
    refine ⟨(h8 i hi).1, fun hm => (h8 i hi).2 ?_⟩
    exact (hp.map (·.id)).mem_iff.mpr (List.mem_cons_of_mem _ hm)
  have hrn : rest ≠ [] := by rw [hr']; simp
  have hlt : ∀ i ∈ (s.queue ++ ids rest).map (·.id), i < s.next := by
    intro i hi
    exact h6 i ((hp.map (·.id)).mem_iff.mpr (List.mem_cons_of_mem _ hi))
  have hbase : (r = .stop ∨ (∃ v, r = .again v) ∧ isDisposed c s e.id = true) →
      Inv c t0 ({ s with stack := rest }.emit (.fin e.id s.cur r)) := by
    intro hr
    refine ⟨h1', ?_, ?_, h4.snoc h2.symm, h5.snoc ?_, hlt, h7.2, ?_, hreq, ?_, fun hc => absurd hc hrn, ?_, ?_⟩ <;>
      try simp only [St.emit]
    · simp only [clock_snoc]; exact h2
    · simp only [waiting_snoc]; exact h3
    · rcases hr with rfl | ⟨⟨v, rfl⟩, hd⟩
      · trivial
      · simp only [isDisposed, List.contains_iff_mem] at hd
        exact .inl ((h10 _).mp hd)
    · intro i hi; exact hdead i (by simpa using hi)
    · intro x; rw [h10]; simp
    · rw [h12]; simp
    · rw [h13]; simp
  simp only [Test.finish]
  cases r with
  | stop => exact hbase (.inl rfl)
  | throw =>
    refine ⟨h1', ?_, ?_, ?_, h5.snoc2 ⟨_, rfl⟩ trivial, hlt, h7.2, ?_, ?_, ?_, fun hc => absurd hc hrn, ?_, ?_⟩ <;>
      try simp only [St.emit]
    · simp only [clock_snoc]; exact h2
    · simp only [waiting_snoc]; exact h3
    · exact (h4.snoc (ev := .fin _ _ _) h2.symm).snoc ⟨by simpa using hnerr, _, _, rfl⟩
    · intro i hi
      simp only [List.mem_append, List.mem_singleton, Ev.err.injEq, reduceCtorEq, or_false] at hi
      rcases hi with hi | rfl
      · exact hdead i hi
      · exact ⟨h6' e (by simp), h7.1⟩
    · intro f hf; rw [requested_snoc]; exact hreq f hf
    · intro x; rw [h10]; simp
    · rw [h12]; simp
    · rw [h13]; simp
  | again v =>
    dsimp only
    by_cases hd : isDisposed c s e.id = true
    · have : isDisposed c ({ s with stack := rest }.emit (.fin e.id s.cur (.again v))) e.id = true := hd
      rw [if_pos this]; exact hbase (.inr ⟨⟨_, rfl⟩, hd⟩)
    · have : ¬ isDisposed c ({ s with stack := rest }.emit (.fin e.id s.cur (.again v))) e.id = true := hd
      rw [if_neg this]
      simp only [St.emit, St.enqueue]
      generalize htp : (match c.kind e.id with
        | .fromNow => s.cur + v
        | .fromThis => e.tp + v
        | .to => v) = tp
      have hq : requested c.kind (s.log ++ [.fin e.id s.cur (.again v)]) e.id = some (max s.cur tp) := by
        rw [requested_snoc]
        simp only [reqStep, if_true, h9e, Option.map_some]
        cases hk : c.kind e.id <;> simp only [hk] at htp ⊢ <;> rw [htp]
      have hmem : ∀ f, f ∈ emplace s.queue ⟨max s.cur tp, e.id⟩ ++ ids rest ↔
          f = ⟨max s.cur tp, e.id⟩ ∨ f ∈ s.queue ++ ids rest := by
        intro f; simp only [List.mem_append, CT.mem_emplace]; grind
      refine ⟨h1', ?_, ?_, ?_, h5.snoc2 (.inr ⟨_, _, rfl⟩) trivial, ?_, ?_, ?_, ?_, ?_, fun hc => absurd hc hrn, ?_, ?_⟩
      · simp only [clock_snoc]; exact h2
      · simp only [waiting_snoc, isort_snoc, h3]
      · exact (h4.snoc (ev := .fin _ _ _) h2.symm).snoc ⟨hq, by simpa using hnerr⟩
      · intro i hi
        obtain ⟨f, hf, rfl⟩ := List.mem_map.mp hi
        rcases (hmem f).mp hf with rfl | hf
        · exact h6' e (by simp)
        · exact hlt _ (List.mem_map_of_mem hf)
      · have hp' : (emplace s.queue ⟨max s.cur tp, e.id⟩ ++ ids rest).Perm
            (⟨max s.cur tp, e.id⟩ :: (s.queue ++ ids rest)) := (emplace_perm _ _).append_right _
        rw [(hp'.map (·.id)).nodup_iff, List.map_cons, List.nodup_cons]
        exact h7
      · intro i hi
        have hi' : Ev.err i ∈ s.log := by simpa using hi
        refine ⟨(hdead i hi').1, fun hm => ?_⟩
        obtain ⟨f, hf, rfl⟩ := List.mem_map.mp hm
        rcases (hmem f).mp hf with rfl | hf
        · exact hnerr hi'
        · exact (hdead _ hi').2 (List.mem_map_of_mem hf)
      · intro f hf
        rw [requested_snoc]
        rcases (hmem f).mp hf with rfl | hf
        · exact hq
        · exact hreq f hf
      · intro x; rw [h10]; simp
      · rw [h12]; simp
      · rw [h13]; simp

theorem Inv.pop {s : St} {e : Ent} {a : Act} {as : List Act} {r : Res} {rest : List Frame} (h : Inv c t0 s)
    (hs : s.stack = .run e (a :: as) r :: rest) : Inv c t0 { s with stack := .run e as r :: rest } := by
  obtain ⟨h1, h2, h3, h4, h5, h6, h7, h8, h9, h10, h11, h12, h13⟩ := h
  rw [hs] at h1 h6 h7 h8 h9
  exact ⟨h1, h2, h3, h4, h5, h6, h7, h8, h9, h10, by simp, h12, h13⟩

theorem Inv.step {s : St} (h : Inv c t0 s) (l : Lbl) : Inv c t0 (Test.step c s l) := by
  cases l with
  | user a =>
    simp only [Test.step]
    split
    · exact h.doAct a
    · exact h
  | run =>
    simp only [Test.step]
    split
    · exact h
    · rename_i hs; exact h.drainStep hs
    · rename_i hs; exact h.finish hs
    · rename_i hs; exact (h.pop hs).doAct _

theorem Inv.exec (ls : List Lbl) : Inv c t0 (Test.exec c t0 ls) := by
  suffices ∀ s, Inv c t0 s → Inv c t0 (ls.foldl (Test.step c) s) from this _ Inv.init
  induction ls with
  | nil => exact fun s h => h
  | cons l ls ih => exact fun s h => ih _ (h.step l)

/-! ## Properties -/

/-- C59: a task is started only when virtual time has reached its time, at the current virtual time, and it is
the earliest waiting one (the first requested among equal times). -/
theorem C59_order (ls : List Lbl) (pre post : List Ev) (e : Ent) (t : Int)
    (h : (exec c t0 ls).log = pre ++ .start e t :: post) :
    TrampSpec.IsNext (waiting pre) e ∧ e.tp ≤ t ∧ t = clock t0 pre :=
  let k := (Inv.exec ls).legal _ _ _ h
  ⟨k.1, k.2.1, k.2.2.1⟩

/-- C59: when `time_advance` (or `schedule`) returns, every task whose time has come has been run (or discarded
because its handler is disposed). -/
theorem C59_nothing_due_left (ls : List Lbl) (pre post : List Ev)
    (h : (exec c t0 ls).log = pre ++ .ret :: post) : ∀ e ∈ waiting pre, clock t0 pre < e.tp :=
  (Inv.exec ls).legal _ _ _ h

/-- C59: between calls of the scheduler no due task is waiting (unless time was moved by another scheduler). -/
theorem C59_idle (ls : List Lbl) (hidle : (exec c t0 ls).stack = []) (hs : Ev.skewed ∉ (exec c t0 ls).log) :
    ∀ e ∈ waiting (exec c t0 ls).log, clock t0 (exec c t0 ls).log < e.tp := by
  have h := Inv.exec (c := c) (t0 := t0) ls
  rw [h.clk]; exact h.idle hidle hs

/-- C59: only disposed tasks are discarded. -/
theorem C59_dropped_only_if_disposed (ls : List Lbl) (pre post : List Ev) (e : Ent)
    (h : (exec c t0 ls).log = pre ++ .drop e :: post) : Ev.disp (c.hnd e.id) ∈ pre :=
  ((Inv.exec ls).legal _ _ _ h).2

/-- C59: tasks wait for exactly the time the user asked for (a repetition not before the current time). -/
theorem C59_times (ls : List Lbl) (pre post : List Ev) (e : Ent)
    (h : (exec c t0 ls).log = pre ++ .sched e :: post) : requested c.kind pre e.id = some e.tp :=
  ((Inv.exec ls).legal _ _ _ h).1

/-- C59: a `schedule` call enters its task into the queue; a run that asks for another one is entered again,
unless its handler is disposed. -/
theorem C59_requests_kept (ls : List Lbl) (pre post : List Ev) (ev : Ev)
    (h : (exec c t0 ls).log = pre ++ ev :: post) :
    (∀ id due, ev = .call id due → ∃ p, post = .sched ⟨due, id⟩ :: p) ∧
    (∀ id t v, ev = .fin id t (.again v) → .disp (c.hnd id) ∈ pre ∨ ∃ tp p, post = .sched ⟨tp, id⟩ :: p) := by
  have := (Inv.exec ls).follow _ _ _ h
  constructor
  · rintro id due rfl; exact this
  · rintro id t v rfl; exact this

/-- C59: `get_executions` and `get_schedulings` report exactly the starts and the requests. -/
theorem C59_reports (ls : List Lbl) :
    (exec c t0 ls).executions = (exec c t0 ls).log.filterMap (fun | .start _ t => some t | _ => none) ∧
    (exec c t0 ls).schedulings = (exec c t0 ls).log.filterMap (fun | .sched e => some e.tp | _ => none) :=
  ⟨(Inv.exec ls).execs, (Inv.exec ls).scheds⟩

/-- C64 for the test scheduler: a task whose handler is disposed is not started. -/
theorem C64_test_scheduler (ls : List Lbl) (pre post : List Ev) (e : Ent) (t : Int)
    (h : (exec c t0 ls).log = pre ++ .start e t :: post) : Ev.disp (c.hnd e.id) ∉ pre :=
  ((Inv.exec ls).legal _ _ _ h).2.2.2.2.1

/-- C65 for the test scheduler: a throw is reported at once to the handler, once for the task, and the task is
neither requested nor started again. -/
theorem C65_test_scheduler (ls : List Lbl) (pre post : List Ev) (id : Nat) (t : Int)
    (h : (exec c t0 ls).log = pre ++ .fin id t .throw :: post) :
    ∃ p, post = .err id :: p ∧ Ev.err id ∉ pre ∧ Ev.err id ∉ p ∧ (∀ e ∈ p.filterMap (fun
      | .sched e => some e | .start e _ => some e | _ => none), e.id ≠ id) := by
  have hi := Inv.exec (c := c) (t0 := t0) ls
  obtain ⟨p, rfl⟩ := hi.follow _ _ _ h
  have h' : (exec c t0 ls).log = (pre ++ [.fin id t .throw]) ++ .err id :: p := by simp [h]
  refine ⟨p, rfl, ?_, ?_, ?_⟩
  · have := (hi.legal _ _ _ h').1
    intro hm; exact this (by simp [hm])
  · intro hm
    obtain ⟨a, b, rfl⟩ := List.append_of_mem hm
    exact (hi.legal (pre ++ .fin id t .throw :: .err id :: a) (.err id) b (by simp [h])).1 (by simp)
  · intro e he hid
    obtain ⟨ev, hev, hx⟩ := List.mem_filterMap.mp he
    obtain ⟨a, b, rfl⟩ := List.append_of_mem hev
    have hl := hi.legal (pre ++ .fin id t .throw :: .err id :: a) ev b (by simp [h])
    cases ev <;> simp at hx
    · subst hx; exact hl.2 (by simp [hid])
    · subst hx; exact hl.2.2.2.1 (by simp [hid])

/-- Non-vacuity: task 0 repeats every 10 and its first run schedules task 1 (due at once, run in a nested drain)
and task 2; advancing by 25 runs everything due in order; task 2 disposes the handler of task 0. -/
def exCfg : Cfg where
  body id n := match id, n with
    | 0, 0 => ([.call 0, .call 22], .again 10)
    | 0, _ => ([], .again 10)
    | 2, _ => ([.dispose 0], .throw)
    | _, _ => ([], .stop)
  kind _ := .fromThis
  hnd id := id

example : (exec exCfg 0 ([.user (.call 5), .run, .user (.advance 25)] ++ List.replicate 25 .run ++
      [.user (.advance 20)] ++ List.replicate 2 .run)).log =
    [.call 0 5, .sched ⟨5, 0⟩, .ret, .clock 25, .start ⟨5, 0⟩ 25, .call 1 25, .sched ⟨25, 1⟩, .start ⟨25, 1⟩ 25,
     .fin 1 25 .stop, .ret, .call 2 47, .sched ⟨47, 2⟩, .ret, .fin 0 25 (.again 10), .sched ⟨25, 0⟩, .start ⟨25, 0⟩ 25,
     .fin 0 25 (.again 10), .sched ⟨35, 0⟩, .ret, .clock 20, .start ⟨35, 0⟩ 45, .fin 0 45 (.again 10),
     .sched ⟨45, 0⟩] := by decide

example : (exec exCfg 0 ([.user (.call 5), .run, .user (.advance 25)] ++ List.replicate 25 .run ++
      [.user (.advance 22)] ++ List.replicate 20 .run)).log.drop 19 =
    [.clock 22, .start ⟨35, 0⟩ 47, .fin 0 47 (.again 10), .sched ⟨47, 0⟩, .start ⟨47, 2⟩ 47, .disp 0,
     .fin 2 47 .throw, .err 2, .drop ⟨47, 0⟩, .ret] := by decide

end Rpp.Sched.Test
