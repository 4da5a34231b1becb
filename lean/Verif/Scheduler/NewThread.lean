import Verif.Scheduler.TestScheduler
/-!
# new_thread and thread_pool (C61, C62, C63, C64, C65)

Models schedulers/new_thread.hpp and schedulers/thread_pool.hpp. One worker thread (`data_thread`, new_thread.hpp 65-117) and any
number of other threads. Critical sections are single steps. The test of the handler (80, 105) and the call of the
user function that follows it without waiting are one step: that moment is the start of the task. Time moves by
`tick` labels at any moment; when an ideal operating system would let the worker sleep is expressed by `blocked`.
-/

namespace Rpp.Sched.NT
open Rpp.Sched

/-- Parameters: what the program's own functions do and when (schedulers/new_thread.hpp 25-145, details/queue.hpp 55-110 calls them). -/
structure Cfg where
  kind : Nat → Kind
  hnd : Nat → Nat

/-- Program counter of the worker thread. -/
inductive Mode where
  | loop                 -- top of the outer `while`, including the wait for a non-empty queue (69-78)
  | wait (dl : Int)      -- in `wait_for` (90) with this deadline
  | run (e : Ent)        -- inside the user function (101)
  | exited
deriving DecidableEq, Repr

/-- Observable events. `call` / `ctcall` : task `id` is scheduled for a time through the worker of the scheduler / by
code running on the worker thread through current_thread; `sched` : it enters the queue at time `t`; `fresh` : the `schedule` call
for `id` is complete (`has_fresh_data` stored); `start` / `rerun` : the user function is called after leaving the
queue / again without going through the queue; `drop` : discarded, disposed; `stop` : all
worker objects are gone; `exit` : the thread ends. -/
inductive Ev where
  | call (id : Nat) (due : Int)
  | ctcall (id : Nat) (due : Int)
  | sched (e : Ent) (t : Int)
  | fresh (id : Nat)
  | drop (e : Ent)
  | start (e : Ent) (t : Int)
  | rerun (e : Ent) (t : Int)
  | fin (id : Nat) (t : Int) (r : Res)
  | err (id : Nat)
  | disp (h : Nat)
  | stop
  | exit
deriving DecidableEq, Repr

/-- State: the members of the objects of schedulers/new_thread.hpp 25-145, details/queue.hpp 55-110, what the running calls are doing, and the log. -/
structure St where
  now : Int := 0
  /-- `s_last_now_time` of the worker thread -/
  last : Int := 0
  queue : List Ent := []
  stopping : Bool := false
  hasFresh : Bool := false
  /-- a notification has arrived and the worker has not looked at it yet -/
  signal : Bool := false
  mode : Mode := .loop
  next : Nat := 0
  /-- `defer_to` calls between `emplace` and the store of `has_fresh_data` (52-53) -/
  pend : List Nat := []
  disposed : List Nat := []
  log : List Ev := []

variable (c : Cfg)

/-- Log an event; no counterpart in /repo. -/
def St.emit (s : St) (ev : Ev) : St := { s with log := s.log ++ [ev] }

/-- `is_disposed()` of a scheduled function's handler at that moment (schedulers/new_thread.hpp 25-145, details/queue.hpp 55-110). -/
def isDisposed (s : St) (id : Nat) : Bool := s.disposed.contains (c.hnd id)

/-- `emplace_impl` of a shared queue with `notify_one`, queue.hpp 250-278. -/
def St.enqueue (s : St) (e : Ent) : St := { s with queue := emplace s.queue e, signal := true }.emit (.sched e s.now)

/-- What may happen next; the choice is arbitrary; no counterpart in /repo. -/
inductive Lbl where
  | tick (d : Nat)
  | defer (tp : Int)      -- state_t::defer_to up to `emplace`, new_thread.hpp 52, on any thread
  | store (id : Nat)      -- the rest of it, new_thread.hpp 53
  | ctDefer (tp : Int)    -- current_thread's defer_to on the worker thread, current_thread.hpp 169-183
  | dispose (h : Nat)
  | stop                  -- ~state_t, new_thread.hpp 42-46
  | work                  -- the worker makes its next step (in `wait`: it is woken)
  | ret (r : Res)         -- the user function returns
deriving DecidableEq, Repr

/-- The outer loop body, new_thread.hpp 69-101. -/
def loopStep (s : St) : St :=
  match s.queue with
  | [] => if s.stopping then { s with mode := .exited }.emit .exit else s
  | top :: rest =>
    if isDisposed c s top.id then ({ s with queue := rest }).emit (.drop top)
    else if s.last < top.tp && s.now < top.tp then
      -- 86-91; `now()` caches the time; the deadline is `now + (top - now)`
      { s with last := s.now, mode := .wait top.tp, signal := false }
    else
      let last := if s.last < top.tp then s.now else s.last
      ({ s with queue := rest, last := last, hasFresh := !rest.isEmpty, mode := .run top }).emit (.start top s.now)

/-- The worker is woken in `wait_for`: the predicate (90) is evaluated; if it fails the worker goes back to sleep
unless the deadline has passed. (schedulers/new_thread.hpp 84-95) -/
def waitStep (s : St) (dl : Int) : St :=
  match s.queue with
  | [] => { s with mode := .loop }   -- unreachable: `top()` of an empty queue
  | top :: _ =>
    if isDisposed c s top.id then { s with mode := .loop }
    else if top.tp ≤ s.now || dl ≤ s.now then { s with last := s.now, mode := .loop }
    else { s with last := s.now, signal := false }

/-- `can_run_immediately`, queue.hpp 59-68. -/
def canRunImm (k : Kind) (v : Int) : Bool := match k with | .to => false | _ => v == 0

/-- The user function has returned, new_thread.hpp 101-112. -/
def retStep (s : St) (e : Ent) (r : Res) : St :=
  let s := s.emit (.fin e.id s.now r)
  match r with
  | .stop => { s with mode := .loop }
  | .throw => { s.emit (.err e.id) with mode := .loop }
  | .again v =>
    if isDisposed c s e.id then { s with mode := .loop }
    else
      -- `handle_advanced_call`, queue.hpp 96-109; for a rerun the same time is the time it is due
      let tp := match c.kind e.id with
        | .fromNow => s.now + v
        | .fromThis => e.tp + v
        | .to => v
      if canRunImm (c.kind e.id) v && !s.hasFresh then
        { s with mode := .run ⟨tp, e.id⟩ }.emit (.rerun ⟨tp, e.id⟩ s.now)
      else
        let last := match c.kind e.id with | .fromNow => s.now | _ => s.last
        { s.enqueue ⟨tp, e.id⟩ with mode := .loop, last := last }

/-- One step; the single cases cite the lines of schedulers/new_thread.hpp 25-145, details/queue.hpp 55-110 they model. -/
def step (s : St) : Lbl → St
  | .tick d => { s with now := s.now + d }
  | .defer tp =>
    { (s.emit (.call s.next tp)).enqueue ⟨tp, s.next⟩ with next := s.next + 1, pend := s.next :: s.pend }
  | .store i =>
    if i ∈ s.pend then { s with pend := s.pend.erase i, hasFresh := true }.emit (.fresh i) else s
  | .ctDefer tp => match s.mode with
    | .run _ =>
      let s' := { s.emit (.ctcall s.next tp) with next := s.next + 1 }
      if isDisposed c s' s.next then s' else s'.enqueue ⟨tp, s.next⟩
    | _ => s
  | .dispose h => { s with disposed := h :: s.disposed }.emit (.disp h)
  | .stop => { s with stopping := true, signal := true }.emit .stop
  | .work => match s.mode with
    | .loop => loopStep c s
    | .wait dl => waitStep c s dl
    | _ => s
  | .ret r => match s.mode with
    | .run e => retStep c s e r
    | _ => s

/-- The state after a sequence of steps; no counterpart in /repo. -/
def exec (ls : List Lbl) : St := ls.foldl (step c) {}

/-- The worker thread sleeps and there is no reason for the operating system to wake it: no notification has
arrived and no deadline has passed. -/
def blocked (s : St) : Bool := match s.mode with
  | .wait dl => !s.signal && decide (s.now < dl)
  | .loop => s.queue.isEmpty && !s.stopping
  | _ => false

/-! ## Specification -/

/-- The tasks in the queue, in the order they entered. -/
def waiting (log : List Ev) : List Ent :=
  log.foldl (fun w ev => match ev with
    | .sched e _ => w ++ [e]
    | .drop e => w.erase e
    | .start e _ => w.erase e
    | _ => w) []

/-- How an event changes the requested time of task `id`. -/
def reqStep (kind : Nat → Kind) (id : Nat) (r : Option Int) : Ev → Option Int
  | .call i due => if i = id then some due else r
  | .ctcall i due => if i = id then some due else r
  | .fin i t (.again v) =>
    if i = id then
      match kind id with
      | .fromNow => some (t + v)
      | .fromThis => r.map (· + v)
      | .to => some v
    else r
  | _ => r

/-- The time for which the next run of task `id` is requested (as in `TrampSpec.requested`). -/
def requested (kind : Nat → Kind) (log : List Ev) (id : Nat) : Option Int :=
  log.foldl (reqStep kind id) none

/-! ## Proofs -/

theorem waiting_snoc (l : List Ev) (ev : Ev) : waiting (l ++ [ev]) = (match ev with
    | .sched e _ => waiting l ++ [e]
    | .drop e => (waiting l).erase e
    | .start e _ => (waiting l).erase e
    | _ => waiting l) := by
  simp only [waiting, List.foldl_append, List.foldl_cons, List.foldl_nil]
  try (cases ev <;> rfl)

theorem requested_snoc (k : Nat → Kind) (l : List Ev) (ev : Ev) (id : Nat) :
    requested k (l ++ [ev]) id = reqStep k id (requested k l id) ev := by
  simp only [requested, List.foldl_append, List.foldl_cons, List.foldl_nil]

variable {c}

/-- What the logs satisfy (for the proofs); models no code. -/
def Ok (c : Cfg) (pre : List Ev) : Ev → Prop
  | .sched e _ => requested c.kind pre e.id = some e.tp ∧ .err e.id ∉ pre
  | .start e t => TrampSpec.IsNext (waiting pre) e ∧ e.tp ≤ t ∧ .err e.id ∉ pre ∧ .disp (c.hnd e.id) ∉ pre ∧
      requested c.kind pre e.id = some e.tp ∧ ((waiting pre).map (·.id)).Nodup
  | .rerun e t => e.tp ≤ t ∧ .err e.id ∉ pre ∧ .disp (c.hnd e.id) ∉ pre ∧ requested c.kind pre e.id = some e.tp ∧
      ∀ f ∈ waiting pre, (∃ due, .ctcall f.id due ∈ pre) ∨ .fresh f.id ∉ pre
  | .drop e => TrampSpec.IsNext (waiting pre) e ∧ .disp (c.hnd e.id) ∈ pre
  | .err id => .err id ∉ pre ∧ ∃ pre' t, pre = pre' ++ [.fin id t .throw]
  | .exit => waiting pre = [] ∧ .stop ∈ pre
  | _ => True

/-- What the logs satisfy (for the proofs); models no code. -/
def Legal (c : Cfg) (log : List Ev) : Prop := ∀ pre ev post, log = pre ++ ev :: post → Ok c pre ev

theorem Legal.snoc {log : List Ev} {ev : Ev} (h : Legal c log) (ho : Ok c log ev) : Legal c (log ++ [ev]) := by
  intro pre ev' post heq
  rcases QueueRun.snoc_eq heq with ⟨rfl, rfl, _⟩ | ⟨post', _, h2⟩
  · exact ho
  · exact h _ _ _ h2

/-- What has to follow an event. -/
def Follow (c : Cfg) (pre : List Ev) (ev : Ev) (post : List Ev) : Prop :=
  match ev with
  | .call id due => ∃ t p, post = .sched ⟨due, id⟩ t :: p
  | .fin id _ .throw => ∃ p, post = .err id :: p
  | .fin id t (.again _) => .disp (c.hnd id) ∈ pre ∨ (∃ tp p, post = .sched ⟨tp, id⟩ t :: p) ∨
      ∃ tp p, post = .rerun ⟨tp, id⟩ t :: p
  | _ => True

/-- What the logs satisfy (for the proofs); models no code. -/
def Followed (c : Cfg) (log : List Ev) : Prop := ∀ pre ev post, log = pre ++ ev :: post → Follow c pre ev post

theorem Follow.append {pre post : List Ev} {ev x : Ev} (h : Follow c pre ev post) :
    Follow c pre ev (post ++ [x]) := by
  cases ev with
  | call id due => obtain ⟨t, p, rfl⟩ := h; exact ⟨t, p ++ [x], rfl⟩
  | fin id t r =>
    cases r with
    | throw => obtain ⟨p, rfl⟩ := h; exact ⟨p ++ [x], rfl⟩
    | again v =>
      rcases h with h | ⟨tp, p, rfl⟩ | ⟨tp, p, rfl⟩
      · exact .inl h
      · exact .inr (.inl ⟨tp, p ++ [x], rfl⟩)
      · exact .inr (.inr ⟨tp, p ++ [x], rfl⟩)
    | stop => trivial
  | _ => trivial

theorem Followed.snoc {log : List Ev} {x : Ev} (h : Followed c log) (hx : Follow c log x []) :
    Followed c (log ++ [x]) := by
  intro pre ev post heq
  rcases QueueRun.snoc_eq heq with ⟨rfl, rfl, rfl⟩ | ⟨post', rfl, h2⟩
  · exact hx
  · exact (h _ _ _ h2).append

theorem Followed.snoc2 {log : List Ev} {x y : Ev} (h : Followed c log) (hx : Follow c log x [y])
    (hy : Follow c (log ++ [x]) y []) : Followed c (log ++ [x] ++ [y]) := by
  intro pre ev post heq
  rcases QueueRun.snoc_eq heq with ⟨rfl, rfl, rfl⟩ | ⟨post', rfl, h2⟩
  · exact hy
  · rcases QueueRun.snoc_eq h2 with ⟨rfl, rfl, rfl⟩ | ⟨post'', rfl, h3⟩
    · exact hx
    · exact ((h _ _ _ h3).append).append

theorem mem_isort {l : List Ent} {e : Ent} : e ∈ isort l ↔ e ∈ l := by
  induction l using snoc_ind with
  | h0 => simp [isort]
  | h1 l x ih => rw [isort_snoc, CT.mem_emplace, ih]; simp; grind

theorem isort_perm (l : List Ent) : (isort l).Perm l := by
  induction l using snoc_ind with
  | h0 => exact .refl _
  | h1 l x ih =>
    rw [isort_snoc]
    exact (emplace_perm _ _).trans ((List.Perm.cons _ ih).trans (List.perm_append_comm (l₁ := [x])))

/-- Invariant of the proofs; models no code. -/
structure Inv (c : Cfg) (s : St) : Prop where
  lastle : s.last ≤ s.now
  rep : isort (waiting s.log) = s.queue
  legal : Legal c s.log
  follow : Followed c s.log
  disp : ∀ h, h ∈ s.disposed ↔ .disp h ∈ s.log
  nd : (s.queue.map (·.id)).Nodup
  ltq : ∀ f ∈ s.queue, f.id < s.next
  ltp : ∀ i ∈ s.pend, i < s.next
  gone : ∀ i, .err i ∈ s.log → i < s.next ∧ ∀ f ∈ s.queue, f.id ≠ i
  reqq : ∀ f ∈ s.queue, requested c.kind s.log f.id = some f.tp
  run : ∀ e, s.mode = .run e → e.id < s.next ∧ (∀ f ∈ s.queue, f.id ≠ e.id) ∧ .err e.id ∉ s.log ∧ e.tp ≤ s.now ∧
    requested c.kind s.log e.id = some e.tp
  unused : ∀ i, s.next ≤ i → .fresh i ∉ s.log ∧ (∀ d, .call i d ∉ s.log) ∧ ∀ d, .ctcall i d ∉ s.log
  pnd : s.pend.Nodup
  freshp : ∀ i ∈ s.pend, .fresh i ∉ s.log
  fresh : ∀ e, s.mode = .run e → s.hasFresh = true ∨
    ∀ f ∈ s.queue, (∃ due, .ctcall f.id due ∈ s.log) ∨ .fresh f.id ∉ s.log
  times : ∀ e t, .sched e t ∈ s.log → t ≤ s.now
  stp : s.stopping = true ↔ .stop ∈ s.log
  /-- the deadline belongs to a task in the queue; what is due earlier came later -/
  dl : ∀ x, s.mode = .wait x → ∃ a f b, waiting s.log = a ++ f :: b ∧ f.tp = x ∧ (∀ e ∈ a, x ≤ e.tp)
  /-- nothing was due when the worker last looked -/
  look : ∀ x, s.mode = .wait x → s.signal = false → (∀ e t, .sched e t ∈ s.log → t ≤ s.last) ∧
    ∀ f ∈ s.queue, s.last < f.tp

theorem Inv.init : Inv c {} := by
  constructor <;> simp [waiting, isort, Legal, Followed]

/-- Proof of the routine clauses of a step. -/
macro "nt_case" : tactic => `(tactic|
  (simp only [St.emit, St.enqueue, waiting_snoc, requested_snoc, reqStep] at *
   try grind))

theorem Inv.tick {s : St} (h : Inv c s) (d : Nat) : Inv c (step c s (.tick d)) := by
  obtain ⟨h1, h2, h3, h4, h5, h6, h7, h8, h9, h10, h11, h12, h13, h14, h15, h16, h17, h18, h19⟩ := h
  simp only [NT.step]
  refine ⟨by dsimp only; omega, h2, h3, h4, h5, h6, h7, h8, h9, h10, ?_, h12, h13, h14, h15, ?_, h17, h18, h19⟩
  · intro e he; have := h11 e he; dsimp only; refine ⟨this.1, this.2.1, this.2.2.1, by omega, this.2.2.2.2⟩
  · intro e t ht; have := h16 e t ht; dsimp only; omega

theorem mid_snoc {w : List Ent} {x : Int} {g : Ent} (h : ∃ a f b, w = a ++ f :: b ∧ f.tp = x ∧ (∀ e ∈ a, x ≤ e.tp)) :
    ∃ a f b, w ++ [g] = a ++ f :: b ∧ f.tp = x ∧ (∀ e ∈ a, x ≤ e.tp) := by
  obtain ⟨a, f, b, rfl, h2, h3⟩ := h
  exact ⟨a, f, b ++ [g], by simp, h2, h3⟩

/-- A neutral event. -/
theorem Inv.disp' {s : St} (h : Inv c s) (d : Nat) : Inv c (step c s (.dispose d)) := by
  obtain ⟨h1, h2, h3, h4, h5, h6, h7, h8, h9, h10, h11, h12, h13, h14, h15, h16, h17, h18, h19⟩ := h
  simp only [NT.step]
  refine ⟨h1, ?_, h3.snoc trivial, h4.snoc trivial, ?_, h6, h7, h8, ?_, ?_, ?_, ?_, h13, ?_, ?_, ?_, ?_, ?_, ?_⟩
  all_goals nt_case

theorem Inv.stop' {s : St} (h : Inv c s) : Inv c (step c s .stop) := by
  obtain ⟨h1, h2, h3, h4, h5, h6, h7, h8, h9, h10, h11, h12, h13, h14, h15, h16, h17, h18, h19⟩ := h
  simp only [NT.step]
  refine ⟨h1, ?_, h3.snoc trivial, h4.snoc trivial, ?_, h6, h7, h8, ?_, ?_, ?_, ?_, h13, ?_, ?_, ?_, ?_, ?_, ?_⟩
  all_goals nt_case

theorem Inv.store {s : St} (h : Inv c s) (i : Nat) : Inv c (step c s (.store i)) := by
  simp only [NT.step]
  split
  · obtain ⟨h1, h2, h3, h4, h5, h6, h7, h8, h9, h10, h11, h12, h13, h14, h15, h16, h17, h18, h19⟩ := h
    have hme : ∀ j, j ∈ s.pend.erase i ↔ j ≠ i ∧ j ∈ s.pend := fun j => h13.mem_erase_iff
    have hnd : (s.pend.erase i).Nodup := h13.erase i
    refine ⟨h1, ?_, h3.snoc trivial, h4.snoc trivial, ?_, h6, h7, ?_, ?_, ?_, ?_, ?_, hnd, ?_, ?_, ?_, ?_, ?_, ?_⟩
    all_goals nt_case
  · exact h

theorem nodup_emplace {q : List Ent} {e : Ent} (h : (q.map (·.id)).Nodup) (hne : ∀ f ∈ q, f.id ≠ e.id) :
    ((emplace q e).map (·.id)).Nodup := by
  have hp : ((emplace q e).map (·.id)).Perm ((e :: q).map (·.id)) := (emplace_perm _ _).map _
  rw [hp.nodup_iff, List.map_cons, List.nodup_cons]
  refine ⟨fun hm => ?_, h⟩
  obtain ⟨f, hf, hid⟩ := List.mem_map.mp hm
  exact hne f hf hid

theorem Inv.defer {s : St} (h : Inv c s) (tp : Int) : Inv c (step c s (.defer tp)) := by
  obtain ⟨h1, h2, h3, h4, h5, h6, h7, h8, h9, h10, h11, h12, h13, h14, h15, h16, h17, h18, h19⟩ := h
  simp only [NT.step]
  have hmem : ∀ f, f ∈ Sched.emplace s.queue ⟨tp, s.next⟩ ↔ f = ⟨tp, s.next⟩ ∨ f ∈ s.queue := fun f => CT.mem_emplace
  have hreq : requested c.kind (s.log ++ [Ev.call s.next tp]) s.next = some tp := by
    simp [requested_snoc, reqStep]
  have hne : ∀ f ∈ s.queue, f.id ≠ s.next := fun f hf => Nat.ne_of_lt (h7 f hf)
  have hnp : s.next ∉ s.pend := fun hm => Nat.lt_irrefl _ (h8 _ hm)
  have hnd := nodup_emplace (e := ⟨tp, s.next⟩) h6 hne
  have herr : Ev.err s.next ∉ s.log := fun hm => Nat.lt_irrefl _ (h9 _ hm).1
  refine ⟨h1, ?_, (h3.snoc (ev := .call _ _) trivial).snoc ⟨hreq, by simpa using herr⟩, h4.snoc2 ⟨_, _, rfl⟩ trivial,
    ?_, hnd, ?_, ?_, ?_, ?_, ?_, ?_, List.nodup_cons.mpr ⟨hnp, h13⟩, ?_, ?_, ?_, ?_, ?_, ?_⟩
  · simp only [St.emit, St.enqueue, waiting_snoc, isort_snoc, h2]
  · nt_case
  · nt_case
  · nt_case
  · nt_case
  · intro f hf
    simp only [St.emit, St.enqueue] at hf ⊢
    rw [requested_snoc]
    rcases (hmem f).mp hf with rfl | hf
    · exact hreq
    · rw [requested_snoc]; simp only [reqStep]
      rw [if_neg (fun h => hne f hf h.symm)]; exact h10 f hf
  · nt_case
  · nt_case
  · nt_case
  · nt_case
  · nt_case
  · nt_case
  · intro x hx
    simp only [St.emit, St.enqueue, waiting_snoc] at hx ⊢
    exact mid_snoc (h18 x hx)
  · nt_case

theorem Inv.ctDefer {s : St} (h : Inv c s) (tp : Int) : Inv c (step c s (.ctDefer tp)) := by
  simp only [NT.step]
  split
  rotate_left
  · exact h
  rename_i e0 hmode
  obtain ⟨h1, h2, h3, h4, h5, h6, h7, h8, h9, h10, h11, h12, h13, h14, h15, h16, h17, h18, h19⟩ := h
  have hmem : ∀ f, f ∈ Sched.emplace s.queue ⟨tp, s.next⟩ ↔ f = ⟨tp, s.next⟩ ∨ f ∈ s.queue := fun f => CT.mem_emplace
  have hreq : requested c.kind (s.log ++ [Ev.ctcall s.next tp]) s.next = some tp := by
    simp [requested_snoc, reqStep]
  have hne : ∀ f ∈ s.queue, f.id ≠ s.next := fun f hf => Nat.ne_of_lt (h7 f hf)
  have hnp : s.next ∉ s.pend := fun hm => Nat.lt_irrefl _ (h8 _ hm)
  have hnd := nodup_emplace (e := ⟨tp, s.next⟩) h6 hne
  have herr : Ev.err s.next ∉ s.log := fun hm => Nat.lt_irrefl _ (h9 _ hm).1
  split
  · refine ⟨h1, ?_, h3.snoc trivial, h4.snoc trivial, ?_, h6, ?_, ?_, ?_, ?_, ?_, ?_, h13, ?_, ?_, ?_, ?_, ?_, ?_⟩
    all_goals nt_case
  · refine ⟨h1, ?_, (h3.snoc (ev := .ctcall _ _) trivial).snoc ⟨hreq, by simpa using herr⟩,
      (h4.snoc (x := .ctcall _ _) trivial).snoc trivial,
      ?_, hnd, ?_, ?_, ?_, ?_, ?_, ?_, h13, ?_, ?_, ?_, ?_, ?_, ?_⟩
    · simp only [St.emit, St.enqueue, waiting_snoc, isort_snoc, h2]
    · nt_case
    · nt_case
    · nt_case
    · nt_case
    · intro f hf
      simp only [St.emit, St.enqueue] at hf ⊢
      rw [requested_snoc]
      rcases (hmem f).mp hf with rfl | hf
      · exact hreq
      · rw [requested_snoc]; simp only [reqStep]
        rw [if_neg (fun h => hne f hf h.symm)]; exact h10 f hf
    all_goals nt_case

theorem Inv.work {s : St} (h : Inv c s) : Inv c (step c s .work) := by
  have hcopy := h
  obtain ⟨h1, h2, h3, h4, h5, h6, h7, h8, h9, h10, h11, h12, h13, h14, h15, h16, h17, h18, h19⟩ := h
  simp only [NT.step]
  split
  · rename_i hm
    simp only [loopStep]
    split
    · rename_i hq
      split
      · rename_i hst
        have hw : waiting s.log = [] := by rw [hq] at h2; exact isort_nil h2
        refine ⟨h1, ?_, h3.snoc ⟨hw, h17.mp hst⟩, h4.snoc trivial, ?_, h6, h7, h8, ?_, ?_, ?_, ?_, h13, ?_, ?_, ?_, ?_,
          ?_, ?_⟩
        all_goals nt_case
      · exact hcopy
    · rename_i top rest hq
      have hn : TrampSpec.IsNext (waiting s.log) top ∧ isort ((waiting s.log).erase top) = rest ∧ _ :=
        Test.IsNext_of_rep (by rw [h2, hq])
      rw [hq, List.map_cons, List.nodup_cons] at h6
      have hne : ∀ f ∈ rest, f.id ≠ top.id := fun f hf hh => h6.1 (hh ▸ List.mem_map_of_mem hf)
      split
      · rename_i hd
        have hd' : Ev.disp (c.hnd top.id) ∈ s.log := by
          simp only [isDisposed, List.contains_iff_mem] at hd; exact (h5 _).mp hd
        refine ⟨h1, ?_, h3.snoc ⟨hn.1, hd'⟩, h4.snoc trivial, ?_, h6.2, ?_, h8, ?_, ?_, ?_, ?_, h13, ?_, ?_, ?_, ?_,
          ?_, ?_⟩
        · simp only [St.emit, waiting_snoc]; exact hn.2.1
        all_goals nt_case
      · rename_i hd
        have hd' : Ev.disp (c.hnd top.id) ∉ s.log := by
          simp only [isDisposed, List.contains_iff_mem] at hd; exact fun hm => hd ((h5 _).mpr hm)
        split
        · rename_i hw
          simp only [Bool.and_eq_true, decide_eq_true_eq] at hw
          refine ⟨Int.le_refl _, h2, h3, h4, h5, by rw [hq]; exact List.nodup_cons.mpr h6, h7, h8, h9, h10, by simp,
            h12, h13, h14, by simp, h16, h17, ?_, ?_⟩
          · intro x hx
            obtain ⟨a, b, hw', ha, hb⟩ := hn.1
            simp only [Mode.wait.injEq] at hx
            subst hx
            exact ⟨a, top, b, hw', rfl, fun e he => Int.le_of_lt (ha e he)⟩
          · intro x _ _
            refine ⟨h16, ?_⟩
            intro f hf
            dsimp only at hf ⊢
            have hf' : f ∈ waiting s.log := by
              have : f ∈ isort (waiting s.log) := by rw [h2]; exact hf
              exact mem_isort.mp this
            have := hn.2.2 f hf'; omega
        · rename_i hw
          have hle : top.tp ≤ s.now := by
            simp only [Bool.and_eq_true, decide_eq_true_eq] at hw; omega
          have hwnd : ((waiting s.log).map (·.id)).Nodup := by
            have hp := (isort_perm (waiting s.log)).map (·.id)
            rw [h2, hq] at hp
            rw [← hp.nodup_iff, List.map_cons, List.nodup_cons]; exact h6
          have hlast : (if s.last < top.tp then s.now else s.last) ≤ s.now := by split <;> omega
          generalize (if s.last < top.tp then s.now else s.last) = last at hlast
          refine ⟨hlast, ?_, h3.snoc ⟨hn.1, hle, fun hm => (h9 _ hm).2 top (by simp [hq]) rfl, hd',
            h10 top (by simp [hq]), hwnd⟩, h4.snoc trivial, ?_, h6.2, ?_, h8, ?_, ?_, ?_, ?_, h13, ?_, ?_, ?_, ?_, ?_, ?_⟩
          · simp only [St.emit, waiting_snoc]; exact hn.2.1
          · nt_case
          · nt_case
          · nt_case
          · nt_case
          · nt_case
          · nt_case
          · nt_case
          · intro e _
            simp only [St.emit]
            cases rest with
            | nil => right; simp
            | cons a b => left; rfl
          all_goals nt_case
  · rename_i dl hm
    simp only [waitStep]
    split
    · exact ⟨h1, h2, h3, h4, h5, h6, h7, h8, h9, h10, by simp, h12, h13, h14, by simp, h16, h17, by simp, by simp⟩
    · rename_i top rest hq
      split
      · exact ⟨h1, h2, h3, h4, h5, h6, h7, h8, h9, h10, by simp, h12, h13, h14, by simp, h16, h17, by simp, by simp⟩
      · split
        · exact ⟨Int.le_refl _, h2, h3, h4, h5, h6, h7, h8, h9, h10, by simp, h12, h13, h14, by simp, h16, h17, by simp,
            by simp⟩
        · rename_i hw
          simp only [Bool.or_eq_true, decide_eq_true_eq, not_or] at hw
          refine ⟨Int.le_refl _, h2, h3, h4, h5, h6, h7, h8, h9, h10, h11, h12, h13, h14, h15, h16, h17, h18, ?_⟩
          intro x _ _
          refine ⟨h16, ?_⟩
          intro f hf
          dsimp only at hf ⊢
          have hn : TrampSpec.IsNext (waiting s.log) top ∧ isort ((waiting s.log).erase top) = rest ∧ _ :=
            Test.IsNext_of_rep (by rw [h2, hq])
          have hf' : f ∈ waiting s.log := by
            have : f ∈ isort (waiting s.log) := by rw [h2]; exact hf
            exact mem_isort.mp this
          have := hn.2.2 f hf'; omega
  · exact hcopy

theorem Inv.ret {s : St} (h : Inv c s) (r : Res) : Inv c (step c s (.ret r)) := by
  simp only [NT.step]
  split
  rotate_left
  · exact h
  rename_i e hm
  obtain ⟨h1, h2, h3, h4, h5, h6, h7, h8, h9, h10, h11, h12, h13, h14, h15, h16, h17, h18, h19⟩ := h
  obtain ⟨r1, r2, r3, r4, r5⟩ := h11 e hm
  have hreq' : ∀ i, i ≠ e.id → ∀ r, requested c.kind (s.log ++ [.fin e.id s.now r]) i =
      requested c.kind s.log i := by
    intro i hi r
    rw [requested_snoc]
    cases r <;> simp only [reqStep]
    rw [if_neg (fun h => hi h.symm)]
  have hq' : ∀ r, ∀ f ∈ s.queue, requested c.kind (s.log ++ [.fin e.id s.now r]) f.id = some f.tp :=
    fun r f hf => by rw [hreq' _ (r2 f hf)]; exact h10 f hf
  simp only [retStep]
  cases r with
  | stop =>
    refine ⟨h1, ?_, h3.snoc trivial, h4.snoc trivial, ?_, h6, h7, h8, ?_, hq' _, ?_, ?_, h13, ?_, ?_, ?_, ?_, ?_, ?_⟩
    all_goals nt_case
  | throw =>
    refine ⟨h1, ?_, (h3.snoc (ev := .fin _ _ _) trivial).snoc ⟨by simpa using r3, _, _, rfl⟩, h4.snoc2 ⟨_, rfl⟩ trivial,
      ?_, h6, h7, h8, ?_, ?_, ?_, ?_, h13, ?_, ?_, ?_, ?_, ?_, ?_⟩
    · nt_case
    · nt_case
    · nt_case
    · intro f hf
      simp only [St.emit] at hf ⊢
      rw [requested_snoc]; exact hq' _ f hf
    all_goals nt_case
  | again v =>
    dsimp only
    split
    · rename_i hd
      have hd' : Ev.disp (c.hnd e.id) ∈ s.log := by
        simp only [isDisposed, St.emit, List.contains_iff_mem] at hd; exact (h5 _).mp hd
      refine ⟨h1, ?_, h3.snoc trivial, h4.snoc (.inl hd'), ?_, h6, h7, h8, ?_, hq' _, ?_, ?_, h13, ?_, ?_, ?_, ?_, ?_,
        ?_⟩
      all_goals nt_case
    · rename_i hd
      have hd' : Ev.disp (c.hnd e.id) ∉ s.log := by
        simp only [isDisposed, St.emit, List.contains_iff_mem] at hd; exact fun hm => hd ((h5 _).mpr hm)
      have hnow : (s.emit (.fin e.id s.now (.again v))).now = s.now := rfl
      rw [hnow]
      generalize htp : (match c.kind e.id with
        | .fromNow => s.now + v
        | .fromThis => e.tp + v
        | .to => v) = tp
      have hreq : requested c.kind (s.log ++ [.fin e.id s.now (.again v)]) e.id = some tp := by
        rw [requested_snoc]
        simp only [reqStep, if_true, r5, Option.map_some]
        cases hk : c.kind e.id <;> simp only [hk] at htp ⊢ <;> rw [htp]
      split
      · rename_i hc
        simp only [Bool.and_eq_true, Bool.not_eq_true'] at hc
        have hle : tp ≤ s.now := by
          have hc1 := hc.1
          cases hk : c.kind e.id <;> rw [hk] at htp hc1 <;> simp only [canRunImm, beq_iff_eq] at htp hc1
          · omega
          · omega
          · cases hc1
        have hfr : ∀ f ∈ s.queue, (∃ due, .ctcall f.id due ∈ s.log) ∨ .fresh f.id ∉ s.log :=
          (h15 e hm).resolve_left (by
            have : s.hasFresh = false := hc.2
            simp [this])
        have hfr' : ∀ f ∈ waiting (s.log ++ [.fin e.id s.now (.again v)]),
            (∃ due, .ctcall f.id due ∈ s.log ++ [.fin e.id s.now (.again v)]) ∨
              .fresh f.id ∉ s.log ++ [.fin e.id s.now (.again v)] := by
          simp only [waiting_snoc]
          intro f hf
          have := hfr f (by rw [← h2]; exact mem_isort.mpr hf)
          simpa using this
        refine ⟨h1, ?_, (h3.snoc (ev := .fin _ _ _) trivial).snoc ⟨hle, by simpa using r3, by simpa using hd', hreq, hfr'⟩,
          h4.snoc2 (.inr (.inr ⟨_, _, rfl⟩)) trivial, ?_, h6, h7, h8, ?_, ?_, ?_, ?_, h13, ?_, ?_, ?_, ?_, ?_, ?_⟩
        · nt_case
        · nt_case
        · nt_case
        · intro f hf
          simp only [St.emit] at hf ⊢
          rw [requested_snoc]; exact hq' _ f hf
        · intro e' he'
          simp only [St.emit, Mode.run.injEq] at he' ⊢
          subst he'
          refine ⟨r1, r2, by simpa using r3, hle, ?_⟩
          rw [requested_snoc]; exact hreq
        · nt_case
        · nt_case
        · intro e' _
          right
          intro f hf
          have := hfr f hf
          simpa [St.emit] using this
        all_goals nt_case
      · have hmem : ∀ f, f ∈ Sched.emplace s.queue ⟨tp, e.id⟩ ↔ f = ⟨tp, e.id⟩ ∨ f ∈ s.queue := fun f => CT.mem_emplace
        have hnd := nodup_emplace (e := ⟨tp, e.id⟩) h6 r2
        have hlast : (match c.kind e.id with | .fromNow => s.now | _ => s.last) ≤ s.now := by split <;> omega
        refine ⟨hlast, ?_, (h3.snoc (ev := .fin _ _ _) trivial).snoc ⟨hreq, by simpa using r3⟩,
          h4.snoc2 (.inr (.inl ⟨_, _, rfl⟩)) trivial, ?_, hnd, ?_, h8, ?_, ?_, by simp, ?_, h13, ?_, by simp, ?_, ?_, by simp,
          by simp⟩
        · simp only [St.emit, St.enqueue, waiting_snoc, isort_snoc, h2]
        · nt_case
        · nt_case
        · nt_case
        · intro f hf
          simp only [St.emit, St.enqueue] at hf ⊢
          rw [requested_snoc]
          rcases (hmem f).mp hf with rfl | hf
          · exact hreq
          · exact hq' _ f hf
        all_goals nt_case

theorem Inv.step {s : St} (h : Inv c s) (l : Lbl) : Inv c (NT.step c s l) := by
  cases l with
  | tick d => exact h.tick d
  | defer tp => exact h.defer tp
  | store i => exact h.store i
  | ctDefer tp => exact h.ctDefer tp
  | dispose d => exact h.disp' d
  | stop => exact h.stop'
  | work => exact h.work
  | ret r => exact h.ret r

theorem Inv.exec (ls : List Lbl) : Inv c (NT.exec c ls) := by
  suffices ∀ s, Inv c s → Inv c (ls.foldl (NT.step c) s) from this _ Inv.init
  induction ls with
  | nil => exact fun s h => h
  | cons l ls ih => exact fun s h => ih _ (h.step l)

end Rpp.Sched.NT
