import Verif.Scheduler.CurrentThreadProps
/-!
# immediate scheduler (C58, C64, C65)

Models schedulers/immediate.hpp 63-76 and `immediate_scheduling_while_condition` (schedulers/details/utils.hpp
42-161) with the condition that is always true. One `schedule` call is followed from its start until it returns.
What the task does while it runs (calls of other schedulers, nested `schedule` calls on the immediate scheduler,
…) is visible here only as time passing and handlers being disposed. Clock, sleeping and disposal by other
threads as in `CurrentThread.lean`.
-/

namespace Rpp.Sched.Imm
open Rpp.Sched

/-- Effects of user code on the scheduler. -/
inductive Act where
  | elapse (d : Nat)
  | dispose
deriving DecidableEq, Repr

/-- Parameters: what the program's own functions do and when (schedulers/immediate.hpp 20-80, details/utils.hpp 27-160 calls them). -/
structure Cfg where
  /-- the `n`-th invocation of the task -/
  body : Nat → List Act × Res
  kind : Kind
  /-- when (if ever) another thread disposes the handler -/
  ext : Option Int
  lag : Nat → Nat

/-- Observable events: the user function is entered / left at a time, `on_error` of the handler, the task
disposes its handler. -/
inductive Ev where
  | start (t : Int)
  | fin (t : Int) (r : Res)
  | err
  | disp
deriving DecidableEq, Repr

/-- State: the members of the objects of schedulers/immediate.hpp 20-80, details/utils.hpp 27-160, what the running calls are doing, and the log. -/
structure St where
  now : Int
  /-- `s_last_now_time` of the thread -/
  last : Int
  /-- the loop variable while in the loop, `none` once `schedule` has returned -/
  pc : Option CT.Wait
  n : Nat := 0
  disposed : Bool := false
  log : List Ev := []

variable (c : Cfg)

/-- `is_disposed()` of a scheduled function's handler at that moment (schedulers/immediate.hpp 20-80, details/utils.hpp 27-160). -/
def isDisposed (s : St) : Bool :=
  s.disposed || (match c.ext with | none => false | some t => t ≤ s.now)

/-- `std::this_thread::sleep_for`. (schedulers/details/utils.hpp 27-160) -/
def sleepFor (s : St) (d : Int) : St :=
  if d > 0 then { s with now := s.now + d + c.lag s.log.length } else s

/-- `details::sleep_until`, utils.hpp 27-36. -/
def sleepUntil (s : St) (tp : Int) : St × Bool :=
  if tp ≤ s.last then (s, false)
  else ({ sleepFor c s (tp - s.now) with last := max s.now tp }, tp > s.now)

/-- What the running function does in between: time passes, or it disposes the handler; no counterpart in /repo. -/
def doAct (s : St) : Act → St
  | .elapse d => { s with now := s.now + d }
  | .dispose => { s with disposed := true, log := s.log ++ [.disp] }

/-- The `try` blocks, utils.hpp 57-69, 98-110, 145-157. -/
def runTask (s : St) : St × Res :=
  let b := c.body s.n
  let s := { s with n := s.n + 1, log := s.log ++ [.start s.now] }
  let s := b.1.foldl doAct s
  let s := { s with log := s.log ++ [.fin s.now b.2] }
  (match b.2 with | .throw => { s with log := s.log ++ [.err] } | _ => s, b.2)

/-- `immediate::worker_strategy::defer_for`, immediate.hpp 70-73, up to the loop. The clock is read without
touching `s_last_now_time` (immediate.hpp 75). -/
def call (now last d : Int) : St where
  now := now
  last := last
  pc := some (match c.kind with | .fromThis => .till (now + d) | _ => .dur d)

/-- One iteration of the loop: utils.hpp 49-72 (`fromThis`), 86-113 (`fromNow`), 127-160 (`to`). -/
def step (s : St) : St :=
  match s.pc with
  | none => s
  | some w =>
    if isDisposed c s then { s with pc := none }
    else
      let (s, slept, due) : St × Bool × Int := match w with
        | .till tp => let r := sleepUntil c s tp; (r.1, r.2, tp)
        | .dur d => (sleepFor c s d, d > 0, s.now + d)
      if slept && isDisposed c s then { s with pc := none }
      else
        let (s, r) := runTask c s
        { s with pc := match r with
          | .again v => some (match c.kind with
            | .fromThis => .till (due + v)
            | .fromNow => .dur v
            | .to => .till v)
          | _ => none }

/-- `n` turns of the loop; no counterpart in /repo. -/
def iter : Nat → St → St
  | 0, s => s
  | n + 1, s => step c (iter n s)

/-! ## Specification -/

/-- The time the next run is due: the time of the call plus the delay, then as returned by the previous run. -/
def due (kind : Kind) (d0 : Int) (log : List Ev) : Int :=
  log.foldl (fun r ev => match ev with
    | .fin t (.again v) => (match kind with
      | .fromNow => t + v
      | .fromThis => r + v
      | .to => v)
    | _ => r) d0

/-- The time the thread became free: the time of the call, then the end of the previous run. -/
def free (t0 : Int) (log : List Ev) : Int :=
  log.foldl (fun r ev => match ev with | .fin t _ => t | _ => r) t0

theorem due_snoc (k : Kind) (d0 : Int) (l : List Ev) (ev : Ev) : due k d0 (l ++ [ev]) = (match ev with
    | .fin t (.again v) => (match k with
      | .fromNow => t + v
      | .fromThis => due k d0 l + v
      | .to => v)
    | _ => due k d0 l) := by
  simp only [due, List.foldl_append, List.foldl_cons, List.foldl_nil]

theorem free_snoc (t0 : Int) (l : List Ev) (ev : Ev) : free t0 (l ++ [ev]) = (match ev with
    | .fin t _ => t
    | _ => free t0 l) := by
  simp only [free, List.foldl_append, List.foldl_cons, List.foldl_nil]

/-! ## Proofs -/

variable {c} {t0 d : Int}

/-- What each event has to satisfy, given what was logged before. -/
def Ok (c : Cfg) (t0 d : Int) (pre : List Ev) : Ev → Prop
  | .start t => due c.kind (t0 + d) pre ≤ t ∧ free t0 pre ≤ t ∧
      ((∀ n, c.lag n = 0) → t = max (due c.kind (t0 + d) pre) (free t0 pre)) ∧
      .disp ∉ pre ∧ (∀ te, c.ext = some te → t < te) ∧ .err ∉ pre
  | .err => .err ∉ pre ∧ ∃ pre' t, pre = pre' ++ [.fin t .throw]
  | _ => True

/-- What the logs satisfy (for the proofs); models no code. -/
def Legal (c : Cfg) (t0 d : Int) (log : List Ev) : Prop :=
  ∀ pre ev post, log = pre ++ ev :: post → Ok c t0 d pre ev

theorem Legal.snoc {log : List Ev} {ev : Ev} (h : Legal c t0 d log) (ho : Ok c t0 d log ev) :
    Legal c t0 d (log ++ [ev]) := by
  intro pre ev' post heq
  rcases QueueRun.snoc_eq heq with ⟨rfl, rfl, _⟩ | ⟨post', _, h2⟩
  · exact ho
  · exact h _ _ _ h2

/-- What the logs satisfy (for the proofs); models no code. -/
def Paired (log : List Ev) : Prop :=
  ∀ pre t post, log = pre ++ .fin t .throw :: post → post = [.err]

/-- Invariant of the proofs; models no code. -/
structure Inv (c : Cfg) (t0 d : Int) (s : St) : Prop where
  lastle : s.last ≤ s.now
  legal : Legal c t0 d s.log
  disp : s.disposed = true ↔ .disp ∈ s.log
  paired : Paired s.log
  noerr : s.pc ≠ none → .err ∉ s.log ∧ ∀ t, .fin t .throw ∉ s.log
  free : s.pc ≠ none → s.now = free t0 s.log
  wait : match s.pc with
    | some (.till tp) => due c.kind (t0 + d) s.log = tp
    | some (.dur x) => due c.kind (t0 + d) s.log = s.now + x ∧ c.kind ≠ .fromThis
    | none => isDisposed c s = true ∨ (∃ pre t, s.log = pre ++ [.fin t .stop]) ∨
        ∃ pre t, s.log = pre ++ [.fin t .throw, .err]

theorem acts_log (as : List Act) : ∀ s : St, (as.foldl doAct s).last = s.last ∧ s.now ≤ (as.foldl doAct s).now ∧
    (∃ k, (as.foldl doAct s).log = s.log ++ List.replicate k .disp) ∧
    ((s.disposed = true ↔ .disp ∈ s.log) →
      ((as.foldl doAct s).disposed = true ↔ .disp ∈ (as.foldl doAct s).log)) := by
  induction as with
  | nil => exact fun s => ⟨rfl, Int.le_refl _, ⟨0, by simp⟩, id⟩
  | cons a as ih =>
    intro s
    obtain ⟨h1, h2, ⟨k, h3⟩, h4⟩ := ih (doAct s a)
    simp only [List.foldl_cons]
    cases a with
    | elapse x =>
      refine ⟨h1, Int.le_trans ?_ h2, ⟨k, h3⟩, fun h => h4 h⟩
      simp only [doAct]; omega
    | dispose =>
      refine ⟨h1, h2, ⟨k + 1, ?_⟩, fun _ => h4 (by simp [doAct])⟩
      rw [h3]; simp only [doAct, List.append_assoc]; rfl

theorem replicate_disp_props (k : Nat) (l : List Ev) (kd : Kind) (x : Int) :
    due kd x (l ++ List.replicate k .disp) = due kd x l ∧ Imm.free x (l ++ List.replicate k .disp) = Imm.free x l := by
  induction k with
  | zero => simp
  | succ k ih =>
    rw [List.replicate_succ', ← List.append_assoc, due_snoc, free_snoc]
    exact ih

theorem Legal.disps {log : List Ev} (h : Legal c t0 d log) (k : Nat) :
    Legal c t0 d (log ++ List.replicate k .disp) := by
  induction k with
  | zero => simpa using h
  | succ k ih => rw [List.replicate_succ', ← List.append_assoc]; exact ih.snoc trivial

theorem paired_of_none {l : List Ev} (h : ∀ t, Ev.fin t .throw ∉ l) : Paired l := by
  intro pre t post he
  exact absurd (by rw [he]; simp) (h t)

/-- A run of the task that is due, not disposed, at the right time. -/
theorem run_props {s : St} (h1 : s.last ≤ s.now) (h2 : Legal c t0 d s.log)
    (h3 : s.disposed = true ↔ .disp ∈ s.log) (h5 : .err ∉ s.log) (h6 : ∀ t, .fin t .throw ∉ s.log)
    (hst : Ok c t0 d s.log (.start s.now)) :
    let r := runTask c s
    r.1.last ≤ r.1.now ∧ Legal c t0 d r.1.log ∧ (r.1.disposed = true ↔ .disp ∈ r.1.log) ∧ Paired r.1.log ∧
    (r.2 ≠ .throw → .err ∉ r.1.log ∧ ∀ t, .fin t .throw ∉ r.1.log) ∧ Imm.free t0 r.1.log = r.1.now ∧
    (∀ v, r.2 = .again v → due c.kind (t0 + d) r.1.log = (match c.kind with
      | .fromNow => r.1.now + v
      | .fromThis => due c.kind (t0 + d) s.log + v
      | .to => v)) ∧
    (r.2 = .stop → ∃ pre t, r.1.log = pre ++ [.fin t .stop]) ∧
    (r.2 = .throw → ∃ pre t, r.1.log = pre ++ [.fin t .throw, .err]) := by
  obtain ⟨a1, a2, ⟨k, a3⟩, a4⟩ := acts_log (c.body s.n).1 { s with n := s.n + 1, log := s.log ++ [.start s.now] }
  have hl0 := (h2.snoc hst).disps k
  have hd0 := a4 (by simp [h3])
  simp only [] at a1 a2 a3
  have hdue : due c.kind (t0 + d) (s.log ++ [Ev.start s.now] ++ List.replicate k .disp) =
      due c.kind (t0 + d) s.log := by rw [(replicate_disp_props k _ _ _).1, due_snoc]
  have hne : .err ∉ s.log ++ [Ev.start s.now] ++ List.replicate k .disp := by
    simp [h5, List.mem_replicate]
  have hnt : ∀ t, Ev.fin t .throw ∉ s.log ++ [Ev.start s.now] ++ List.replicate k .disp := by
    intro t; simp [h6, List.mem_replicate]
  simp only [runTask]
  cases hr : (c.body s.n).2 with
  | stop =>
    simp only [a3]
    rw [a3] at hd0
    refine ⟨by omega, hl0.snoc trivial, ?_, paired_of_none (by simpa using hnt), ?_, ?_, by simp,
      fun _ => ⟨_, _, rfl⟩, by simp⟩
    · rw [hd0]; simp
    · exact fun _ => ⟨by simpa using hne, by simpa using hnt⟩
    · rw [free_snoc]
  | again v =>
    simp only [a3]
    rw [a3] at hd0
    refine ⟨by omega, hl0.snoc trivial, ?_, paired_of_none (by simpa using hnt), ?_, ?_, ?_, by simp, by simp⟩
    · rw [hd0]; simp
    · exact fun _ => ⟨by simpa using hne, by simpa using hnt⟩
    · rw [free_snoc]
    · intro v' hv
      cases hv
      rw [due_snoc]
      cases hk : c.kind <;> simp only [hk] at hdue ⊢ <;> try rw [hdue]
  | throw =>
    simp only [a3]
    rw [a3] at hd0
    refine ⟨by omega, (hl0.snoc (ev := .fin _ .throw) trivial).snoc ⟨by simpa using hne, _, _, rfl⟩, ?_, ?_,
      by simp, ?_, by simp, by simp, fun _ => ⟨_, _, by rw [List.append_assoc]; rfl⟩⟩
    · rw [hd0]; simp
    · intro pre t post he
      rcases QueueRun.snoc_eq he with ⟨_, h, _⟩ | ⟨post', rfl, h⟩
      · cases h
      · rcases QueueRun.snoc_eq h with ⟨_, _, rfl⟩ | ⟨post'', _, h⟩
        · rfl
        · exact absurd (by rw [h]; simp) (hnt t)
    · rw [free_snoc, free_snoc]

theorem Inv.call {last : Int} (hl : last ≤ t0) : Inv c t0 d (Imm.call c t0 last d) := by
  refine ⟨hl, ?_, ?_, ?_, ?_, fun _ => rfl, ?_⟩
  · intro pre ev post h; simp [Imm.call] at h
  · simp [Imm.call]
  · exact paired_of_none (by simp [Imm.call])
  · simp [Imm.call]
  · simp only [Imm.call]
    cases hk : c.kind <;> simp [due]

theorem sleepFor_props (s : St) (x : Int) : (sleepFor c s x).now ≥ s.now ∧ (sleepFor c s x).now ≥ s.now + x ∧
    (sleepFor c s x).last = s.last ∧ (sleepFor c s x).log = s.log ∧
    (sleepFor c s x).disposed = s.disposed ∧
    ((∀ n, c.lag n = 0) → (sleepFor c s x).now = max s.now (s.now + x)) ∧
    (¬ x > 0 → sleepFor c s x = s) := by
  simp only [sleepFor]
  split
  · refine ⟨by dsimp only; omega, by dsimp only; omega, rfl, rfl, rfl, ?_, by omega⟩
    intro h; simp only [h]; omega
  · exact ⟨Int.le_refl _, by omega, rfl, rfl, rfl, by intro _; omega, fun _ => rfl⟩

theorem sleepUntil_props (s : St) (tp : Int) (h : s.last ≤ s.now) :
    (sleepUntil c s tp).1.now ≥ s.now ∧ (sleepUntil c s tp).1.now ≥ tp ∧
    (sleepUntil c s tp).1.last ≤ (sleepUntil c s tp).1.now ∧ (sleepUntil c s tp).1.log = s.log ∧
    (sleepUntil c s tp).1.disposed = s.disposed ∧
    ((∀ n, c.lag n = 0) → (sleepUntil c s tp).1.now = max s.now tp) ∧
    ((sleepUntil c s tp).2 = false → (sleepUntil c s tp).1.now = s.now) := by
  simp only [sleepUntil]
  split
  · exact ⟨Int.le_refl _, by dsimp only; omega, h, rfl, rfl, by intro _; dsimp only; omega, fun _ => rfl⟩
  · obtain ⟨h1, h2, h3, h4, h5, h6, h7⟩ := sleepFor_props (c := c) s (tp - s.now)
    refine ⟨h1, by dsimp only; omega, by dsimp only; omega, h4, h5, ?_, ?_⟩
    · intro hz; have := h6 hz; dsimp only; omega
    · intro hz
      have : ¬ tp - s.now > 0 := by
        have hz' : ¬ tp > s.now := by simpa using hz
        omega
      dsimp only; rw [h7 this]

theorem Inv.step {s : St} (h : Inv c t0 d s) : Inv c t0 d (Imm.step c s) := by
  have hcopy := h
  obtain ⟨h1, h2, h3, h4, h5, h6, h7⟩ := h
  simp only [Imm.step]
  cases hpc : s.pc with
  | none => exact hcopy
  | some w =>
    have hsome : s.pc ≠ none := by simp [hpc]
    obtain ⟨h5a, h5b⟩ := h5 hsome
    have h6' := h6 hsome
    simp only [hpc] at h7
    dsimp only
    split
    · rename_i hd
      exact ⟨h1, h2, h3, h4, by simp, by simp, .inl hd⟩
    · rename_i hnd
      have main : ∀ (s' : St) (slept : Bool) (du : Int), s'.last ≤ s'.now → s'.now ≥ s.now → s'.now ≥ du →
          s'.log = s.log → s'.disposed = s.disposed → ((∀ n, c.lag n = 0) → s'.now = max s.now du) →
          (slept = false → s'.now = s.now) → due c.kind (t0 + d) s.log = du →
          Inv c t0 d (if slept && isDisposed c s' then { s' with pc := none }
            else { (runTask c s').1 with pc := match (runTask c s').2 with
              | .again v => some (match c.kind with
                | .fromThis => .till (du + v)
                | .fromNow => .dur v
                | .to => .till v)
              | _ => none }) := by
        intro s' slept du e1 e2 e3 e4 e5 e6 e7 e8
        by_cases hx : (slept && isDisposed c s') = true
        · rw [if_pos hx]
          simp only [Bool.and_eq_true] at hx
          refine ⟨e1, by rw [e4]; exact h2, by rw [e4, e5]; exact h3, by rw [e4]; exact h4, by simp, by simp,
            .inl hx.2⟩
        · rw [if_neg hx]
          have hnd' : isDisposed c s' = false := by
            cases hs : slept with
            | true => simpa [hs] using hx
            | false =>
              have := e7 hs
              simp only [isDisposed, this, e5]
              simpa [isDisposed] using hnd
          have hnd2 : s.disposed = false := by
            simp only [isDisposed, Bool.or_eq_true, not_or] at hnd; simpa using hnd.1
          have hst : Ok c t0 d s'.log (.start s'.now) := by
            rw [e4]
            refine ⟨by rw [e8]; exact e3, by omega, ?_, ?_, ?_, h5a⟩
            · intro hz; rw [e6 hz, e8, h6']; omega
            · intro hm; rw [h3.mpr hm] at hnd2; cases hnd2
            · intro te hte
              simp only [isDisposed, hte, Bool.or_eq_false_iff, decide_eq_false_iff_not] at hnd'
              omega
          obtain ⟨r1, r2, r3, r4, r5, r6, r7, r8, r9⟩ := run_props (c := c) e1 (by rw [e4]; exact h2)
            (by rw [e4, e5]; exact h3) (by rw [e4]; exact h5a) (by rw [e4]; exact h5b) hst
          cases hr : (runTask c s').2 with
          | stop => exact ⟨r1, r2, r3, r4, by simp, by simp, .inr (.inl (r8 hr))⟩
          | throw => exact ⟨r1, r2, r3, r4, by simp, by simp, .inr (.inr (r9 hr))⟩
          | again v =>
            have r7' := r7 v hr
            rw [e4, e8] at r7'
            refine ⟨r1, r2, r3, r4, fun _ => r5 (by simp [hr]), fun _ => r6.symm, ?_⟩
            cases hk : c.kind with
            | fromNow => simp only [hk] at r7' ⊢; exact ⟨r7', by simp⟩
            | fromThis => simp only [hk] at r7' ⊢; exact r7'
            | to => simp only [hk] at r7' ⊢; exact r7'
      cases w with
      | till tp =>
        obtain ⟨a1, a2, a3, a4, a5, a6, a7⟩ := sleepUntil_props (c := c) s tp h1
        exact main _ _ tp a3 a1 a2 a4 a5 a6 a7 h7
      | dur x =>
        obtain ⟨a1, a2, a3, a4, a5, a6, a7⟩ := sleepFor_props (c := c) s x
        exact main _ (decide (x > 0)) _ (by rw [a3]; exact Int.le_trans h1 a1) a1 a2 a4 a5 a6
          (fun hz => congrArg St.now (a7 (by simpa using hz))) h7.1

theorem Inv.iter (n : Nat) {last : Int} (hl : last ≤ t0) : Inv c t0 d (Imm.iter c n (Imm.call c t0 last d)) := by
  induction n with
  | zero => exact Inv.call hl
  | succ n ih => exact ih.step

/-! ## Properties

`n` is the number of loop iterations executed so far, `last ≤ t0` the cached time of the thread; the call is made
at time `t0` with delay `d`. -/

/-- C58: `schedule` returns only when the task is finished (its last run returned `nullopt` or threw) or its
handler is disposed, by the task or by another thread: everything happens before `schedule` returns. -/
theorem C58_synchronous (n : Nat) (last : Int) (hl : last ≤ t0)
    (hret : (iter c n (call c t0 last d)).pc = none) :
    (.disp ∈ (iter c n (call c t0 last d)).log ∨ ∃ te, c.ext = some te ∧ te ≤ (iter c n (call c t0 last d)).now) ∨
    (∃ pre t, (iter c n (call c t0 last d)).log = pre ++ [.fin t .stop]) ∨
    (∃ pre t, (iter c n (call c t0 last d)).log = pre ++ [.fin t .throw, .err]) := by
  have hi := Inv.iter (c := c) (d := d) n hl
  have := hi.wait
  rw [hret] at this
  refine this.imp (fun h => ?_) id
  simp only [isDisposed, Bool.or_eq_true] at h
  refine h.imp hi.disp.1 fun h => ?_
  split at h
  · cases h
  · next te he => exact ⟨te, he, by simpa using h⟩

/-- C58: no run starts before it is due, nor before the previous run has ended. -/
theorem C58_not_early (n : Nat) (last : Int) (hl : last ≤ t0) (pre post : List Ev) (t : Int)
    (h : (iter c n (call c t0 last d)).log = pre ++ .start t :: post) :
    due c.kind (t0 + d) pre ≤ t ∧ free t0 pre ≤ t :=
  let k := (Inv.iter n hl).legal pre _ post h
  ⟨k.1, k.2.1⟩

/-- C58: the runs follow back to back: if the operating system's sleep takes exactly as long as asked, each run
starts as soon as it is due and the previous one has ended. -/
theorem C58_back_to_back (n : Nat) (last : Int) (hl : last ≤ t0) (hlag : ∀ k, c.lag k = 0) (pre post : List Ev)
    (t : Int) (h : (iter c n (call c t0 last d)).log = pre ++ .start t :: post) :
    t = max (due c.kind (t0 + d) pre) (free t0 pre) :=
  ((Inv.iter n hl).legal pre _ post h).2.2.1 hlag

/-- C58, C64: a disposed handler stops the task before its next run, whoever disposed it and whenever. -/
theorem C58_disposed_stops (n : Nat) (last : Int) (hl : last ≤ t0) (pre post : List Ev) (t : Int)
    (h : (iter c n (call c t0 last d)).log = pre ++ .start t :: post) :
    Ev.disp ∉ pre ∧ ∀ te, c.ext = some te → t < te :=
  let k := (Inv.iter n hl).legal pre _ post h
  ⟨k.2.2.2.1, k.2.2.2.2.1⟩

/-- C64 for the immediate scheduler. -/
theorem C64_immediate (n : Nat) (last : Int) (hl : last ≤ t0) (pre post : List Ev) (t : Int)
    (h : (iter c n (call c t0 last d)).log = pre ++ .start t :: post) :
    Ev.disp ∉ pre ∧ ∀ te, c.ext = some te → t < te := C58_disposed_stops n last hl pre post t h

/-- C65 for the immediate scheduler: a throw is followed by one `on_error`, and by nothing else. -/
theorem C65_immediate (n : Nat) (last : Int) (hl : last ≤ t0) (pre post : List Ev) (t : Int)
    (h : (iter c n (call c t0 last d)).log = pre ++ .fin t .throw :: post) : post = [.err] ∧ Ev.err ∉ pre := by
  have hi := Inv.iter (c := c) (d := d) n hl
  have hp := hi.paired _ _ _ h
  refine ⟨hp, ?_⟩
  subst hp
  have := (hi.legal (pre ++ [.fin t .throw]) .err [] (by simp [h])).1
  simpa using this

/-- C65: `on_error` is called only because of a throw. -/
theorem C65_immediate_only_on_throw (n : Nat) (last : Int) (hl : last ≤ t0) (pre post : List Ev)
    (h : (iter c n (call c t0 last d)).log = pre ++ .err :: post) : ∃ pre' t, pre = pre' ++ [.fin t .throw] :=
  ((Inv.iter n hl).legal pre _ post h).2

/-- Non-vacuity: three runs with period 10; the second one takes 15, so the third starts late. -/
def exSlow : Cfg where
  body n := if n = 1 then ([.elapse 15], .again 10) else ([.elapse 1], if n = 2 then .stop else .again 10)
  kind := .fromThis
  ext := none
  lag _ := 0

example : (iter exSlow 3 (call exSlow 0 0 5)).log = [.start 5, .fin 6 (.again 10), .start 15, .fin 30 (.again 10),
    .start 30, .fin 31 .stop] ∧ (iter exSlow 3 (call exSlow 0 0 5)).pc = none := by decide

/-- Non-vacuity: disposed from another thread while sleeping; and throwing. -/
example : (iter { exSlow with ext := some 10 } 3 (call exSlow 0 0 5)).log = [.start 5, .fin 6 (.again 10)] := by decide
example : (iter { exSlow with body := fun n => ([], if n = 0 then .again 1 else .throw) } 3 (call exSlow 0 0 5)).log =
    [.start 5, .fin 5 (.again 1), .start 6, .fin 6 .throw, .err] := by decide

end Rpp.Sched.Imm
