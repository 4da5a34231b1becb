import Verif.Source.IntervalSched

/-!
# C67: `interval`, `timer`

`Interval.values`, `Interval.IsInterval` and `Interval.NotEarly` (file `Interval.lean`) are the specification.
-/

namespace Rpp.Interval

open Rpp.Sched
open From (Lbl kills_evs kill_disposes final_mapFinal dispose_evs split_kill sees_mono)

/-! ### Helpers: the immediate scheduler -/

/-- The timeline of one `schedule` call on the immediate scheduler, due at `due`. -/
def immEv : Imm.Ev → Option PEv
  | .start t => some (.start 0 t)
  | .fin _ r => some (.fin 0 r)
  | _ => none

/-- Used in the statements and proofs of this file; models no code. -/
def immLine (due : Int) (l : List Imm.Ev) : List PEv := .call 0 due :: l.filterMap immEv

theorem immLine_snoc (d : Int) (l : List Imm.Ev) (ev : Imm.Ev) :
    immLine d (l ++ [ev]) = immLine d l ++ (immEv ev).toList := by
  simp only [immLine, List.filterMap_append, List.filterMap_cons, List.filterMap_nil]
  cases immEv ev <;> simp

/-- Invariant of the proofs; models no code. -/
structure ImmInv (d : Int) (l : List Imm.Ev) : Prop where
  alt : Alt 0 (immLine d l)
  bal : runs 0 (immLine d l) = fins 0 (immLine d l)

theorem immLine_disps (d : Int) (l : List Imm.Ev) (k : Nat) :
    immLine d (l ++ List.replicate k .disp) = immLine d l := by
  induction k with
  | zero => simp
  | succ k ih => rw [List.replicate_succ', ← List.append_assoc, immLine_snoc, ih]; simp [immEv]

theorem ImmInv.one {d : Int} {l : List Imm.Ev} (h : ImmInv d l) (t u : Int) (k : Nat) (r : Res) :
    ImmInv d (l ++ [.start t] ++ List.replicate k .disp ++ [.fin u r]) := by
  have e : immLine d (l ++ [.start t] ++ List.replicate k .disp ++ [.fin u r]) =
      immLine d l ++ [.start 0 t] ++ [.fin 0 r] := by
    rw [immLine_snoc, immLine_disps, immLine_snoc]; rfl
  constructor
  · rw [e]
    refine (h.alt.snoc (fun _ _ => h.bal) (by simp)).snoc (by simp) (fun _ _ => ?_)
    simp only [runs_snoc, fins_snoc, if_true, Nat.add_zero]; have := h.bal; omega
  · rw [e]; simp only [runs_snoc, fins_snoc, if_true, Nat.add_zero]; have := h.bal; omega

theorem ImmInv.err {d : Int} {l : List Imm.Ev} (h : ImmInv d l) : ImmInv d (l ++ [.err]) := by
  have e : immLine d (l ++ [.err]) = immLine d l := by rw [immLine_snoc]; simp [immEv]
  exact ⟨by rw [e]; exact h.alt, by rw [e]; exact h.bal⟩

theorem ImmInv.task {c : Imm.Cfg} {d : Int} {s : Imm.St} (h : ImmInv d s.log) :
    ImmInv d (Imm.runTask c s).1.log := by
  obtain ⟨_, _, ⟨k, hk⟩, _⟩ := Imm.acts_log (c.body s.n).1 { s with n := s.n + 1, log := s.log ++ [.start s.now] }
  simp only [Imm.runTask]
  have h1 := h.one s.now ((c.body s.n).1.foldl Imm.doAct { s with n := s.n + 1, log := s.log ++ [.start s.now] }).now
    k (c.body s.n).2
  rw [← hk] at h1
  split
  · exact h1.err
  · exact h1

theorem ImmInv.step {c : Imm.Cfg} {d : Int} {s : Imm.St} (h : ImmInv d s.log) : ImmInv d (Imm.step c s).log := by
  simp only [Imm.step]
  split
  · exact h
  · split
    · exact h
    · split
      · rename_i tp _
        have hl : (Imm.sleepUntil c s tp).1.log = s.log := by
          simp only [Imm.sleepUntil]; split <;> simp only [Imm.sleepFor] <;> split <;> rfl
        split
        · show ImmInv d (Imm.sleepUntil c s tp).1.log; rw [hl]; exact h
        · exact ImmInv.task (s := (Imm.sleepUntil c s tp).1) (by rw [hl]; exact h)
      · rename_i x _
        have hl : (Imm.sleepFor c s x).log = s.log := by
          simp only [Imm.sleepFor]; split <;> rfl
        split
        · show ImmInv d (Imm.sleepFor c s x).log; rw [hl]; exact h
        · exact ImmInv.task (s := Imm.sleepFor c s x) (by rw [hl]; exact h)

theorem ImmInv.iter {c : Imm.Cfg} {t0 d : Int} (n : Nat) (last : Int) :
    ImmInv (t0 + d) (Imm.iter c n (Imm.call c t0 last d)).log := by
  induction n with
  | zero =>
    have e : (Imm.iter c 0 (Imm.call c t0 last d)).log = [] := rfl
    rw [e]
    refine ⟨⟨fun pre t post h => ?_, fun pre t post h => ?_⟩, rfl⟩
    · cases pre with
      | nil => simp [immLine] at h
      | cons x xs => simp [immLine] at h
    · cases pre with
      | nil => simp [immLine] at h
      | cons x xs => simp [immLine] at h
  | succ n ih => exact ih.step

theorem imm_base {p d0 : Int} (l : List Imm.Ev) (hp : ∀ r, .fin 0 r ∈ immLine d0 l → r = .again p) :
    base 0 p (immLine d0 l) = some (Imm.due .fromThis d0 l) := by
  induction l using snoc_ind with
  | h0 => rfl
  | h1 l ev ih =>
    rw [Imm.due_snoc, immLine_snoc]
    have hp' : ∀ r, .fin 0 r ∈ immLine d0 l → r = .again p := fun r hr => hp r (by rw [immLine_snoc]; simp [hr])
    have ih := ih hp'
    cases ev with
    | fin t r =>
      have := hp r (by rw [immLine_snoc]; simp [immEv])
      subst this
      simp only [immEv, Option.toList, base_snoc, if_true, ih, Option.map_some]
    | _ => simpa [immEv, base_snoc] using ih

/-! ### Helpers: current_thread -/

/-- The timeline of the current_thread scheduler. -/
def ctEv : CT.Ev → Option PEv
  | .call i d => some (.call i d)
  | .start e t => some (.start e.id t)
  | .fin i _ r => some (.fin i r)
  | _ => none

/-- Used in the statements and proofs of this file; models no code. -/
def ctLine (l : List CT.Ev) : List PEv := l.filterMap ctEv

theorem ctLine_snoc (l : List CT.Ev) (ev : CT.Ev) : ctLine (l ++ [ev]) = ctLine l ++ (ctEv ev).toList := by
  simp only [ctLine, List.filterMap_append, List.filterMap_cons, List.filterMap_nil]
  cases ctEv ev <;> rfl

theorem ct_alt {c : Sched.Cfg} {P : Nat → Prop} (id : Nat) (l : List CT.Ev) (hl : CT.Legal c P l) :
    Alt id (ctLine l) ∧ runs id (ctLine l) = fins id (ctLine l) + (TrampSpec.running l).countP (· == id) := by
  induction l using snoc_ind with
  | h0 => exact ⟨⟨by simp [ctLine], by simp [ctLine]⟩, rfl⟩
  | h1 l ev ih =>
    have hl' : CT.Legal c P l := fun pre x post he => hl pre x (post ++ [ev]) (by simp [he])
    obtain ⟨ih1, ih2⟩ := ih hl'
    have ho := hl l ev [] rfl
    rw [ctLine_snoc, Sched.running_snoc]
    cases ev with
    | start e t =>
      have hr : TrampSpec.running l = [] := ho.1
      rw [hr] at ih2
      simp only [ctEv, Option.toList, runs_snoc, fins_snoc, hr, List.countP_cons, List.countP_nil, beq_iff_eq]
      refine ⟨ih1.snoc (fun _ _ => by simpa using ih2) (by simp), ?_⟩
      simp at ih2 ⊢; omega
    | fin i t r =>
      have hr : TrampSpec.running l = [i] := ho
      rw [hr] at ih2
      simp only [ctEv, Option.toList, runs_snoc, fins_snoc, hr, List.tail_cons, List.countP_nil, Nat.add_zero]
      simp only [List.countP_cons, List.countP_nil, beq_iff_eq, Nat.zero_add] at ih2
      refine ⟨ih1.snoc (by simp) (fun u hu => ?_), ?_⟩
      · simp only [PEv.fin.injEq] at hu; rw [if_pos hu.1] at ih2; exact ih2
      · exact ih2
    | call i d =>
      simp only [ctEv, Option.toList, runs_snoc, fins_snoc, Nat.add_zero]
      exact ⟨ih1.snoc (by simp) (by simp), ih2⟩
    | _ => simpa [ctEv] using ⟨ih1, ih2⟩

theorem ct_base {k : Nat → Kind} {id : Nat} {p : Int} (hk : k id = .fromThis) (l : List CT.Ev)
    (hp : ∀ r, .fin id r ∈ ctLine l → r = .again p) : TrampSpec.requested k l id = base id p (ctLine l) := by
  induction l using snoc_ind with
  | h0 => rfl
  | h1 l ev ih =>
    rw [Sched.requested_snoc, ctLine_snoc]
    have hp' : ∀ r, .fin id r ∈ ctLine l → r = .again p := fun r hr => hp r (by rw [ctLine_snoc]; simp [hr])
    rw [ih hp']
    cases ev with
    | fin i t r =>
      simp only [ctEv, Option.toList, base_snoc]
      by_cases hi : i = id
      · subst hi
        have := hp r (by rw [ctLine_snoc]; simp [ctEv])
        subst this
        simp [TrampSpec.reqStep, hk]
      · cases r <;> simp [TrampSpec.reqStep, hi]
    | _ => simp [ctEv, TrampSpec.reqStep, base_snoc]

theorem ct_notEarly {c : Sched.Cfg} (ls : List CT.Lbl) (id : Nat) (t0 p : Int) (hk : c.kind id = .fromThis)
    (hkeep : Sched.KeepsPeriod c (CT.exec c ls).log)
    (hi : IsInterval id t0 p (ctLine (CT.exec c ls).log)) : NotEarly id t0 p (ctLine (CT.exec c ls).log) := by
  refine notEarly_of hi (ct_alt id _ (Sched.inv0 c ls).base.legal).1 ?_
  intro pre t post he
  obtain ⟨a, x, b, h1, h2, rfl, rfl⟩ := split_filterMap he
  have hper : ∀ r, .fin id r ∈ ctLine a → r = .again p := fun r hr => hi.period r (by
    rw [h1, ctLine, List.filterMap_append]; exact List.mem_append_left _ hr)
  have hx : ∃ e, x = .start e t ∧ e.id = id := by
    cases x <;> simp [ctEv] at h2
    exact ⟨_, by rw [h2.2], h2.1⟩
  obtain ⟨e, rfl, hid⟩ := hx
  obtain ⟨due, hr, hle⟩ := hkeep a e t b h1
  subst hid
  exact ⟨due, by rw [← hr, ct_base hk a hper]; rfl, hle⟩

/-! ## C67: the values -/

section
variable {γ ε : Type} [DecidableEq γ] [DecidableEq ε]
variable (cap : Option Nat) (ov : ε) (react : List (Call γ ε) → Reaction ε)

/-- What the subscriber of `interval(…) | p` has seen after the steps `ls` (runs of the task, and disposals from
outside). -/
def sees (M : Nat) (p : Pipe ε Nat γ) (ls : List Lbl) : List (Call γ ε) :=
  evsOf (p.final (exec M (p.lift (userObs cap ov react)) (p.mapFinal UserSt.dispose)
    (p.start (userObs cap ov react) {}) ls).obs).log

/-- C67: after `n` runs the interval has emitted exactly 0, 1, …, n-1 (in `size_t` arithmetic) and has not ended,
as seen through any operators. -/
theorem C67_values (M : Nat) (p : Pipe ε Nat γ) (hp : p.WF) (hfit : Fits cap p.finals.length) (n : Nat) :
    sees cap ov react M p (List.replicate n .run) =
      deliver react [] (p.spec ⟨values M n, none⟩).vals (p.spec ⟨values M n, none⟩).fin := by
  have h := C04_pipeline cap ov react p hp (calls M n) (by rw [upsOf_calls]; simpa using hfit)
  rw [traceOf_calls] at h
  rw [← h]
  unfold sees subscriberSees subscriber
  rw [(exec_runs (p.lift_lawful userObs_lawful) M _ _ n).1]

/-- C67, spelled out for a plain subscriber: 0, 1, 2, … as long as `size_t` does not overflow. -/
theorem C67_counts (M n : Nat) (hn : n ≤ M) :
    sees (γ := Nat) none ov (fun _ => {}) M .nil (List.replicate n .run) = (List.range n).map .next := by
  rw [C67_values none ov _ M .nil (by simp [Pipe.WF]) (fun _ h => by cases h) n]
  have hv : values M n = List.range n := by
    unfold values
    conv => rhs; rw [← List.map_id (List.range n)]
    refine List.map_congr_left fun a ha => ?_
    exact Nat.mod_eq_of_lt (by have := List.mem_range.1 ha; omega)
  simp only [Pipe.spec, hv]
  generalize List.range n = l
  have hd : ∀ h, deliver (ε := ε) (fun _ => {}) h l none = h ++ l.map .next := by
    induction l with
    | nil => intro h; rfl
    | cons v vs ih => intro h; simp [deliver, ih]
  exact hd []

/-- C67: `timer` (that is `interval(when, 0) | take(1)`, timer.hpp 35) emits exactly one 0 and completes. -/
theorem C67_timer (M n : Nat) (hn : 1 ≤ n) :
    sees none ov (fun _ => {}) M (.cons (.take 1) .nil) (List.replicate n .run) = [.next 0, .completed] := by
  rw [C67_values none ov _ M _ (by simp [Pipe.WF, Op.WF]) (fun _ h => by cases h) n]
  obtain ⟨m, rfl⟩ : ∃ m, n = m + 1 := ⟨n - 1, by omega⟩
  have hv : ∃ l, values M (m + 1) = 0 :: l := by
    refine ⟨(List.range m).map (fun k => (k + 1) % M), ?_⟩
    simp [values, List.range_succ_eq_map, Function.comp_def]
  obtain ⟨l, hl⟩ := hv
  simp only [Pipe.spec, Op.spec, Spec.take, hl]
  simp [deliver, Term.toCall]

/-- C67: once the subscription is disposed nothing more is emitted. -/
theorem C67_stops (M : Nat) (p : Pipe ε Nat γ) (ls ls' : List Lbl) :
    sees cap ov react M p (ls ++ .kill :: ls') = sees cap ov react M p ls := by
  unfold sees exec
  rw [List.foldl_append, List.foldl_cons]
  rw [killed (kill_disposes cap ov react p) M ls' _ (kill_disposes cap ov react p _)]
  rw [kills_evs]
  show evsOf (p.final (p.mapFinal UserSt.dispose _)).log = _
  rw [final_mapFinal, dispose_evs]

/-- C67: and an interval nobody wants any more does not stay in the scheduler for ever: the first run after the
disposal is the last one, the task is not queued again. -/
theorem C67_leaves_queue (M : Nat) (p : Pipe ε Nat γ) (ls ls' : List Lbl) :
    (exec M (p.lift (userObs cap ov react)) (p.mapFinal UserSt.dispose) (p.start (userObs cap ov react) {})
      (ls ++ .kill :: .run :: ls')).queued = false := by
  unfold exec
  rw [List.foldl_append, List.foldl_cons, List.foldl_cons]
  generalize ls.foldl _ _ = s
  have h1 : (step M (p.lift (userObs cap ov react)) (p.mapFinal UserSt.dispose)
      (step M (p.lift (userObs cap ov react)) (p.mapFinal UserSt.dispose) s .kill) .run).queued = false := by
    have hd := kill_disposes cap ov react p s.obs
    simp only [step]
    rcases Bool.eq_false_or_eq_true s.queued with hq | hq <;> simp [hd, hq]
  revert h1
  generalize step M (p.lift (userObs cap ov react)) (p.mapFinal UserSt.dispose)
      (step M (p.lift (userObs cap ov react)) (p.mapFinal UserSt.dispose) s .kill) .run = s1
  intro h1
  induction ls' generalizing s1 with
  | nil => exact h1
  | cons l ls' ih =>
    refine ih _ ?_
    cases l <;> simp [step, h1]

end

/-! ## C67: the times

`IsInterval id t0 p line` : task `id` was scheduled once, for `t0`, and returned `p` from every run.
`NotEarly id t0 p line` : its run number `k` (which emits `k`) started no earlier than `t0 + k * p`. -/

/-- C67 on `new_thread` (and each thread of a thread pool), any other tasks, any interleaving. -/
theorem C67_new_thread (c : NT.Cfg) (ls : List NT.Lbl) (id : Nat) (t0 p : Int) (hk : c.kind id = .fromThis)
    (hi : IsInterval id t0 p (ntLine (NT.exec c ls).log)) : NotEarly id t0 p (ntLine (NT.exec c ls).log) :=
  nt_notEarly ls id t0 p hk hi

/-- C67 on `run_loop`. -/
theorem C67_run_loop (c : RunLoop.Cfg) (ls : List RunLoop.Lbl) (id : Nat) (t0 p : Int)
    (hk : c.kind id = .fromThis) (hi : IsInterval id t0 p (rlLine (RunLoop.exec c ls).log)) :
    NotEarly id t0 p (rlLine (RunLoop.exec c ls).log) :=
  rl_notEarly ls id t0 p hk hi

/-- C67 on the test scheduler. -/
theorem C67_test_scheduler (c : Test.Cfg) (s0 : Int) (ls : List Test.Lbl) (id : Nat) (t0 p : Int)
    (hk : c.kind id = .fromThis) (hi : IsInterval id t0 p (tsLine (Test.exec c s0 ls).log)) :
    NotEarly id t0 p (tsLine (Test.exec c s0 ls).log) :=
  ts_notEarly ls id t0 p hk hi

/-- C67 on the immediate scheduler: subscribed at time `s0` with initial delay `d`. -/
theorem C67_immediate (c : Imm.Cfg) (s0 last d p : Int) (hl : last ≤ s0) (n : Nat) (hk : c.kind = .fromThis)
    (hi : IsInterval 0 (s0 + d) p (immLine (s0 + d) (Imm.iter c n (Imm.call c s0 last d)).log)) :
    NotEarly 0 (s0 + d) p (immLine (s0 + d) (Imm.iter c n (Imm.call c s0 last d)).log) := by
  refine notEarly_of hi (ImmInv.iter n last).alt ?_
  intro pre t post he
  cases pre with
  | nil => simp [immLine] at he
  | cons x pre =>
    simp only [immLine, List.cons_append, List.cons.injEq] at he
    obtain ⟨rfl, he⟩ := he
    obtain ⟨a, x, b, h1, h2, rfl, rfl⟩ := split_filterMap he
    have hper : ∀ r, .fin 0 r ∈ immLine (s0 + d) a → r = .again p := fun r hr => hi.period r (by
      rw [h1]
      simp only [immLine, List.filterMap_append, List.mem_cons, List.mem_append] at hr ⊢
      exact hr.imp id .inl)
    have hx : x = .start t := by cases x <;> simp [immEv] at h2; rw [h2]
    subst hx
    have h3 := (Imm.C58_not_early n last hl a b t h1).1
    rw [hk] at h3
    exact ⟨_, imm_base a hper, h3⟩

/-- C67 on `current_thread`, part: whenever a run of the interval returns something else is waiting in the queue.
Missing: an interval alone in an owned queue, see `C67_current_thread_refutes`. -/
theorem C67_current_thread_busy_partial (c : Sched.Cfg) (ls : List CT.Lbl) (id : Nat) (t0 p : Int)
    (hk : c.kind id = .fromThis)
    (hbusy : ∀ pre i t v post, (CT.exec c ls).log = pre ++ .fin i t (.again v) :: post →
      c.kind i = .fromThis → TrampSpec.waiting pre ≠ [])
    (hi : IsInterval id t0 p (ctLine (CT.exec c ls).log)) : NotEarly id t0 p (ctLine (CT.exec c ls).log) :=
  ct_notEarly ls id t0 p hk (Sched.C57_busy_partial c ls hbusy) hi

/-- C67 on `current_thread`, part: an interval subscribed while the thread has no queue, whose subscriber schedules
nothing on the same thread. -/
theorem C67_current_thread_alone_partial (c : Sched.Cfg) (n : Nat) (d p : Int) (hk : c.kind 0 = .fromThis)
    (hq : ∀ k, ∀ a ∈ (c.body 0 k).1, (∃ x, a = .elapse x) ∨ ∃ h, a = .dispose h)
    (hi : IsInterval 0 d p (ctLine (CT.exec c (.act (.deferFor d) :: List.replicate n .run)).log)) :
    NotEarly 0 d p (ctLine (CT.exec c (.act (.deferFor d) :: List.replicate n .run)).log) :=
  ct_notEarly _ 0 d p hk (Sched.C57_alone_partial c n d hq) hi

/-- C67 is false on `current_thread` when the queue is already owned (for instance under `merge`, or when subscribing
from a task of this scheduler): an interval with period 1 due at time 0 emits its third value at time 1, not 2. -/
theorem C67_current_thread_refutes : ∃ (c : Sched.Cfg) (ls : List CT.Lbl), c.kind 0 = .fromThis ∧
    IsInterval 0 0 1 (ctLine (CT.exec c ls).log) ∧ ¬ NotEarly 0 0 1 (ctLine (CT.exec c ls).log) := by
  have hl : ctLine (CT.exec Sched.exPeriodic [.own, .act (.deferFor 0), .release, .run, .run, .run]).log =
      [.call 0 0, .start 0 0, .fin 0 (.again 1), .start 0 1, .fin 0 (.again 1)] ++ .start 0 1 ::
        [.fin 0 (.again 1)] := by decide
  refine ⟨Sched.exPeriodic, [.own, .act (.deferFor 0), .release, .run, .run, .run], rfl, ?_, fun h => ?_⟩
  · rw [hl]
    refine ⟨by decide, fun r hr => ?_⟩
    simp at hr; exact hr
  · exact absurd (h _ _ _ hl) (by decide)

/-! ### Non-vacuity -/

example : sees (γ := Nat) (ε := Nat) none 0 (fun h => { dispose := h.length == 2 }) 4 .nil (List.replicate 6 .run)
    = [.next 0, .next 1] ∧
    sees (γ := Nat) (ε := Nat) none 0 (fun _ => {}) 4 .nil [.run, .run, .run, .kill, .run]
    = [.next 0, .next 1, .next 2] := by decide

/-- An interval starting at 2 with period 3 and another task on each scheduler. -/
example : let c : NT.Cfg := { kind := fun i => if i = 0 then .fromThis else .fromNow, hnd := id }
    let line := ntLine (NT.exec c [.defer 2, .store 0, .tick 2, .work, .defer 3, .ret (.again 3), .tick 3, .work,
      .ret .stop, .work, .ret (.again 3), .tick 9, .work]).log
    IsInterval 0 2 3 line ∧ runs 0 line = 3 := by
  refine ⟨⟨by decide, ?_⟩, by decide⟩
  intro r hr
  have : PEv.fin 0 r ∈ [PEv.call 0 2, .start 0 2, .call 1 3, .fin 0 (.again 3), .start 1 5, .fin 1 .stop, .start 0 5,
    .fin 0 (.again 3), .start 0 14] := hr
  simpa using this

example : let c : RunLoop.Cfg := { kind := fun _ => .fromThis, hnd := id }
    let line := rlLine (RunLoop.exec c [.schedule 2, .step 0, .step 0, .tick 2, .dispatch false, .step 1, .step 1,
      .ret 1 (.again 3), .step 1, .step 1, .tick 4, .dispatch true, .step 2, .step 2]).log
    IsInterval 0 2 3 line ∧ runs 0 line = 2 := by
  refine ⟨⟨by decide, ?_⟩, by decide⟩
  intro r hr
  have : PEv.fin 0 r ∈ [PEv.call 0 2, .start 0 2, .fin 0 (.again 3), .start 0 6] := hr
  simpa using this

example : let c : Test.Cfg := { body := fun _ _ => ([], .again 3), kind := fun _ => .fromThis, hnd := id }
    let line := tsLine (Test.exec c 0 [.user (.call 2), .run, .user (.advance 5), .run, .run, .run, .run, .run]).log
    IsInterval 0 2 3 line ∧ runs 0 line = 2 := by
  refine ⟨⟨by decide, ?_⟩, by decide⟩
  intro r hr
  have : PEv.fin 0 r ∈ [PEv.call 0 2, .start 0 5, .fin 0 (.again 3), .start 0 5, .fin 0 (.again 3)] := hr
  simpa using this

example : let c : Imm.Cfg := { body := fun _ => ([.elapse 1], .again 3), kind := .fromThis, ext := none, lag := fun _ => 0 }
    let line := immLine 2 (Imm.iter c 3 (Imm.call c 0 0 2)).log
    IsInterval 0 2 3 line ∧ runs 0 line = 3 := by
  refine ⟨⟨by decide, ?_⟩, by decide⟩
  intro r hr
  have : PEv.fin 0 r ∈ [PEv.call 0 2, .start 0 2, .fin 0 (.again 3), .start 0 5, .fin 0 (.again 3), .start 0 8,
    .fin 0 (.again 3)] := hr
  simpa using this

end Rpp.Interval
