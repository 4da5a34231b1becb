import Verif.Combine.SyncPairProps

/-!
# `delay`, `observe_on`, `debounce` and `timeout` on a scheduler that runs tasks inside `schedule`

`/repo/src/rpp/rpp/operators/delay.hpp`, `observe_on.hpp`, `debounce.hpp`, `timeout.hpp` with the immediate scheduler (schedulers/immediate.hpp); `delay`, `observe_on` and `debounce` also with `current_thread` on a thread
without a queue, whose `schedule` goes through the same loop (schedulers/current_thread.hpp 153-160, 181).
One thread; the source hands over its values and its end inside `subscribe`, looking at `is_disposed` before each of them.
-/

namespace Rpp.Caller

open SyncResub (finCalls)

/-- Which operator. (operators/delay.hpp 164-186, observe_on.hpp, debounce.hpp 147-172, timeout.hpp 104-153) -/
inductive Kind where
  | delay
  | observeOn
  | debounce
  | timeout
  deriving DecidableEq

/-- A value or an end. (operators/delay.hpp 33) -/
inductive Item (α ε : Type) where
  | val (a : α)
  | fin (t : Term ε)

/-- The call it stands for. (operators/delay.hpp 154-159) -/
def Item.call : Item α ε → Call α ε
  | .val a => .next a
  | .fin (.error e) => .error e
  | .fin .completed => .completed

/-- Where the thread is.
* `src`: the source looks at `is_disposed` and hands over the next value or its end;
* `put x`: inside the operator's `on_next` / `on_error` / `on_completed`;
* `loop tp`: the scheduler's loop before the first run, which is due at `tp` (schedulers/details/utils.hpp 130-141); `woke`: after sleeping (139, 143); `again tp`: before a further run (143);
* `task`: inside the operator's task; `give x t`: about to pass on `x`, which arrived at `t`;
* `fallback l`: inside `subscribe` of timeout's fallback, which has these values left (timeout.hpp 145);
* `done`: `subscribe` has returned; `stuck`: the thread waits for a mutex it holds itself. -/
inductive Pc (α ε : Type) where
  | src
  | put (x : Item α ε)
  | loop (tp : Nat)
  | woke
  | again (tp : Nat)
  | task
  | give (x : Item α ε) (t : Nat)
  | fallback (l : List α)
  | done
  | stuck

/-- `now`: the clock; `n`: steps made; `rest`: values the source has left; `over`: it has told its end.
`held`: this thread holds the operator's mutex (delay.hpp 53, debounce.hpp 105, timeout.hpp 45).
`queue`, `active`: delay.hpp 54-55, with the times of arrival; `value`, `due`: debounce.hpp 106-107, `due` also timeout.hpp 29; `dead`: timeout's disposable was disposed by the timer (timeout.hpp 144).
`shown`: when which notification arrived and was passed on by the task, which the code does not record. -/
structure St (α ε σ : Type) where
  obs : σ
  pc : Pc α ε
  rest : List α
  now : Nat := 0
  n : Nat := 0
  over : Bool := false
  held : Bool := false
  queue : List (Item α ε × Nat) := []
  active : Bool := false
  value : Option α := none
  due : Option Nat := none
  dead : Bool := false
  shown : List (Nat × Nat) := []

/-- What is fixed: the operator, its period, the source's end, timeout's fallback, and how much time passes before each step; the parameters of operators/delay.hpp 164-186, debounce.hpp 147-172, timeout.hpp 104-153. -/
structure Cfg (α ε : Type) where
  kd : Kind
  d : Nat
  fin : Option (Term ε)
  fb : Trace α ε
  tick : Nat → Nat

/-- `is_disposed()` of the operator's observer and of the task's handler. (delay.hpp 63, 78-81, debounce.hpp 28, 122-125, timeout.hpp 56, 76-79) -/
def gone (O : Obs α ε σ) (s : St α ε σ) : Bool := O.isDisposed s.obs || s.dead

/-- `schedule` returns: into `emplace_safe` of debounce, which releases its mutex (debounce.hpp 50-58), and then to the source. -/
def back (c : Cfg α ε) (s : St α ε σ) : St α ε σ := { s with pc := .src, held := if c.kd = .debounce then false else s.held }

/-- The operator's `on_next`, `on_error`, `on_completed`. (delay.hpp 83-133, debounce.hpp 47-58, 127-144, timeout.hpp 81-101) -/
def put (c : Cfg α ε) (O : Obs α ε σ) (s : St α ε σ) (x : Item α ε) : St α ε σ :=
  let enqueue := if s.active then { s with queue := s.queue ++ [(x, s.now)], pc := .src } else { s with queue := s.queue ++ [(x, s.now)], active := true, pc := .loop (s.now + c.d) }
  if s.held then { s with pc := .stuck } else
  match c.kd with
  | .delay => enqueue
  | .observeOn => match x with
    | .fin (.error e) => { s with queue := [], obs := O.onError e s.obs, pc := .src }
    | _ => enqueue
  | .debounce => match x with
    | .val a =>
      if s.due.isSome then { s with value := some a, due := some (s.now + c.d), pc := .src }
      else { s with value := some a, due := some (s.now + c.d), held := true, pc := .loop (s.now + c.d) }
    | .fin (.error e) => { s with obs := O.onError e s.obs, pc := .src }
    | .fin .completed => { s with obs := O.onCompleted (match s.value with | none => s.obs | some a => O.onNext a s.obs), value := none, pc := .src }
  | .timeout => match x with
    | .val a => { s with obs := O.onNext a s.obs, due := some (s.now + c.d), pc := .src }
    | x => { s with obs := O.call x.call s.obs, pc := .src }

/-- The operator's task. (delay.hpp 135-161, debounce.hpp 73-82, 86-99, timeout.hpp 137-148) -/
def task (c : Cfg α ε) (O : Obs α ε σ) (s : St α ε σ) : St α ε σ :=
  if s.held then { s with pc := .stuck } else
  match c.kd with
  | .delay | .observeOn => match s.queue with
    | [] => back c { s with active := false }
    | (x, t) :: q => if s.now < t + c.d then { s with pc := .again (t + c.d) } else { s with queue := q, pc := .give x t }
  | .debounce => match s.due, s.value with
    | some tp, some a => if s.now < tp then { s with pc := .again tp } else { s with due := none, value := none, pc := .give (.val a) (tp - c.d) }
    | _, _ => back c s
  | .timeout => match s.due with
    | none => back c s
    | some tp => if s.now < tp then { s with pc := .again tp } else if gone O s then back c s else { s with dead := true, held := true, pc := .fallback c.fb.vals }

/-- One thing the thread does.  Simplifications: `sleep_for` and `sleep_until` sleep until the time is reached and any longer (the next `tick`); the fallback is an immediate `from_iterable` or the like, so its loop is that of sources/from.hpp 107-115.
(sources/from.hpp 101-121, schedulers/details/utils.hpp 120-161, delay.hpp 135-161, debounce.hpp 69-84, timeout.hpp 137-148) -/
def act (c : Cfg α ε) (O : Obs α ε σ) (s : St α ε σ) : St α ε σ :=
  match s.pc with
  | .done => s
  | .stuck => s
  | .src =>
    if s.over then { s with pc := .done }
    else match s.rest with
    | [] => match c.fin with
      | none => { s with pc := .done }
      | some t => if gone O s then { s with pc := .done } else { s with over := true, pc := .put (.fin t) }
    | a :: r => if gone O s then { s with pc := .done } else { s with rest := r, pc := .put (.val a) }
  | .put x => put c O s x
  | .loop tp => if gone O s then back c s else if s.now < tp then { s with now := tp, pc := .woke } else { s with pc := .task }
  | .woke => if gone O s then back c s else { s with pc := .task }
  | .again tp => if gone O s then back c s else { s with now := max s.now tp, pc := .woke }
  | .task => task c O s
  | .give x t =>
    let s := { s with obs := O.call x.call s.obs, shown := s.shown ++ [(t, s.now)] }
    if c.kd = .debounce then back c s else { s with pc := .task }
  | .fallback l => match l with
    | [] => { s with obs := O.run s.obs (finCalls c.fb.fin), held := false, pc := .src }
    | a :: r => if O.isDisposed s.obs then { s with held := false, pc := .src } else { s with obs := O.onNext a s.obs, pc := .fallback r }

/-- Time passes, then one thing happens; models no code of its own. -/
def step (c : Cfg α ε) (O : Obs α ε σ) (s : St α ε σ) : St α ε σ := act c O { s with now := s.now + c.tick s.n, n := s.n + 1 }

/-- After `k` steps.  At first the observer has been given the operator's disposable (debounce.hpp 169, timeout.hpp 131) or the source's (delay.hpp 73-76); timeout's `lift` schedules its timer before the source is subscribed to
(timeout.hpp 127-149). -/
def exec (c : Cfg α ε) (O : Obs α ε σ) (l : List α) (s : σ) (k : Nat) : St α ε σ :=
  Nat.repeat (step c O) k { obs := O.call (.up 0) s, rest := l, pc := if c.kd = .timeout then .loop c.d else .src, due := if c.kd = .timeout then some c.d else none }

/-! ## Proofs -/

section
variable {c : Cfg α ε} {O : Obs α ε σ}

/-- Some number of steps leads from here to there. -/
def Leads (c : Cfg α ε) (O : Obs α ε σ) (s : St α ε σ) (P : St α ε σ → Prop) : Prop := ∃ k, P (Nat.repeat (step c O) k s)

theorem Leads.now {s : St α ε σ} {P : St α ε σ → Prop} (h : P s) : Leads c O s P := ⟨0, h⟩

theorem Leads.step {s : St α ε σ} {P : St α ε σ → Prop} (h : Leads c O (Caller.step c O s) P) : Leads c O s P := by
  obtain ⟨k, h⟩ := h
  refine ⟨1 + k, ?_⟩
  rw [SyncPair.repeat_add]
  exact h

theorem Leads.trans {s : St α ε σ} {P Q : St α ε σ → Prop} (h : Leads c O s P) (h' : ∀ t, P t → Leads c O t Q) : Leads c O s Q := by
  obtain ⟨k, h⟩ := h
  obtain ⟨j, h2⟩ := h' _ h
  refine ⟨k + j, ?_⟩
  rw [SyncPair.repeat_add]
  exact h2

theorem stays (k : Nat) {s : St α ε σ} (h : s.pc = .done ∨ s.pc = .stuck) : (Nat.repeat (step c O) k s).obs = s.obs ∧ (Nat.repeat (step c O) k s).pc = s.pc ∧ (Nat.repeat (step c O) k s).rest = s.rest := by
  induction k with
  | zero => exact ⟨rfl, rfl, rfl⟩
  | succ k ih =>
    show (step c O (Nat.repeat _ k s)).obs = _ ∧ (step c O (Nat.repeat _ k s)).pc = _ ∧ (step c O (Nat.repeat _ k s)).rest = _
    generalize Nat.repeat (step c O) k s = u at ih
    obtain ⟨h1, h2, h3⟩ := ih
    rcases h with h | h <;> rw [h] at h2 ⊢ <;> simp only [step, act, h2] <;> exact ⟨h1, trivial, h3⟩

/-- The operator is at rest and the source has the floor. -/
structure Quiet (s : St α ε σ) (o : σ) (r : List α) (over : Bool) : Prop where
  obs : s.obs = o
  pc : s.pc = .src
  rest : s.rest = r
  ov : s.over = over
  held : s.held = false
  queue : s.queue = []
  active : s.active = false
  dead : s.dead = false

/-- The scheduler's loop up to the run of the task, if nothing is disposed. -/
theorem to_task {s : St α ε σ} {tp : Nat} (hpc : s.pc = .loop tp) (hg : gone O s = false) :
    Leads c O s (fun u => ∃ now n, tp ≤ now ∧ u = { s with pc := .task, now := now, n := n }) := by
  apply Leads.step
  by_cases ht : s.now + c.tick s.n < tp
  · apply Leads.step
    refine Leads.now ⟨tp + c.tick (s.n + 1), s.n + 1 + 1, by omega, ?_⟩
    have hg' : ∀ now n pc, gone O { s with now := now, n := n, pc := pc } = false := fun _ _ _ => hg
    simp only [Caller.step, act, hpc, hg', Bool.false_eq_true, if_false, ht, if_true]
  · refine Leads.now ⟨s.now + c.tick s.n, s.n + 1, by omega, ?_⟩
    have hg' : ∀ now n, gone O { s with now := now, n := n } = false := fun _ _ => hg
    rcases s with ⟨obs, pc, rest, now, n, over, held, queue, active, value, due, dead, shown⟩
    dsimp only at hpc ht hg'
    subst hpc
    have := hg' (now + c.tick n) (n + 1)
    simp only [Caller.step, act, this, Bool.false_eq_true, if_false, ht]

/-- delay and observe_on pass on what is put. -/
theorem delay_put (hk : c.kd = .delay ∨ c.kd = .observeOn) {s : St α ε σ} {o : σ} {r : List α} {ov : Bool} {x : Item α ε} (hq : Quiet { s with pc := .src } o r ov) (hpc : s.pc = .put x) (hd : O.isDisposed o = false) :
    Leads c O s (fun u => Quiet u (O.call x.call o) r ov) := by
  rcases s with ⟨obs, pc, rest, now, n, over, held, queue, active, value, due, dead, shown⟩
  obtain ⟨h1, _, h3, h4, h5, h6, h7, h8⟩ := hq
  dsimp only at *
  subst h1 h3 h4 h5 h6 h7 h8 hpc
  have key : ∀ nw m, Leads c O { obs := obs, pc := .loop (nw + c.d), rest := rest, now := nw, n := m, over := over, held := false, queue := [(x, nw)], active := true, value := value, due := due, dead := false, shown := shown }
      (fun u => Quiet u (O.call x.call obs) rest over) := by
    intro nw m
    refine (to_task (tp := nw + c.d) rfl (by simp [gone, hd])).trans ?_
    rintro u ⟨now', n', hle, rfl⟩
    apply Leads.step
    apply Leads.step
    apply Leads.step
    refine Leads.now ?_
    have hlt : ¬ now' + c.tick n' < nw + c.d := by omega
    rcases hk with hk | hk <;>
    · simp only [Caller.step, act, task, hk, hlt, if_false, Bool.false_eq_true, back]
      simp only [reduceCtorEq, if_false]
      exact ⟨rfl, rfl, rfl, rfl, rfl, rfl, rfl, rfl⟩
  apply Leads.step
  rcases hk with hk | hk
  · simp only [Caller.step, act, put, hk, Bool.false_eq_true, if_false, List.nil_append]
    exact key _ _
  · cases x with
    | val a =>
      simp only [Caller.step, act, put, hk, Bool.false_eq_true, if_false, List.nil_append]
      exact key _ _
    | fin t => cases t with
      | completed =>
        simp only [Caller.step, act, put, hk, Bool.false_eq_true, if_false, List.nil_append]
        exact key _ _
      | error e =>
        refine Leads.now ?_
        simp only [Caller.step, act, put, hk, Bool.false_eq_true, if_false]
        exact ⟨rfl, rfl, rfl, rfl, rfl, rfl, rfl, rfl⟩

/-- delay and observe_on: the whole source. -/
theorem delay_all (hl : Lawful O) (hk : c.kd = .delay ∨ c.kd = .observeOn) : ∀ (r : List α) (s : St α ε σ) (o : σ), Quiet s o r false →
    Leads c O s (fun u => u.pc = .done ∧ u.obs = O.run o (r.map .next ++ finCalls c.fin)) := by
  have hend : ∀ (s : St α ε σ) (o : σ) r, Quiet s o r true → Leads c O s (fun u => u.pc = .done ∧ u.obs = o) := by
    intro s o r hq
    apply Leads.step
    refine Leads.now ?_
    simp only [Caller.step, act, hq.pc, hq.ov, if_true]
    exact ⟨trivial, hq.obs⟩
  have hfin : ∀ (o : σ), O.isDisposed o = true → O.run o (finCalls c.fin) = o := by
    intro o hd
    rcases c.fin with _ | ⟨e⟩ | _
    · rfl
    · exact hl.run_disposed [.error e] _ hd
    · exact hl.run_disposed [.completed] _ hd
  intro r
  induction r with
  | nil =>
    intro s o hq
    rcases s with ⟨obs, pc, rest, now, n, over, held, queue, active, value, due, dead, shown⟩
    obtain ⟨h1, h2, h3, h4, h5, h6, h7, h8⟩ := hq
    dsimp only at *
    subst h1 h2 h3 h4 h5 h6 h7 h8
    simp only [List.map_nil, List.nil_append]
    cases hd : O.isDisposed obs with
    | true =>
      rw [hfin _ hd]
      apply Leads.step
      refine Leads.now ?_
      cases hf : c.fin <;> simp [Caller.step, act, gone, hd, hf]
    | false =>
      cases hf : c.fin with
      | none =>
        apply Leads.step
        refine Leads.now ?_
        simp only [Caller.step, act, hf, Bool.false_eq_true, if_false]
        exact ⟨trivial, rfl⟩
      | some t =>
        have e : O.run obs (finCalls (some t)) = O.call (Item.fin t : Item α ε).call obs := by cases t <;> rfl
        rw [e]
        apply Leads.step
        simp only [Caller.step, act, hf, gone, hd, Bool.false_eq_true, Bool.or_false, if_false]
        refine (delay_put hk (x := .fin t) (o := obs) (r := []) (ov := true) ⟨rfl, rfl, rfl, rfl, rfl, rfl, rfl, rfl⟩ rfl hd).trans ?_
        exact fun u hu => hend u _ _ hu
  | cons a r ih =>
    intro s o hq
    rcases s with ⟨obs, pc, rest, now, n, over, held, queue, active, value, due, dead, shown⟩
    obtain ⟨h1, h2, h3, h4, h5, h6, h7, h8⟩ := hq
    dsimp only at *
    subst h1 h2 h3 h4 h5 h6 h7 h8
    cases hd : O.isDisposed obs with
    | true =>
      rw [Obs.run_append, SyncResub.nexts_gone hl hd, hfin _ hd]
      apply Leads.step
      refine Leads.now ?_
      simp [Caller.step, act, gone, hd]
    | false =>
      apply Leads.step
      simp only [Caller.step, act, gone, hd, Bool.false_eq_true, Bool.or_false, if_false]
      refine (delay_put hk (x := .val a) (o := obs) (r := r) (ov := false) ⟨rfl, rfl, rfl, rfl, rfl, rfl, rfl, rfl⟩ rfl hd).trans ?_
      intro u hu
      exact ih u _ hu

/-- The clock and what has been shown. -/
structure Timed (c : Cfg α ε) (s : St α ε σ) : Prop where
  shown : ∀ q ∈ s.shown, q.1 + c.d ≤ q.2
  give : ∀ x t, s.pc = .give x t → t + c.d ≤ s.now

theorem timed_step {s : St α ε σ} (hk : c.kd ≠ .debounce) (h : Timed c s) : Timed c (step c O s) := by
  obtain ⟨h1, h2⟩ := h
  rcases s with ⟨obs, pc, rest, now, n, over, held, queue, active, value, due, dead, shown⟩
  dsimp only at h1 h2
  constructor
  · intro q hq
    cases pc with
    | give x t =>
      simp only [step, act, if_neg hk] at hq
      rcases List.mem_append.1 hq with hq | hq
      · exact h1 q hq
      · cases List.mem_singleton.1 hq
        have := h2 x t rfl
        dsimp only
        omega
    | _ =>
      apply h1 q
      revert hq
      simp only [step, act, put, task, back]
      repeat' split
      all_goals exact id
  · intro x t
    cases pc with
    | task =>
      simp only [step, act, task, back]
      cases hkd : c.kd with
      | debounce => exact absurd hkd hk
      | timeout =>
        dsimp only
        repeat' split
        all_goals intro h; cases h
      | delay =>
        dsimp only
        split
        · intro h; cases h
        · split
          · intro h; cases h
          · split
            · intro h; cases h
            · intro h; cases h; dsimp only at *; omega
      | observeOn =>
        dsimp only
        split
        · intro h; cases h
        · split
          · intro h; cases h
          · split
            · intro h; cases h
            · intro h; cases h; dsimp only at *; omega
    | _ =>
      simp only [step, act, put, back]
      repeat' split
      all_goals intro h; cases h

/-- debounce: the first value. -/
theorem debounce_stuck (hk : c.kd = .debounce) {s : St α ε σ} {o : σ} {a : α} {r : List α} (hq : Quiet s o (a :: r) false) (hdue : s.due = none) (hd : O.isDisposed o = false) :
    Leads c O s (fun u => u.pc = .stuck ∧ u.obs = o ∧ u.rest = r) := by
  rcases s with ⟨obs, pc, rest, now, n, over, held, queue, active, value, due, dead, shown⟩
  obtain ⟨h1, h2, h3, h4, h5, h6, h7, h8⟩ := hq
  dsimp only at *
  subst h1 h2 h3 h4 h5 h6 h7 h8 hdue
  apply Leads.step
  apply Leads.step
  simp only [Caller.step, act, put, hk, gone, hd, Bool.false_eq_true, Bool.or_false, if_false, Option.isSome_none]
  refine (to_task rfl (by simp [gone, hd])).trans ?_
  rintro u ⟨now', n', -, rfl⟩
  apply Leads.step
  refine Leads.now ?_
  simp only [Caller.step, act, task, if_true]
  exact ⟨trivial, trivial, trivial⟩

/-- timeout: the fallback's values. -/
theorem fallback_all (hl : Lawful O) : ∀ (l : List α) (s : St α ε σ), s.pc = .fallback l → s.dead = true → s.over = false →
    Leads c O s (fun u => u.pc = .done ∧ u.obs = O.run s.obs (l.map .next ++ finCalls c.fb.fin) ∧ u.rest = s.rest) := by
  have hend : ∀ (s : St α ε σ), s.pc = .src → s.dead = true → s.over = false → Leads c O s (fun u => u.pc = .done ∧ u.obs = s.obs ∧ u.rest = s.rest) := by
    intro s h1 h2 h3
    apply Leads.step
    refine Leads.now ?_
    rcases s with ⟨obs, pc, rest, now, n, over, held, queue, active, value, due, dead, shown⟩
    dsimp only at h1 h2 h3
    subst h1 h2 h3
    simp only [Caller.step, act, gone, Bool.or_true, if_true, Bool.false_eq_true, if_false]
    repeat' split
    all_goals exact ⟨rfl, rfl, by simp_all⟩
  intro l
  induction l with
  | nil =>
    intro s h1 h2 h3
    apply Leads.step
    have e : Caller.step c O s = { s with now := s.now + c.tick s.n, n := s.n + 1, obs := O.run s.obs (finCalls c.fb.fin), held := false, pc := .src } := by simp only [Caller.step, act, h1]
    rw [e]
    exact hend _ rfl h2 h3
  | cons a l ih =>
    intro s h1 h2 h3
    apply Leads.step
    cases hd : O.isDisposed s.obs with
    | true =>
      have e : Caller.step c O s = { s with now := s.now + c.tick s.n, n := s.n + 1, held := false, pc := .src } := by simp only [Caller.step, act, h1, hd, if_true]
      rw [e]
      refine (hend { s with now := s.now + c.tick s.n, n := s.n + 1, held := false, pc := .src } rfl h2 h3).trans ?_
      rintro u ⟨u1, u2, u3⟩
      refine Leads.now ⟨u1, u2.trans ?_, u3⟩
      rw [Obs.run_append, SyncResub.nexts_gone hl hd]
      rcases c.fb.fin with _ | ⟨e⟩ | _
      · rfl
      · exact (hl.run_disposed [.error e] _ hd).symm
      · exact (hl.run_disposed [.completed] _ hd).symm
    | false =>
      have e : Caller.step c O s = { s with now := s.now + c.tick s.n, n := s.n + 1, obs := O.onNext a s.obs, pc := .fallback l } := by simp only [Caller.step, act, h1, hd, Bool.false_eq_true, if_false]
      rw [e]
      exact ih _ rfl h2 h3

end

end Rpp.Caller
