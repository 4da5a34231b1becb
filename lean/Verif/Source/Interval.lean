import Verif.Source.FromProps
import Verif.Scheduler.Immediate
import Verif.Scheduler.RunLoop
import Verif.Scheduler.NewThreadProps
import Verif.Scheduler.TestScheduler

/-!
# `interval`, `timer`: model and timing

Models `/repo/src/rpp/rpp/sources/interval.hpp` 17-44.  The values are followed on any observer; the times are
followed on the scheduler models of `Verif.Scheduler`, where an interval is a task that returns
`delay_from_this_timepoint{period}` from every run.
-/

namespace Rpp.Interval

open From (Lbl)

/-! ## The values -/

/-- The task's state: the observer and `counter` (interval.hpp 39, starting from `size_t{}`), and whether it is
still queued. -/
structure St (σ : Type) where
  obs : σ
  counter : Nat := 0
  queued : Bool := true

/-- `interval_schedulable` (interval.hpp 19-23) run by a scheduler: a queued task whose observer is disposed is
dropped (C64), otherwise `on_next(counter++)` and the task is queued again.  `size_t` has `M` values. -/
def step (M : Nat) (O : Obs Nat ε σ) (kill : σ → σ) (s : St σ) : Lbl → St σ
  | .kill => { s with obs := kill s.obs }
  | .run =>
    if !s.queued then s
    else if O.isDisposed s.obs then { s with queued := false }
    else { obs := O.onNext s.counter s.obs, counter := (s.counter + 1) % M, queued := true }

/-- The state after a sequence of steps; no counterpart in /repo. -/
def exec (M : Nat) (O : Obs Nat ε σ) (kill : σ → σ) (s : σ) (ls : List Lbl) : St σ :=
  ls.foldl (step M O kill) { obs := s }

/-- The first `n` values: 0, 1, 2, … in the arithmetic of `size_t`. -/
def values (M n : Nat) : List Nat := (List.range n).map (· % M)

theorem values_succ (M n : Nat) : values M (n + 1) = values M n ++ [n % M] := by
  simp [values, List.range_succ]

/-- The calls of the function, read off the log; no counterpart in /repo. -/
def calls (M n : Nat) : List (Call Nat ε) := (values M n).map .next

theorem traceOf_calls (M n : Nat) : traceOf (calls (ε := ε) M n) = ⟨values M n, none⟩ := by
  unfold calls
  induction values M n with
  | nil => rfl
  | cons a l ih => simp [traceOf, ih]

theorem upsOf_calls (M n : Nat) : upsOf (calls (ε := ε) M n) = [] := by
  unfold calls
  induction values M n with
  | nil => rfl
  | cons a l ih => simp [upsOf, ih]

theorem exec_runs {O : Obs Nat ε σ} (h : Lawful O) (M : Nat) (k : σ → σ) (s : σ) (n : Nat) :
    (exec M O k s (List.replicate n .run)).obs = O.run s (calls M n) ∧
    ((exec M O k s (List.replicate n .run)).counter = n % M ∧ (exec M O k s (List.replicate n .run)).queued = true ∨
      O.isDisposed (exec M O k s (List.replicate n .run)).obs = true) := by
  induction n with
  | zero => exact ⟨rfl, .inl ⟨by simp [exec], rfl⟩⟩
  | succ n ih =>
    have e : exec M O k s (List.replicate (n + 1) .run) = step M O k (exec M O k s (List.replicate n .run)) .run := by
      rw [List.replicate_succ', exec, List.foldl_append]; rfl
    rw [e]
    obtain ⟨h1, h2⟩ := ih
    generalize exec M O k s (List.replicate n Lbl.run) = x at *
    have e2 : O.run s (calls M (n + 1)) = O.call (.next (n % M)) x.obs := by
      rw [h1, calls, values_succ, List.map_append, Obs.run_append]; rfl
    by_cases hd : O.isDisposed x.obs = true
    · rw [e2, h.ignore _ _ hd rfl]
      cases hq : x.queued <;> simp [step, hq, hd]
    · obtain ⟨hc, hq⟩ := h2.resolve_right hd
      rw [e2]
      refine ⟨by simp [step, hq, hd, hc, Obs.call], .inl ⟨?_, by simp [step, hq, hd]⟩⟩
      simp only [step, hq, hd, hc, Bool.not_true, Bool.false_eq_true, if_false]
      exact Nat.mod_add_mod n M 1

theorem step_disposed {O : Obs Nat ε σ} (M : Nat) (k : σ → σ) (s : St σ)
    (hd : O.isDisposed s.obs = true) : (step M O k s .run).obs = s.obs := by
  simp only [step]; split
  · rfl
  · simp [hd]

theorem killed {O : Obs Nat ε σ} {k : σ → σ} (hk : ∀ s, O.isDisposed (k s) = true)
    (M : Nat) (ls : List Lbl) : ∀ s : St σ, O.isDisposed s.obs = true →
    (ls.foldl (step M O k) s).obs = From.kills k s.obs ls := by
  induction ls with
  | nil => intro s _; rfl
  | cons l ls ih =>
    intro s hs
    cases l with
    | kill => exact ih _ (hk _)
    | run =>
      have e := step_disposed (O := O) M k s hs
      rw [List.foldl_cons, ih _ (by rw [e]; exact hs), e]; rfl

/-! ## The times: what is common to all schedulers -/

/-- What can be seen of tasks on a scheduler: task `id` is scheduled for a time, its function is entered at a time
(there `interval` emits), its function returns. -/
inductive PEv where
  | call (id : Nat) (due : Int)
  | start (id : Nat) (t : Int)
  | fin (id : Nat) (r : Sched.Res)
deriving DecidableEq, Repr

/-- Runs of task `id` so far: the value emitted by the next run. -/
def runs (id : Nat) (l : List PEv) : Nat := l.countP fun | .start i _ => i == id | _ => false

/-- The ends, read off the log; no counterpart in /repo. -/
def fins (id : Nat) (l : List PEv) : Nat := l.countP fun | .fin i _ => i == id | _ => false

/-- The calls of one function, read off the log; no counterpart in /repo. -/
def callsOf (id : Nat) (l : List PEv) : List Int :=
  l.filterMap fun | .call i d => if i = id then some d else none | _ => none

/-- Task `id` is an interval: scheduled once, for time `t0`, and every run returns the period. -/
structure IsInterval (id : Nat) (t0 p : Int) (l : List PEv) : Prop where
  once : callsOf id l = [t0]
  period : ∀ r, .fin id r ∈ l → r = .again p

/-- The property: the run emitting value `k` does not start before `t0 + k * p`. -/
def NotEarly (id : Nat) (t0 p : Int) (l : List PEv) : Prop :=
  ∀ pre t post, l = pre ++ .start id t :: post → t0 + runs id pre * p ≤ t

/-- The time asked for by the returned periods. -/
def base (id : Nat) (p : Int) (l : List PEv) : Option Int :=
  l.foldl (fun r ev => match ev with
    | .call i d => if i = id then some d else r
    | .fin i _ => if i = id then r.map (· + p) else r
    | _ => r) none

/-- Runs of a task do not overlap: one starts when as many have ended, and ends when one more has started. -/
def Alt (id : Nat) (l : List PEv) : Prop :=
  (∀ pre t post, l = pre ++ .start id t :: post → runs id pre = fins id pre) ∧
  ∀ pre r post, l = pre ++ .fin id r :: post → runs id pre = fins id pre + 1

theorem base_snoc (id : Nat) (p : Int) (l : List PEv) (ev : PEv) : base id p (l ++ [ev]) = (match ev with
    | .call i d => if i = id then some d else base id p l
    | .fin i _ => if i = id then (base id p l).map (· + p) else base id p l
    | _ => base id p l) := by
  simp only [base, List.foldl_append, List.foldl_cons, List.foldl_nil]

theorem runs_snoc (id : Nat) (l : List PEv) (ev : PEv) :
    runs id (l ++ [ev]) = runs id l + (match ev with | .start i _ => if i = id then 1 else 0 | _ => 0) := by
  simp only [runs, List.countP_append, List.countP_singleton]
  cases ev <;> simp

theorem fins_snoc (id : Nat) (l : List PEv) (ev : PEv) :
    fins id (l ++ [ev]) = fins id l + (match ev with | .fin i _ => if i = id then 1 else 0 | _ => 0) := by
  simp only [fins, List.countP_append, List.countP_singleton]
  cases ev <;> simp

theorem callsOf_snoc (id : Nat) (l : List PEv) (ev : PEv) :
    callsOf id (l ++ [ev]) = callsOf id l ++ (match ev with | .call i d => if i = id then [d] else [] | _ => []) := by
  simp only [callsOf, List.filterMap_append]
  cases ev with
  | call i d => simp only [List.filterMap_cons, List.filterMap_nil]; split <;> simp_all
  | _ => simp

theorem Alt.init {id : Nat} {l : List PEv} {ev : PEv} (h : Alt id (l ++ [ev])) : Alt id l :=
  ⟨fun pre t post he => h.1 pre t (post ++ [ev]) (by simp [he]),
   fun pre r post he => h.2 pre r (post ++ [ev]) (by simp [he])⟩

theorem Alt.snoc {id : Nat} {l : List PEv} {ev : PEv} (h : Alt id l)
    (hs : ∀ t, ev = .start id t → runs id l = fins id l) (hf : ∀ r, ev = .fin id r → runs id l = fins id l + 1) :
    Alt id (l ++ [ev]) := by
  constructor
  · intro pre t post he
    rcases Sched.QueueRun.snoc_eq he with ⟨rfl, h2, _⟩ | ⟨post', _, h2⟩
    · exact hs t h2
    · exact h.1 _ _ _ h2
  · intro pre r post he
    rcases Sched.QueueRun.snoc_eq he with ⟨rfl, h2, _⟩ | ⟨post', _, h2⟩
    · exact hf r h2
    · exact h.2 _ _ _ h2

/-- The time asked for, in closed form. -/
theorem base_closed {id : Nat} {t0 p : Int} (l : List PEv) (ha : Alt id l)
    (hs : ∀ pre t post, l = pre ++ .start id t :: post → base id p pre ≠ none) :
    (callsOf id l = [] → runs id l = 0 ∧ fins id l = 0 ∧ base id p l = none) ∧
    (callsOf id l = [t0] → base id p l = some (t0 + fins id l * p)) := by
  induction l using Sched.snoc_ind with
  | h0 => simp [callsOf, runs, fins, base]
  | h1 l ev ih =>
    have hs' : ∀ pre t post, l = pre ++ .start id t :: post → base id p pre ≠ none :=
      fun pre t post he => hs pre t (post ++ [ev]) (by simp [he])
    obtain ⟨ih1, ih2⟩ := ih ha.init hs'
    simp only [callsOf_snoc, runs_snoc, fins_snoc, base_snoc]
    cases ev with
    | call i d =>
      by_cases hi : i = id
      · subst hi
        simp only [if_true]
        refine ⟨by simp, fun h => ?_⟩
        have h1 : callsOf i l = [] := by
          have := congrArg List.length h
          simp at this; exact this
        rw [h1] at h
        simp at h
        rw [(ih1 h1).2.1, h]; simp
      · simp only [hi, if_false, List.append_nil, Nat.add_zero]; exact ⟨ih1, ih2⟩
    | start i t =>
      simp only [List.append_nil, Nat.add_zero]
      refine ⟨fun h => ?_, ih2⟩
      by_cases hi : i = id
      · subst hi
        exact absurd (ih1 h).2.2 (hs l t [] rfl)
      · simp only [hi, if_false, Nat.add_zero]; exact ih1 h
    | fin i r =>
      simp only [List.append_nil]
      by_cases hi : i = id
      · subst hi
        simp only [if_true]
        have hb := ha.2 l r [] rfl
        refine ⟨fun h => ?_, fun h => ?_⟩
        · have := ih1 h; omega
        · rw [ih2 h]
          simp only [Option.map_some, Option.some.injEq]
          have : ((fins i l + 1 : Nat) : Int) * p = fins i l * p + p := by
            rw [Int.natCast_add, Int.add_mul]; simp
          rw [this]; omega
      · simp only [hi, if_false, Nat.add_zero]; exact ⟨ih1, ih2⟩

/-- The common argument: a scheduler that never runs a task before its time and never runs it twice at once keeps
intervals. -/
theorem notEarly_of {id : Nat} {t0 p : Int} {l : List PEv} (hi : IsInterval id t0 p l) (ha : Alt id l)
    (hb : ∀ pre t post, l = pre ++ .start id t :: post → ∃ b, base id p pre = some b ∧ b ≤ t) :
    NotEarly id t0 p l := by
  intro pre t post he
  obtain ⟨b, h1, h2⟩ := hb pre t post he
  have hapre : Alt id pre :=
    ⟨fun q u r hq => ha.1 q u (r ++ .start id t :: post) (by simp [he, hq]),
     fun q u r hq => ha.2 q u (r ++ .start id t :: post) (by simp [he, hq])⟩
  have hpre : ∀ q u r, pre = q ++ .start id u :: r → base id p q ≠ none := by
    intro q u r hq
    obtain ⟨b', hb', _⟩ := hb q u (r ++ .start id t :: post) (by simp [he, hq])
    simp [hb']
  have key := base_closed (t0 := t0) (p := p) pre hapre hpre
  have hc : callsOf id pre = [t0] := by
    have h3 := hi.once
    rw [he] at h3
    simp only [callsOf, List.filterMap_append] at h3
    cases hx : callsOf id pre with
    | nil => have := (key.1 hx).2.2; rw [h1] at this; cases this
    | cons y ys =>
      simp only [callsOf] at hx
      rw [hx] at h3
      simp at h3
      simp [h3.1, h3.2.1]
  have h4 := key.2 hc
  rw [h1] at h4
  cases h4
  rw [ha.1 pre t post he]
  exact h2

/-- Events of a scheduler's log, as seen through `f`. -/
theorem split_filterMap {β : Type} {f : β → Option PEv} {log : List β} {pre post : List PEv} {ev : PEv}
    (h : log.filterMap f = pre ++ ev :: post) :
    ∃ a x b, log = a ++ x :: b ∧ f x = some ev ∧ a.filterMap f = pre ∧ b.filterMap f = post := by
  obtain ⟨l1, l2, h1, h2, h3⟩ := List.filterMap_eq_append_iff.1 h
  obtain ⟨u, x, b, h4, h5, h6, h7⟩ := List.filterMap_eq_cons_iff.1 h3
  refine ⟨l1 ++ u, x, b, by simp [h1, h4], h6, ?_, h7⟩
  rw [List.filterMap_append, h2, List.filterMap_eq_nil_iff.2 h5, List.append_nil]

end Rpp.Interval
