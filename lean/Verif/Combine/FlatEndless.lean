import Verif.Combine.MergeMixedProps

/-!
# C130: endlessly many endless sources flattened on current_thread

`merge` (and `flat_map`, which is `map` and `merge`) of a `from_iterable` without end whose values are themselves `from_iterable` without end, all on `current_thread`, their default.
The order of the tasks is that of C70, first come, first served; tasks are dropped once their observer is disposed.
-/

namespace Rpp.FlatEndless

/-- The queue of `current_thread` (`none`: the outer source's task, `some b`: that of the `b`-th inner source), how many inner sources have been subscribed to, the `index` of each inner task (sources/from.hpp 54, 67), and the observer. -/
structure St (σ : Type) where
  queue : List (Option Nat)
  next : Nat := 0
  idx : Nat → Nat := fun _ => 0
  obs : σ

/-- One turn of `drain_queue`: a task whose observer is disposed is dropped before and after it runs, otherwise it goes to the end of the queue.
The outer task hands over the next inner source, which merge subscribes to at once: its task goes to the end of the queue, and the outer one behind it.  An inner task hands over a value, which merge forwards.
Simplifications: all time points are due (C70); merge's disposable is disposed exactly if the observer is (C03). (schedulers/current_thread.hpp 104-137, 166; sources/from.hpp 53-72; merge.hpp 105-109, 121-126) -/
def step (O : Obs δ ε σ) (x : Nat → Nat → δ) (s : St σ) : St σ :=
  match s.queue with
  | [] => s
  | none :: q =>
    if O.isDisposed s.obs then { s with queue := q }
    else { s with queue := q ++ [some s.next, none], next := s.next + 1 }
  | some b :: q =>
    if O.isDisposed s.obs then { s with queue := q }
    else
      let o := O.onNext (x b (s.idx b)) s.obs
      { s with queue := if O.isDisposed o then q else q ++ [some b], obs := o, idx := fun c => if c = b then s.idx b + 1 else s.idx c }

/-- `k` turns after the outer source has been subscribed to: merge owns the queue meanwhile (`own_current_queue`), so that its task waits; a disposed observer's task is not scheduled at all. (merge.hpp 29-33, 129-145; schedulers/current_thread.hpp 145-166) -/
def exec (O : Obs δ ε σ) (x : Nat → Nat → δ) (s : σ) (k : Nat) : St σ :=
  Nat.repeat (step O x) k { queue := if O.isDisposed (O.call (.up 0) s) then [] else [none], obs := O.call (.up 0) s }

/-! ## Specification -/

/-- What `R` rounds show: round `k` is the `k`-th diagonal, value number `k - 1` of inner source 0, `k - 2` of inner source 1, …, 0 of inner source `k - 1`.  Specification; models no code. -/
def shown (x : Nat → Nat → δ) (R : Nat) : List δ := (List.range R).flatMap fun k => (List.range k).map fun b => x b (k - 1 - b)

/-! ## Proofs -/

section
variable {O : Obs δ ε σ} {x : Nat → Nat → δ}

theorem empty_stays (k : Nat) {s : St σ} (h : s.queue = []) : Nat.repeat (step O x) k s = s := by
  induction k with
  | zero => rfl
  | succ k ih => show step O x (Nat.repeat _ k s) = s; rw [ih]; simp only [step, h]

/-- The tasks of a disposed observer are dropped one after the other. -/
theorem drops (q : List (Option Nat)) : ∀ {s : St σ}, O.isDisposed s.obs = true → s.queue = q → Nat.repeat (step O x) q.length s = { s with queue := [] } := by
  induction q with
  | nil => intro s _ hq; cases s; cases hq; rfl
  | cons b q ih =>
    intro s hd hq
    rw [List.length_cons, Nat.add_comm, SyncPair.repeat_add]
    have h1 : Nat.repeat (step O x) 1 s = { s with queue := q } := by
      show step O x s = _
      unfold step
      rw [hq]
      cases b <;> simp only [hd] <;> rfl
    rw [h1, ih (s := { s with queue := q }) hd rfl]

/-- The inner sources' turns of a round. -/
theorem a_round (hl : Lawful O) (l : List Nat) : ∀ (d : List Nat) (s : St σ), s.queue = l.map some ++ none :: d.map some → l.Nodup → O.isDisposed s.obs = false →
    ∃ t, (Nat.repeat (step O x) t s).obs = O.run s.obs ((l.map fun b => x b (s.idx b)).map .next) ∧
      ((O.isDisposed (O.run s.obs ((l.map fun b => x b (s.idx b)).map .next)) = true ∧ (Nat.repeat (step O x) t s).queue = [] ∧ (Nat.repeat (step O x) t s).next = s.next) ∨
       (O.isDisposed (O.run s.obs ((l.map fun b => x b (s.idx b)).map .next)) = false ∧ (Nat.repeat (step O x) t s).queue = none :: (d ++ l).map some ∧
        (Nat.repeat (step O x) t s).next = s.next ∧ ∀ c, (Nat.repeat (step O x) t s).idx c = if c ∈ l then s.idx c + 1 else s.idx c)) := by
  induction l with
  | nil =>
    intro d s hq _ hd
    refine ⟨0, rfl, .inr ⟨hd, ?_, rfl, fun c => by simp [Nat.repeat]⟩⟩
    rw [List.append_nil]
    exact hq
  | cons b l ih =>
    intro d s hq hnd hd
    have hnd' := List.nodup_cons.1 hnd
    have hst : step O x s = { s with queue := if O.isDisposed (O.onNext (x b (s.idx b)) s.obs) then l.map some ++ none :: d.map some else (l.map some ++ none :: d.map some) ++ [some b], obs := O.onNext (x b (s.idx b)) s.obs, idx := fun c => if c = b then s.idx b + 1 else s.idx c } := by
      unfold step
      rw [hq]
      simp only [List.map_cons, List.cons_append, hd]
      rfl
    have hrun : O.run s.obs (((b :: l).map fun b => x b (s.idx b)).map .next) = O.run (O.onNext (x b (s.idx b)) s.obs) ((l.map fun b => x b (s.idx b)).map .next) := rfl
    by_cases hod : O.isDisposed (O.onNext (x b (s.idx b)) s.obs) = true
    · rw [if_pos hod] at hst
      rw [hrun, SyncResub.nexts_gone hl hod]
      have h2 := drops (O := O) (x := x) (l.map some ++ none :: d.map some) (s := { s with queue := l.map some ++ none :: d.map some, obs := O.onNext (x b (s.idx b)) s.obs, idx := fun c => if c = b then s.idx b + 1 else s.idx c }) hod rfl
      refine ⟨1 + (l.map some ++ none :: d.map some).length, ?_, .inl ⟨hod, ?_, ?_⟩⟩
      · rw [SyncPair.repeat_add]
        show (Nat.repeat (step O x) _ (step O x s)).obs = _
        rw [hst, h2]
      · rw [SyncPair.repeat_add]
        show (Nat.repeat (step O x) _ (step O x s)).queue = _
        rw [hst, h2]
      · rw [SyncPair.repeat_add]
        show (Nat.repeat (step O x) _ (step O x s)).next = _
        rw [hst, h2]
    · have hod' : O.isDisposed (O.onNext (x b (s.idx b)) s.obs) = false := Bool.eq_false_iff.2 hod
      rw [if_neg hod] at hst
      obtain ⟨t, h1, h2⟩ := ih (d ++ [b]) { s with queue := (l.map some ++ none :: d.map some) ++ [some b], obs := O.onNext (x b (s.idx b)) s.obs, idx := fun c => if c = b then s.idx b + 1 else s.idx c } (by simp) hnd'.2 hod'
      have hmap : (l.map fun c => x c (if c = b then s.idx b + 1 else s.idx c)) = l.map fun c => x c (s.idx c) := by
        apply List.map_congr_left
        intro c hc
        have hcb : c ≠ b := fun h => hnd'.1 (h ▸ hc)
        rw [if_neg hcb]
      simp only [hmap] at h1 h2
      rw [hrun]
      refine ⟨1 + t, ?_, ?_⟩
      · rw [SyncPair.repeat_add]
        show (Nat.repeat (step O x) _ (step O x s)).obs = _
        rw [hst]; exact h1
      · rw [SyncPair.repeat_add]
        show (_ ∧ (Nat.repeat (step O x) _ (step O x s)).queue = _ ∧ (Nat.repeat (step O x) _ (step O x s)).next = _) ∨ (_ ∧ (Nat.repeat (step O x) _ (step O x s)).queue = _ ∧ (Nat.repeat (step O x) _ (step O x s)).next = _ ∧ ∀ c, (Nat.repeat (step O x) _ (step O x s)).idx c = _)
        rw [hst]
        rcases h2 with h | ⟨g1, g2, g3, g4⟩
        · exact .inl h
        · refine .inr ⟨g1, ?_, g3, fun c => ?_⟩
          · rw [g2, List.append_assoc]; rfl
          · rw [g4 c]
            by_cases hc : c = b
            · subst hc
              rw [if_neg hnd'.1, if_pos rfl, if_pos (List.mem_cons_self ..)]
            · simp [hc]

/-- The outer source's turn. -/
theorem outer_step {s : St σ} {q : List (Option Nat)} (hd : O.isDisposed s.obs = false) (hq : s.queue = none :: q) : step O x s = { s with queue := q ++ [some s.next, none], next := s.next + 1 } := by
  unfold step
  rw [hq]
  simp only [hd]
  rfl

theorem shown_succ (R : Nat) : shown x (R + 1) = shown x R ++ (List.range R).map fun b => x b (R - 1 - b) := by
  unfold shown
  rw [List.range_succ, List.flatMap_append, List.flatMap_singleton]

/-- Round after round. -/
theorem rounds (hl : Lawful O) {s : σ} (R : Nat) (hmin : ∀ j < R, O.isDisposed (O.run (O.call (.up 0) s) ((shown x j).map .next)) = false) :
    ∃ t, R ≤ t ∧ (exec O x s t).obs = O.run (O.call (.up 0) s) ((shown x R).map .next) ∧
      ((O.isDisposed (O.run (O.call (.up 0) s) ((shown x R).map .next)) = true ∧ (exec O x s t).queue = [] ∧ (exec O x s t).next = R - 1) ∨
       (O.isDisposed (O.run (O.call (.up 0) s) ((shown x R).map .next)) = false ∧ (exec O x s t).queue = (List.range R).map some ++ [none] ∧
        (exec O x s t).next = R ∧ ∀ c, (exec O x s t).idx c = R - 1 - c)) := by
  induction R with
  | zero =>
    refine ⟨0, Nat.le_refl _, rfl, ?_⟩
    show (O.isDisposed (O.call (.up 0) s) = true ∧ (if O.isDisposed (O.call (.up 0) s) then [] else [none]) = [] ∧ 0 = 0 - 1) ∨ (O.isDisposed (O.call (.up 0) s) = false ∧ (if O.isDisposed (O.call (.up 0) s) then [] else [none]) = [none] ∧ 0 = 0 ∧ ∀ c, 0 = 0 - 1 - c)
    cases O.isDisposed (O.call (.up 0) s) with
    | true => exact .inl ⟨rfl, rfl, rfl⟩
    | false => exact .inr ⟨rfl, rfl, rfl, fun c => by omega⟩
  | succ R ih =>
    have hR := hmin R (by omega)
    obtain ⟨t, ht, h1, h2⟩ := ih fun j hj => hmin j (by omega)
    rcases h2 with ⟨h2, _⟩ | ⟨_, h4, h5, h6⟩
    · rw [hR] at h2; cases h2
    · obtain ⟨t', g1, g2⟩ := a_round (O := O) (x := x) hl (List.range R) [] (exec O x s t) h4 List.nodup_range (by rw [h1]; exact hR)
      have hex : ∀ j, exec O x s (t + j) = Nat.repeat (step O x) j (exec O x s t) := fun j => SyncPair.repeat_add _ t j _
      have hmap : ((List.range R).map fun b => x b ((exec O x s t).idx b)) = (List.range R).map fun b => x b (R - 1 - b) := List.map_congr_left fun b _ => by rw [h6]
      have hrun : O.run (O.call (.up 0) s) ((shown x (R + 1)).map .next) = O.run (exec O x s t).obs (((List.range R).map fun b => x b ((exec O x s t).idx b)).map .next) := by
        rw [shown_succ, List.map_append, Obs.run_append, h1, hmap]
      rw [hrun]
      rcases g2 with ⟨g2, g3, g4⟩ | ⟨g2, g3, g4, g5⟩
      · refine ⟨t + (t' + 1), by omega, ?_, .inl ⟨g2, ?_, ?_⟩⟩
        · rw [hex, SyncPair.repeat_add, empty_stays 1 g3]; exact g1
        · rw [hex, SyncPair.repeat_add, empty_stays 1 g3]; exact g3
        · rw [hex, SyncPair.repeat_add, empty_stays 1 g3, g4, h5]; rfl
      · have hd : O.isDisposed (Nat.repeat (step O x) t' (exec O x s t)).obs = false := by rw [g1]; exact g2
        have hst : step O x (Nat.repeat (step O x) t' (exec O x s t)) = { Nat.repeat (step O x) t' (exec O x s t) with queue := (List.range R).map some ++ [some R, none], next := R + 1 } := by
          rw [outer_step hd g3, g4, h5]
          rfl
        refine ⟨t + (t' + 1), by omega, ?_, .inr ⟨g2, ?_, ?_, fun c => ?_⟩⟩
        · rw [hex]
          show (step O x (Nat.repeat (step O x) t' (exec O x s t))).obs = _
          rw [hst]; exact g1
        · rw [hex]
          show (step O x (Nat.repeat (step O x) t' (exec O x s t))).queue = _
          rw [hst, List.range_succ]
          simp
        · rw [hex]
          show (step O x (Nat.repeat (step O x) t' (exec O x s t))).next = _
          rw [hst]
        · rw [hex]
          show (step O x (Nat.repeat (step O x) t' (exec O x s t))).idx c = _
          rw [hst]
          show (Nat.repeat (step O x) t' (exec O x s t)).idx c = _
          rw [g5, h6]
          by_cases hc : c < R
          · rw [if_pos (List.mem_range.2 hc)]; omega
          · rw [if_neg fun h => hc (List.mem_range.1 h)]; omega

end

end Rpp.FlatEndless
