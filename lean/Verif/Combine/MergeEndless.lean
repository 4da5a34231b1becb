import Verif.Combine.TurnsEndlessProps

/-!
# C128: any number of endless sources merged on current_thread

`merge_with` of `from_iterable` over containers without end on `current_thread`, their default.
The order of the tasks is that of C70, first come, first served; here tasks are dropped once their observer is disposed.
-/

namespace Rpp.MergeEndless

/-- The queue of `current_thread` (the numbers of the sources whose tasks wait), the `index` of each task (sources/from.hpp 54, 67), and the observer. -/
structure St (σ : Type) where
  queue : List Nat
  idx : Nat → Nat := fun _ => 0
  obs : σ

/-- One run of the task of source `b`: it hands over a value, which merge forwards at once, and asks to be run again. (sources/from.hpp 53-72, merge.hpp 105-109) -/
def run (O : Obs δ ε σ) (x : Nat → Nat → δ) (s : St σ) (b : Nat) : St σ :=
  { s with obs := O.onNext (x b (s.idx b)) s.obs, idx := fun c => if c = b then s.idx b + 1 else s.idx c }

/-- One turn of `drain_queue`: a task whose observer is disposed is dropped before and after it runs, otherwise it goes to the end of the queue.
Simplifications: all time points are due (C70); merge's disposable is disposed exactly if the observer is (C03). (schedulers/current_thread.hpp 104-137) -/
def step (O : Obs δ ε σ) (x : Nat → Nat → δ) (s : St σ) : St σ :=
  match s.queue with
  | [] => s
  | b :: q =>
    if O.isDisposed s.obs then { s with queue := q }
    else
      let s := run O x s b
      { s with queue := if O.isDisposed s.obs then q else q ++ [b] }

/-- `k` turns after all sources have been subscribed to, the main one (number 0) first, then the `m` others in order; a disposed observer's task is not scheduled at all. (merge.hpp 29-33, 166-185, schedulers/current_thread.hpp 145-166) -/
def exec (O : Obs δ ε σ) (m : Nat) (x : Nat → Nat → δ) (s : σ) (k : Nat) : St σ :=
  Nat.repeat (step O x) k { queue := if O.isDisposed (O.call (.up 0) s) then [] else List.range (m + 1), obs := O.call (.up 0) s }

/-! ## Specification -/

/-- What the first `k` turns show if `n` sources take turns: turn `j` is that of source `j % n`, and it is its turn number `j / n`.  Specification; models no code. -/
def shown (n : Nat) (x : Nat → Nat → δ) (k : Nat) : List δ := (List.range k).map fun j => x (j % n) (j / n)

/-- How many of the first `k` turns are those of source `b`.  Specification; models no code. -/
def turns (n b k : Nat) : Nat := (List.range k).countP fun j => j % n = b

/-! ## Proofs -/

theorem turns_succ (n b k : Nat) : turns n b (k + 1) = turns n b k + if k % n = b then 1 else 0 := by
  unfold turns
  rw [List.range_succ, List.countP_append]
  simp [List.countP_cons]

theorem turns_eq {n b : Nat} (hb : b < n) (q : Nat) : ∀ r, r ≤ n → turns n b (n * q + r) = q + if b < r then 1 else 0 := by
  induction q with
  | zero =>
    intro r
    induction r with
    | zero => intro _; rfl
    | succ r ih =>
      intro hr
      rw [← Nat.add_assoc, turns_succ, ih (by omega), Nat.mul_add_mod, Nat.mod_eq_of_lt (by omega)]
      grind
  | succ q ihq =>
    intro r
    induction r with
    | zero =>
      intro _
      have := ihq n (Nat.le_refl _)
      rw [if_pos hb] at this
      rw [Nat.mul_succ, Nat.add_zero, this]
      simp
    | succ r ih =>
      intro hr
      rw [← Nat.add_assoc, turns_succ, ih (by omega), Nat.mul_add_mod, Nat.mod_eq_of_lt (by omega)]
      grind

theorem turns_own (m k : Nat) : turns (m + 1) (k % (m + 1)) k = k / (m + 1) := by
  have h := turns_eq (Nat.mod_lt k (Nat.succ_pos m)) (k / (m + 1)) (k % (m + 1)) (Nat.le_of_lt (Nat.mod_lt k (Nat.succ_pos m)))
  rw [Nat.div_add_mod, if_neg (Nat.lt_irrefl _), Nat.add_zero] at h
  exact h

/-- The others after whose turn it is. -/
def rest (m k : Nat) : List Nat := (List.range m).map fun d => (k + (d + 1)) % (m + 1)

/-- Whose turn it is. -/
def turn (m k : Nat) : List Nat := (k % (m + 1)) :: rest m k

theorem turn_eq (m k : Nat) : turn m k = (List.range (m + 1)).map fun d => (k + d) % (m + 1) := by
  rw [List.range_succ_eq_map, List.map_cons, List.map_map]
  rfl

theorem turn_succ (m k : Nat) : turn m (k + 1) = rest m k ++ [k % (m + 1)] := by
  rw [turn_eq, List.range_succ, List.map_append, List.map_singleton, show k + 1 + m = k + (m + 1) by omega, Nat.add_mod_right]
  congr 1
  apply List.map_congr_left
  intro d _
  rw [show k + 1 + d = k + (d + 1) by omega]

theorem turn_zero (m : Nat) : turn m 0 = List.range (m + 1) := by
  unfold turn rest
  rw [List.range_succ_eq_map]
  congr 1
  apply List.map_congr_left
  intro d hd
  have := List.mem_range.1 hd
  rw [Nat.zero_add, Nat.mod_eq_of_lt (by omega)]

section
variable {O : Obs δ ε σ} {m : Nat} {x : Nat → Nat → δ}

/-- The state after `k` turns in which nobody was disposed. -/
def after (O : Obs δ ε σ) (m : Nat) (x : Nat → Nat → δ) (o : σ) (q : List Nat) (k : Nat) : St σ :=
  { queue := q, idx := fun b => turns (m + 1) b k, obs := O.run o ((shown (m + 1) x k).map .next) }

theorem run_shown (o : σ) (n k : Nat) : O.run o ((shown n x (k + 1)).map .next) = O.onNext (x (k % n) (k / n)) (O.run o ((shown n x k).map .next)) := by
  unfold shown
  rw [List.range_succ, List.map_append, List.map_append, Obs.run_append]
  rfl

theorem run_after (o : σ) (q : List Nat) (k : Nat) : run O x (after O m x o q k) (k % (m + 1)) = after O m x o q (k + 1) := by
  have h : (fun c => if c = k % (m + 1) then turns (m + 1) (k % (m + 1)) k + 1 else turns (m + 1) c k) = fun b => turns (m + 1) b (k + 1) := by
    funext c
    rw [turns_succ]
    by_cases hc : c = k % (m + 1)
    · rw [if_pos hc, if_pos hc.symm, hc]
    · rw [if_neg hc, if_neg fun h => hc h.symm]; rfl
  rw [turns_own] at h
  unfold run after
  rw [run_shown]
  simp only [h, turns_own]

theorem one_turn (o : σ) (k : Nat) (hd : O.isDisposed (O.run o ((shown (m + 1) x k).map .next)) = false) :
    step O x (after O m x o (turn m k) k)
      = after O m x o (if O.isDisposed (O.run o ((shown (m + 1) x (k + 1)).map .next)) then rest m k else turn m (k + 1)) (k + 1) := by
  have hd' : O.isDisposed (after O m x o (turn m k) k).obs = false := hd
  unfold step
  rw [show (after O m x o (turn m k) k).queue = (k % (m + 1)) :: rest m k from rfl]
  simp only [hd', run_after, turn_succ]
  rfl

theorem not_gone (hl : Lawful O) {o : σ} {k : Nat} (hd : O.isDisposed (O.run o ((shown (m + 1) x (k + 1)).map .next)) = false) : O.isDisposed (O.run o ((shown (m + 1) x k).map .next)) = false := by
  rw [run_shown] at hd
  cases h : O.isDisposed (O.run o ((shown (m + 1) x k).map .next)) with
  | false => rfl
  | true =>
    have h2 := SyncResub.nexts_gone hl h [x (k % (m + 1)) (k / (m + 1))]
    have h3 : O.onNext (x (k % (m + 1)) (k / (m + 1))) (O.run o ((shown (m + 1) x k).map .next)) = _ := h2
    rw [h3, h] at hd
    cases hd

/-- The turns up to there. -/
theorem reaches (hl : Lawful O) {s : σ} (k : Nat) (hd : O.isDisposed (O.run (O.call (.up 0) s) ((shown (m + 1) x k).map .next)) = false) :
    exec O m x s k = after O m x (O.call (.up 0) s) (turn m k) k := by
  induction k with
  | zero =>
    have hd' : O.isDisposed (O.call (.up 0) s) = false := hd
    unfold exec
    rw [hd', turn_zero]
    rfl
  | succ k ih =>
    have h0 := not_gone hl hd
    show step O x (exec O m x s k) = _
    rw [ih h0, one_turn _ _ h0, hd]
    rfl

theorem empty_stays (k : Nat) {s : St σ} (h : s.queue = []) : Nat.repeat (step O x) k s = s := by
  induction k with
  | zero => rfl
  | succ k ih => show step O x (Nat.repeat _ k s) = s; rw [ih]; simp only [step, h]

/-- The tasks of a disposed observer are dropped one after the other. -/
theorem drops (q : List Nat) : ∀ {s : St σ}, O.isDisposed s.obs = true → s.queue = q → Nat.repeat (step O x) q.length s = { s with queue := [] } := by
  induction q with
  | nil => intro s _ hq; cases s; cases hq; rfl
  | cons b q ih =>
    intro s hd hq
    rw [List.length_cons, Nat.add_comm, SyncPair.repeat_add]
    have h1 : Nat.repeat (step O x) 1 s = { s with queue := q } := by
      show step O x s = _
      unfold step
      rw [hq]
      simp only [hd]
      rfl
    rw [h1, ih (s := { s with queue := q }) hd rfl]

/-- The last turn. -/
theorem stops (hl : Lawful O) {s : σ} (k : Nat) (hmin : ∀ j < k, O.isDisposed (O.run (O.call (.up 0) s) ((shown (m + 1) x j).map .next)) = false)
    (hd : O.isDisposed (O.run (O.call (.up 0) s) ((shown (m + 1) x k).map .next)) = true) :
    ∃ t, exec O m x s t = after O m x (O.call (.up 0) s) [] k := by
  cases k with
  | zero =>
    have hd' : O.isDisposed (O.call (.up 0) s) = true := hd
    refine ⟨0, ?_⟩
    unfold exec
    rw [hd']
    rfl
  | succ k =>
    have h0 := hmin k (by omega)
    refine ⟨k + 1 + (rest m k).length, ?_⟩
    unfold exec
    rw [SyncPair.repeat_add]
    have h1 : exec O m x s (k + 1) = after O m x (O.call (.up 0) s) (rest m k) (k + 1) := by
      show step O x (exec O m x s k) = _
      rw [reaches hl k h0, one_turn _ _ h0, hd]
      rfl
    unfold exec at h1
    rw [h1]
    exact drops (rest m k) (s := after O m x (O.call (.up 0) s) (rest m k) (k + 1)) hd rfl

end

end Rpp.MergeEndless
