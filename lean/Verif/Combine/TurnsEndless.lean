import Verif.Combine.TurnsProps

/-!
# C127: two endless sources take turns

`zip`, `combine_latest` and `with_latest_from` of two `from_iterable` over containers without end on `current_thread`, their default (on `immediate` the first of them never lets go: C122).
The order of the tasks is that of C70, first come, first served; here tasks are dropped once their observer is disposed.
-/

namespace Rpp.TurnsEndless

open SyncPair (Kind nextMain nextOther)

/-- The queue of `current_thread` (`true`: the main observable's task, `false`: the other's), the `index` of each task (sources/from.hpp 54, 67), and the operator's state. -/
structure St (α β σ : Type) where
  queue : List Bool
  i : Nat := 0
  j : Nat := 0
  op : SyncPair.St α β σ

/-- One run of a task: it hands over a value and asks to be run again. (sources/from.hpp 53-72; a throwing selector: observers/observer.hpp 84-97) -/
def run (kd : Kind) (O : Obs δ ε σ) (f : α → β → Except ε δ) (x : Nat → α) (y : Nat → β) (s : St α β σ) : Bool → St α β σ
  | false => { s with op := nextOther kd O f s.op (y s.i), i := s.i + 1 }
  | true => { s with op := nextMain kd O f s.op (x s.j), j := s.j + 1 }

/-- One turn of `drain_queue`: a task whose observer is disposed is dropped before and after it runs, otherwise it goes to the end of the queue.
Simplifications: all time points are due (C70); the operators' disposables are disposed exactly if the observer is (C03). (schedulers/current_thread.hpp 104-137) -/
def step (kd : Kind) (O : Obs δ ε σ) (f : α → β → Except ε δ) (x : Nat → α) (y : Nat → β) (s : St α β σ) : St α β σ :=
  match s.queue with
  | [] => s
  | b :: q =>
    if O.isDisposed s.op.obs then { s with queue := q }
    else
      let s := run kd O f x y s b
      { s with queue := if O.isDisposed s.op.obs then q else q ++ [b] }

/-- `k` turns after both have been subscribed to, the other one first; a disposed observer's task is not scheduled at all. (details/combining_strategy.hpp 102-120, with_latest_from.hpp 145-167, schedulers/current_thread.hpp 145-166) -/
def exec (kd : Kind) (O : Obs δ ε σ) (f : α → β → Except ε δ) (x : Nat → α) (y : Nat → β) (s : σ) (k : Nat) : St α β σ :=
  Nat.repeat (step kd O f x y) k { queue := if O.isDisposed (O.call (.up 0) s) then [] else [false, true], op := { obs := O.call (.up 0) s } }

/-! ## Specification -/

/-- What turn number `k` shows: in an even turn the other observable hands over a value, in an odd one the main one.  Specification; models no code. -/
def shows (kd : Kind) (g : α → β → δ) (x : Nat → α) (y : Nat → β) (k : Nat) : List δ :=
  if k % 2 = 1 then [g (x (k / 2)) (y (k / 2))]
  else if kd = .latest ∧ 0 < k then [g (x (k / 2 - 1)) (y (k / 2))] else []

/-- What the first `k` turns show.  Specification; models no code. -/
def shown (kd : Kind) (g : α → β → δ) (x : Nat → α) (y : Nat → β) (k : Nat) : List δ := (List.range k).flatMap (shows kd g x y)

/-! ## Proofs -/

section
variable {kd : Kind} {O : Obs δ ε σ} {g : α → β → δ} {x : Nat → α} {y : Nat → β}

/-- The state after `k` turns in which nobody was disposed. -/
def after (kd : Kind) (O : Obs δ ε σ) (g : α → β → δ) (x : Nat → α) (y : Nat → β) (o : σ) (q : List Bool) (k : Nat) : St α β σ :=
  { queue := q, i := (k + 1) / 2, j := k / 2
    op := { obs := O.run o ((shown kd g x y k).map .next)
            qa := match kd with | .latest => if k / 2 = 0 then [] else [x (k / 2 - 1)] | _ => []
            qb := match kd with | .zip => if k % 2 = 1 then [y (k / 2)] else [] | _ => if k = 0 then [] else [y ((k + 1) / 2 - 1)] } }

/-- Whose turn it is. -/
def turn (k : Nat) : List Bool := if k % 2 = 0 then [false, true] else [true, false]

theorem shown_succ (k : Nat) : shown kd g x y (k + 1) = shown kd g x y k ++ shows kd g x y k := by
  unfold shown
  rw [List.range_succ, List.flatMap_append, List.flatMap_singleton]

theorem run_shown (o : σ) (k : Nat) : O.run o ((shown kd g x y (k + 1)).map .next) = O.run (O.run o ((shown kd g x y k).map .next)) ((shows kd g x y k).map .next) := by
  rw [shown_succ, List.map_append, Obs.run_append]

theorem one_turn (o : σ) (k : Nat) (hd : O.isDisposed (O.run o ((shown kd g x y k).map .next)) = false) :
    step kd O (fun a b => .ok (g a b)) x y (after kd O g x y o (turn k) k)
      = after kd O g x y o (if O.isDisposed (O.run o ((shown kd g x y (k + 1)).map .next)) then (turn k).tail else turn (k + 1)) (k + 1) := by
  have hr := run_shown (kd := kd) (O := O) (g := g) (x := x) (y := y) o k
  have hk : (∃ n, k = 2 * n) ∨ ∃ n, k = 2 * n + 1 := by
    rcases Nat.mod_two_eq_zero_or_one k with h | h
    · exact .inl ⟨k / 2, by omega⟩
    · exact .inr ⟨k / 2, by omega⟩
  rcases hk with ⟨n, rfl⟩ | ⟨n, rfl⟩
  · have e1 : 2 * n % 2 = 0 := by omega
    have e2 : (2 * n + 1) % 2 = 1 := by omega
    have e3 : (2 * n + 1) / 2 = n := by omega
    have e4 : 2 * n / 2 = n := by omega
    have e5 : (2 * n + 1 + 1) / 2 = n + 1 := by omega
    simp only [after, hr]
    generalize O.run o ((shown kd g x y (2 * n)).map .next) = q at hd
    cases kd with
    | zip => simp [step, run, nextOther, turn, shows, hd, e1, e2, e3, e4, e5, Obs.run_nil]
    | withLatest => simp [step, run, nextOther, turn, shows, hd, e1, e2, e3, e4, e5, Obs.run_nil]
    | latest =>
      rcases Nat.eq_zero_or_pos n with rfl | hn
      · simp [step, run, nextOther, turn, shows, hd, Obs.run_nil]
      · have hn' : n ≠ 0 := by omega
        simp [step, run, nextOther, turn, shows, hd, e1, e2, e3, e4, e5, hn, hn', Obs.run, Obs.call]
  · have e1 : (2 * n + 1) % 2 = 1 := by omega
    have e2 : (2 * n + 1 + 1) % 2 = 0 := by omega
    have e3 : (2 * n + 1) / 2 = n := by omega
    have e4 : (2 * n + 1 + 1) / 2 = n + 1 := by omega
    have e5 : (2 * n + 1 + 1 + 1) / 2 = n + 1 := by omega
    simp only [after, hr]
    generalize O.run o ((shown kd g x y (2 * n + 1)).map .next) = q at hd
    cases kd with
    | zip => simp [step, run, nextMain, turn, shows, hd, e1, e2, e3, e4, e5, Obs.run, Obs.call]
    | withLatest => simp [step, run, nextMain, turn, shows, hd, e1, e2, e3, e4, e5, Obs.run, Obs.call]
    | latest => simp [step, run, nextMain, turn, shows, hd, e1, e2, e3, e4, e5, Obs.run, Obs.call]

theorem not_gone (hl : Lawful O) {o : σ} {k : Nat} (hd : O.isDisposed (O.run o ((shown kd g x y (k + 1)).map .next)) = false) : O.isDisposed (O.run o ((shown kd g x y k).map .next)) = false := by
  rw [run_shown] at hd
  cases h : O.isDisposed (O.run o ((shown kd g x y k).map .next)) with
  | false => rfl
  | true => rw [SyncResub.nexts_gone hl h, h] at hd; cases hd

/-- The turns up to there. -/
theorem reaches (hl : Lawful O) {s : σ} (k : Nat) (hd : O.isDisposed (O.run (O.call (.up 0) s) ((shown kd g x y k).map .next)) = false) :
    exec kd O (fun a b => .ok (g a b)) x y s k = after kd O g x y (O.call (.up 0) s) (turn k) k := by
  induction k with
  | zero =>
    have hd' : O.isDisposed (O.call (.up 0) s) = false := hd
    unfold exec
    rw [hd']
    cases kd <;> rfl
  | succ k ih =>
    have h0 := not_gone hl hd
    show step kd O _ x y (exec kd O _ x y s k) = _
    rw [ih h0, one_turn _ _ h0, hd]
    rfl

theorem empty_stays (f : α → β → Except ε δ) (k : Nat) {s : St α β σ} (h : s.queue = []) : Nat.repeat (step kd O f x y) k s = s := by
  induction k with
  | zero => rfl
  | succ k ih => show step kd O f x y (Nat.repeat _ k s) = s; rw [ih]; simp only [step, h]

/-- The last turn. -/
theorem stops (hl : Lawful O) {s : σ} (k : Nat) (hmin : ∀ j < k, O.isDisposed (O.run (O.call (.up 0) s) ((shown kd g x y j).map .next)) = false)
    (hd : O.isDisposed (O.run (O.call (.up 0) s) ((shown kd g x y k).map .next)) = true) :
    ∃ t, exec kd O (fun a b => .ok (g a b)) x y s t = after kd O g x y (O.call (.up 0) s) [] k := by
  cases k with
  | zero =>
    have hd' : O.isDisposed (O.call (.up 0) s) = true := hd
    refine ⟨0, ?_⟩
    unfold exec
    rw [hd']
    cases kd <;> rfl
  | succ k =>
    have h0 := hmin k (by omega)
    refine ⟨k + 2, ?_⟩
    show step kd O _ x y (step kd O _ x y (exec kd O _ x y s k)) = _
    rw [reaches hl k h0, one_turn _ _ h0, hd]
    have ht : ∃ b, (turn k).tail = [b] := by unfold turn; split <;> exact ⟨_, rfl⟩
    obtain ⟨b, ht⟩ := ht
    rw [if_pos rfl, ht]
    have hd' : O.isDisposed (after kd O g x y (O.call (.up 0) s) [b] (k + 1)).op.obs = true := hd
    unfold step
    rw [show (after kd O g x y (O.call (.up 0) s) [b] (k + 1)).queue = [b] from rfl]
    simp only [hd']
    rfl

end

end Rpp.TurnsEndless
