import Verif.Combine.TurnsEndlessProps

/-!
# C127 with a selector that throws

Two endless sources on `current_thread` as in `TurnsEndless`, where the selector throws in some turn: until then everything is as if it did not, then the error is shown and both sources are let go.
-/

namespace Rpp.TurnsEndless

open SyncPair (Kind nextMain nextOther)

/-- What the selector is applied to in turn number `k`, if to anything.  Specification; models no code. -/
def pair (kd : Kind) (x : Nat → α) (y : Nat → β) (k : Nat) : Option (α × β) :=
  if k % 2 = 1 then some (x (k / 2), y (k / 2))
  else if kd = .latest ∧ 0 < k then some (x (k / 2 - 1), y (k / 2)) else none

section
variable {kd : Kind} {O : Obs δ ε σ} {g : α → β → δ} {x : Nat → α} {y : Nat → β} {f : α → β → Except ε δ}

theorem even_or_odd (k : Nat) : (∃ n, k = 2 * n) ∨ ∃ n, k = 2 * n + 1 := by
  rcases Nat.mod_two_eq_zero_or_one k with h | h
  · exact .inl ⟨k / 2, by omega⟩
  · exact .inr ⟨k / 2, by omega⟩

/-- A turn in which the selector does not throw. -/
theorem turn_ok (o : σ) (k : Nat) (hd : O.isDisposed (O.run o ((shown kd g x y k).map .next)) = false)
    (hok : ∀ ab, pair kd x y k = some ab → f ab.1 ab.2 = .ok (g ab.1 ab.2)) :
    step kd O f x y (after kd O g x y o (turn k) k) = step kd O (fun a b => .ok (g a b)) x y (after kd O g x y o (turn k) k) := by
  rcases even_or_odd k with ⟨n, rfl⟩ | ⟨n, rfl⟩
  · have e1 : 2 * n % 2 = 0 := by omega
    have e4 : 2 * n / 2 = n := by omega
    have e3 : (2 * n + 1) / 2 = n := by omega
    simp only [after]
    generalize O.run o ((shown kd g x y (2 * n)).map .next) = q at hd
    cases kd with
    | zip => simp [step, run, nextOther, turn, hd, e1, e3, e4]
    | withLatest => simp [step, run, nextOther, turn, hd, e1, e3, e4]
    | latest =>
      rcases Nat.eq_zero_or_pos n with rfl | hn
      · simp [step, run, nextOther, turn, hd]
      · have hn' : n ≠ 0 := by omega
        have h := hok (x (n - 1), y n) (by simp [pair, e1, e4, hn])
        simp only at h
        simp [step, run, nextOther, turn, hd, e1, e3, e4, hn', h]
  · have e1 : (2 * n + 1) % 2 = 1 := by omega
    have e3 : (2 * n + 1) / 2 = n := by omega
    have e4 : (2 * n + 1 + 1) / 2 = n + 1 := by omega
    have h := hok (x n, y n) (by simp [pair, e1, e3])
    simp only at h
    simp only [after]
    generalize O.run o ((shown kd g x y (2 * n + 1)).map .next) = q at hd
    cases kd with
    | zip => simp [step, run, nextMain, turn, hd, e1, e3, e4, h]
    | withLatest => simp [step, run, nextMain, turn, hd, e1, e3, e4, h]
    | latest => simp [step, run, nextMain, turn, hd, e1, e3, e4, h]

/-- The turn in which it does. -/
theorem turn_throws (hl : Lawful O) (o : σ) (k : Nat) (hd : O.isDisposed (O.run o ((shown kd g x y k).map .next)) = false)
    {ab : α × β} {e : ε} (hp : pair kd x y k = some ab) (hf : f ab.1 ab.2 = .error e) :
    ∃ s, step kd O f x y (after kd O g x y o (turn k) k) = s ∧ s.queue = (turn k).tail ∧ s.i = (k + 1 + 1) / 2 ∧ s.j = (k + 1) / 2 ∧
      s.op.obs = O.onError e (O.run o ((shown kd g x y k).map .next)) := by
  have ht : O.isDisposed (O.onError e (O.run o ((shown kd g x y k).map .next))) = true := hl.term _ (.error e) rfl
  rcases even_or_odd k with ⟨n, rfl⟩ | ⟨n, rfl⟩
  · have e1 : 2 * n % 2 = 0 := by omega
    have e4 : 2 * n / 2 = n := by omega
    have e3 : (2 * n + 1) / 2 = n := by omega
    have e5 : (2 * n + 1 + 1) / 2 = n + 1 := by omega
    simp only [after]
    generalize O.run o ((shown kd g x y (2 * n)).map .next) = q at hd ht
    cases kd with
    | zip => simp [pair, e1] at hp
    | withLatest => simp [pair, e1] at hp
    | latest =>
      rcases Nat.eq_zero_or_pos n with rfl | hn
      · simp [pair] at hp
      · have hn' : n ≠ 0 := by omega
        simp [pair, e1, e4, hn] at hp
        subst hp
        simp only at hf
        refine ⟨_, rfl, ?_⟩
        simp [step, run, nextOther, turn, hd, ht, e1, e3, e4, e5, hn', hf]
  · have e1 : (2 * n + 1) % 2 = 1 := by omega
    have e3 : (2 * n + 1) / 2 = n := by omega
    have e4 : (2 * n + 1 + 1) / 2 = n + 1 := by omega
    have e5 : (2 * n + 1 + 1 + 1) / 2 = n + 1 := by omega
    simp [pair, e1, e3] at hp
    subst hp
    simp only at hf
    simp only [after]
    generalize O.run o ((shown kd g x y (2 * n + 1)).map .next) = q at hd ht
    refine ⟨_, rfl, ?_⟩
    cases kd with
    | zip => simp [step, run, nextMain, turn, hd, ht, e1, e3, e4, e5, hf]
    | withLatest => simp [step, run, nextMain, turn, hd, ht, e1, e3, e4, e5, hf]
    | latest => simp [step, run, nextMain, turn, hd, ht, e1, e3, e4, e5, hf]

/-- The turns up to the first in which it throws. -/
theorem reaches_ok (hl : Lawful O) {s : σ} (k : Nat) (hd : ∀ j < k, O.isDisposed (O.run (O.call (.up 0) s) ((shown kd g x y j).map .next)) = false)
    (hok : ∀ j < k, ∀ ab, pair kd x y j = some ab → f ab.1 ab.2 = .ok (g ab.1 ab.2)) :
    exec kd O f x y s k = exec kd O (fun a b => .ok (g a b)) x y s k := by
  induction k with
  | zero => rfl
  | succ k ih =>
    show step kd O f x y (exec kd O f x y s k) = step kd O _ x y (exec kd O _ x y s k)
    rw [ih (fun j hj => hd j (by omega)) (fun j hj => hok j (by omega)), reaches hl k (hd k (by omega))]
    exact turn_ok _ _ (hd k (by omega)) (hok k (by omega))

/-- A task of a disposed observer is dropped. -/
theorem drop_one {s : St α β σ} {b : Bool} (hd : O.isDisposed s.op.obs = true) (hq : s.queue = [b]) : step kd O f x y s = { s with queue := [] } := by
  unfold step
  rw [hq]
  simp only [hd]
  rfl

theorem tail_one (k : Nat) : ∃ b, (turn k).tail = [b] := by unfold turn; split <;> exact ⟨_, rfl⟩

/-- The last turn, if it did not throw until then. -/
theorem stops_ok (hl : Lawful O) {s : σ} (k : Nat) (hmin : ∀ j < k, O.isDisposed (O.run (O.call (.up 0) s) ((shown kd g x y j).map .next)) = false)
    (hd : O.isDisposed (O.run (O.call (.up 0) s) ((shown kd g x y k).map .next)) = true)
    (hok : ∀ j < k, ∀ ab, pair kd x y j = some ab → f ab.1 ab.2 = .ok (g ab.1 ab.2)) :
    ∃ t, exec kd O f x y s t = after kd O g x y (O.call (.up 0) s) [] k := by
  cases k with
  | zero =>
    have hd' : O.isDisposed (O.call (.up 0) s) = true := hd
    refine ⟨0, ?_⟩
    unfold exec
    rw [hd']
    cases kd <;> rfl
  | succ k =>
    have h0 := hmin k (by omega)
    refine ⟨k + 2, ?_⟩
    show step kd O _ x y (exec kd O _ x y s (k + 1)) = _
    rw [reaches_ok hl (k + 1) hmin hok]
    show step kd O _ x y (step kd O _ x y (exec kd O _ x y s k)) = _
    rw [reaches hl k h0, one_turn _ _ h0, hd, if_pos rfl]
    obtain ⟨b, ht⟩ := tail_one k
    rw [ht]
    exact drop_one (s := after kd O g x y (O.call (.up 0) s) [b] (k + 1)) hd rfl

/-- The last turn, if it throws. -/
theorem stops_throws (hl : Lawful O) {s : σ} (k : Nat) (hd : O.isDisposed (O.run (O.call (.up 0) s) ((shown kd g x y k).map .next)) = false)
    (hok : ∀ j < k, ∀ ab, pair kd x y j = some ab → f ab.1 ab.2 = .ok (g ab.1 ab.2))
    {ab : α × β} {e : ε} (hp : pair kd x y k = some ab) (hf : f ab.1 ab.2 = .error e) :
    ∃ t s', exec kd O f x y s t = s' ∧ s'.queue = [] ∧ s'.i = (k + 2) / 2 ∧ s'.j = (k + 1) / 2 ∧ s'.op.obs = O.onError e (O.run (O.call (.up 0) s) ((shown kd g x y k).map .next)) := by
  have hmin : ∀ d j, j + d = k → O.isDisposed (O.run (O.call (.up 0) s) ((shown kd g x y j).map .next)) = false := by
    intro d
    induction d with
    | zero => intro j hj; rw [show j = k by omega]; exact hd
    | succ d ih => intro j hj; exact not_gone hl (ih (j + 1) (by omega))
  obtain ⟨s', h1, h2, h3, h4, h5⟩ := turn_throws (f := f) hl (O.call (.up 0) s) k hd hp hf
  obtain ⟨b, ht⟩ := tail_one k
  refine ⟨k + 2, { s' with queue := [] }, ?_, rfl, h3, h4, h5⟩
  show step kd O _ x y (step kd O _ x y (exec kd O _ x y s k)) = _
  rw [reaches_ok hl k (fun j hj => hmin (k - j) j (by omega)) hok, reaches hl k hd, h1]
  exact drop_one (by rw [h5]; exact hl.term _ (.error e) rfl) (h2.trans ht)

end

end Rpp.TurnsEndless
