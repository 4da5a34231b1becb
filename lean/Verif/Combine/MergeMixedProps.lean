import Verif.Combine.MergeMixed

/-!
# C129: finite and endless sources merged on current_thread

`MergeMixed.longer l r` says that a container of this length has a value number `r`, `MergeMixed.shown n len x R` what `R` rounds of `n` sources of lengths `len` show; `SyncPair.Enough` says that a trace is all the subscriber needs (a completion always is).
-/

namespace Rpp

open MergeMixed
open SyncPair (Enough)

variable {γ δ ε : Type} [DecidableEq δ] [DecidableEq γ] [DecidableEq ε]

namespace MergeMixed

/-- A subscription to `from_iterable(x 0) | merge_with(from_iterable(x 1), …, from_iterable(x m)) | p`, `k` turns later; put together from cited definitions. -/
def sub (cap : Option Nat) (ov : ε) (react : List (Call γ ε) → Reaction ε) (p : Pipe ε δ γ) (m : Nat) (len : Nat → Option Nat) (x : Nat → Nat → δ) (k : Nat) : St (p.State (UserSt γ ε)) :=
  exec (p.lift (userObs cap ov react)) m len x (p.start (userObs cap ov react) {}) k

/-- What the callbacks were told; reads the model's state. -/
def sees {p : Pipe ε δ γ} (s : St (p.State (UserSt γ ε))) : List (Call γ ε) := evsOf (p.final s.obs).log

end MergeMixed

variable (cap : Option Nat) (ov : ε) (react : List (Call γ ε) → Reaction ε) (p : Pipe ε δ γ) (m : Nat) (len : Nat → Option Nat) (x : Nat → Nat → δ)

/-- C129: if what `R` rounds show, and not fewer, is all the subscriber needs, it is told exactly of that, and `subscribe` returns. -/
theorem C129_enough (hp : p.WF) (hfit : Fits cap (p.finals.length + 1)) (R : Nat) (hm : Enough react p (shown (m + 1) len x R)) (hmin : ∀ j < R, ¬ Enough react p (shown (m + 1) len x j)) :
    ∃ t, ∀ t' ≥ t, let s := MergeMixed.sub cap ov react p m len x t'
      s.queue = [] ∧ MergeMixed.sees s = SyncPair.told react p (shown (m + 1) len x R) := by
  have hl : Lawful (p.lift (userObs cap ov react)) := Pipe.lift_lawful p userObs_lawful
  have hg := fun t => SyncPair.gone_iff (cap := cap) (ov := ov) react p hp hfit t
  obtain ⟨t, _, h1, h2⟩ := rounds (m := m) (len := len) (x := x) hl R (fun j hj => (hg _).trans (Bool.eq_false_iff.2 (hmin j hj)))
  have hd := (hg (shown (m + 1) len x R)).trans hm
  have hq : (MergeMixed.sub cap ov react p m len x t).queue = [] := by
    rcases h2 with ⟨_, h⟩ | ⟨h, _⟩
    · exact h
    · rw [hd] at h; cases h
  refine ⟨t, fun t' ht' => ?_⟩
  obtain ⟨j, rfl⟩ := Nat.exists_eq_add_of_le ht'
  intro s
  have hs : s = Nat.repeat (MergeMixed.step (p.lift (userObs cap ov react)) len x) j (MergeMixed.sub cap ov react p m len x t) := SyncPair.repeat_add _ t j _
  rw [empty_stays j hq] at hs
  rw [hs]
  refine ⟨hq, ?_⟩
  have h := SyncPair.sees_told (cap := cap) (ov := ov) react p hp hfit (shown (m + 1) len x R)
  rw [← h, ← h1]
  rfl

/-- C129: as long as the subscriber has not got enough, every round takes place: it is told of all values of the first `R` rounds, and every source that has a value number `R` is waiting for its turn to show it. -/
theorem C129_fair (hp : p.WF) (hfit : Fits cap (p.finals.length + 1)) (R : Nat) (hR : 0 < R) (hne : ∀ j ≤ R, ¬ Enough react p (shown (m + 1) len x j)) :
    ∃ t, let s := MergeMixed.sub cap ov react p m len x t
      MergeMixed.sees s = SyncPair.told react p (shown (m + 1) len x R) ∧ s.queue = (List.range (m + 1)).filter (fun b => longer (len b) R) ∧ ∀ b ∈ s.queue, s.idx b = R := by
  have hl : Lawful (p.lift (userObs cap ov react)) := Pipe.lift_lawful p userObs_lawful
  have hg := fun t => SyncPair.gone_iff (cap := cap) (ov := ov) react p hp hfit t
  obtain ⟨t, _, h1, h2⟩ := rounds (m := m) (len := len) (x := x) hl R (fun j hj => (hg _).trans (Bool.eq_false_iff.2 (hne j (by omega))))
  have hd := (hg (shown (m + 1) len x R)).trans (Bool.eq_false_iff.2 (hne R (Nat.le_refl _)))
  refine ⟨t, ?_⟩
  intro s
  have hp' : parts (m + 1) len R = (List.range (m + 1)).filter (fun b => longer (len b) R) := if_neg (by omega)
  rcases h2 with ⟨h, _⟩ | ⟨_, _, h4, _, h6⟩
  · rw [hd] at h; cases h
  · have h := SyncPair.sees_told (cap := cap) (ov := ov) react p hp hfit (shown (m + 1) len x R)
    have hq : s.queue = parts (m + 1) len R := h4
    refine ⟨?_, hq.trans hp', fun b hb => h6 b (hq ▸ hb)⟩
    rw [← h, ← h1]
    rfl

/-- C129: at every moment, no source has handed over more than one value more than one that is still waiting. -/
theorem C129_even (t b b' : Nat) (hb : b' ∈ (MergeMixed.sub cap ov react p m len x t).queue) :
    (MergeMixed.sub cap ov react p m len x t).idx b ≤ (MergeMixed.sub cap ov react p m len x t).idx b' + 1 :=
  (even _ t).2.2 b b' hb

/-- C129: `subscribe` returns if and only if what finitely many rounds show is all the subscriber needs. -/
theorem C129_returns (hp : p.WF) (hfit : Fits cap (p.finals.length + 1)) : (∃ t, (MergeMixed.sub cap ov react p m len x t).queue = []) ↔ ∃ R, Enough react p (shown (m + 1) len x R) := by
  classical
  have hl : Lawful (p.lift (userObs cap ov react)) := Pipe.lift_lawful p userObs_lawful
  have hg := fun t => SyncPair.gone_iff (cap := cap) (ov := ov) react p hp hfit t
  constructor
  · rintro ⟨t, h⟩
    apply Classical.byContradiction
    intro hn
    have hne : ∀ j, ¬ Enough react p (shown (m + 1) len x j) := fun j h => hn ⟨j, h⟩
    obtain ⟨t', ht', _, h2⟩ := rounds (m := m) (len := len) (x := x) hl t (fun j hj => (hg _).trans (Bool.eq_false_iff.2 (hne j)))
    obtain ⟨j, rfl⟩ := Nat.exists_eq_add_of_le ht'
    have hs : MergeMixed.sub cap ov react p m len x (t + j) = Nat.repeat (MergeMixed.step (p.lift (userObs cap ov react)) len x) j (MergeMixed.sub cap ov react p m len x t) := SyncPair.repeat_add _ t j _
    rw [empty_stays j h] at hs
    rcases h2 with ⟨h2, _⟩ | ⟨_, h3, h4, _⟩
    · rw [(hg _).trans (Bool.eq_false_iff.2 (hne t))] at h2; cases h2
    · have h5 : (MergeMixed.sub cap ov react p m len x (t + j)).queue = parts (m + 1) len t := h4
      rw [hs, h] at h5
      exact h3 h5.symm
  · rintro ⟨k, hk⟩
    have hex : ∃ k, Enough react p (shown (m + 1) len x k) ∧ ∀ j < k, ¬ Enough react p (shown (m + 1) len x j) := by
      induction k using Nat.strongRecOn with
      | _ n ih =>
        by_cases h : ∃ j, j < n ∧ Enough react p (shown (m + 1) len x j)
        · obtain ⟨j, hj, hs⟩ := h; exact ih j hj hs
        · exact ⟨n, hk, fun j hj hs => h ⟨j, hj, hs⟩⟩
    obtain ⟨k, h1, h2⟩ := hex
    obtain ⟨t, h⟩ := C129_enough cap ov react p m len x hp hfit k h1 h2
    exact ⟨t, (h t (Nat.le_refl _)).1⟩

/-- C129: so it always returns if all containers are finite. -/
theorem C129_finite (hp : p.WF) (hfit : Fits cap (p.finals.length + 1)) (N : Nat) (hN : ∀ b ≤ m, ∃ n ≤ N, len b = some n) : ∃ t, (MergeMixed.sub cap ov react p m len x t).queue = [] := by
  refine (C129_returns cap ov react p m len x hp hfit).2 ⟨N + 1, ?_⟩
  have hf : (shown (ε := ε) (m + 1) len x (N + 1)).fin = some .completed := by
    simp only [shown]
    rw [if_pos]
    refine ⟨Nat.succ_pos _, fun b hb => ?_⟩
    obtain ⟨n, hn, h⟩ := hN b (by have := List.mem_range.1 hb; omega)
    rw [h]
    simp only [longer, decide_eq_false_iff_not]
    omega
  apply Endless.enough_fin
  exact Endless.pipe_fin p _ (by rw [hf]; rfl)

/-! ## Cases -/

/-- Lengths 2, endless, 0. -/
def MergeMixed.exLen (b : Nat) : Option Nat := match b with | 0 => some 2 | 1 => none | _ => some 0

example : (shown (ε := Unit) 3 exLen (fun b i => 100 * b + i) 4).vals = [0, 100, 1, 101, 102, 103] ∧ (shown (ε := Unit) 3 exLen (fun b i => 100 * b + i) 4).fin = none := by decide

/-- `take(5)` behind them has enough after the third round. -/
example : Enough (fun _ => ({} : Reaction Unit)) (.cons (.take 5) .nil : Pipe Unit Nat Nat) (shown 3 exLen (fun b i => 100 * b + i) 3) ∧
    ∀ j < 3, ¬ Enough (fun _ => ({} : Reaction Unit)) (.cons (.take 5) .nil : Pipe Unit Nat Nat) (shown 3 exLen (fun b i => 100 * b + i) j) := by
  unfold Enough; decide

example : (MergeMixed.sub none () (fun _ => {}) (.cons (.take 5) .nil : Pipe Unit Nat Nat) 2 exLen (fun b i => 100 * b + i) 12).queue = [] ∧
    MergeMixed.sees (MergeMixed.sub none () (fun _ => {}) (.cons (.take 5) .nil : Pipe Unit Nat Nat) 2 exLen (fun b i => 100 * b + i) 12) = [.next 0, .next 100, .next 1, .next 101, .next 102, .completed] := by decide

/-- The hypothesis of `C129_fair`: a subscriber that takes them all never has enough. -/
example : ∀ j ≤ 3, ¬ Enough (fun _ => ({} : Reaction Unit)) (.nil : Pipe Unit Nat Nat) (shown 3 exLen (fun b i => 100 * b + i) j) := by
  unfold Enough; decide

/-- The hypothesis of `C129_finite`. -/
example : ∀ b ≤ 1, ∃ n ≤ 2, (fun b => some (2 * b)) b = some n := by decide

/-- In the middle of a round: source 0 has been served, source 1 is waiting. -/
example : (MergeMixed.sub none () (fun _ => {}) (.nil : Pipe Unit Nat Nat) 1 (fun _ => none) (fun b i => 100 * b + i) 3).queue = [1, 0] ∧
    (MergeMixed.sub none () (fun _ => {}) (.nil : Pipe Unit Nat Nat) 1 (fun _ => none) (fun b i => 100 * b + i) 3).idx 0 = 2 ∧
    (MergeMixed.sub none () (fun _ => {}) (.nil : Pipe Unit Nat Nat) 1 (fun _ => none) (fun b i => 100 * b + i) 3).idx 1 = 1 := by decide

/-- A finite and an empty one complete together. -/
example : MergeMixed.sees (MergeMixed.sub none () (fun _ => {}) (.nil : Pipe Unit Nat Nat) 1 (fun b => some (2 * b)) (fun b i => 100 * b + i) 9) = [.next 100, .next 101, .completed] := by decide

end Rpp
