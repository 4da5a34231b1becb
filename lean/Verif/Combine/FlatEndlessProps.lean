import Verif.Combine.FlatEndless

/-!
# C130: endlessly many endless sources flattened on current_thread are shown diagonal by diagonal

`FlatEndless.shown x R` says what `R` rounds show; `SyncPair.Enough` says that a trace is all the subscriber needs.
-/

namespace Rpp

open FlatEndless
open SyncPair (told Enough)

variable {γ δ ε : Type} [DecidableEq δ] [DecidableEq γ] [DecidableEq ε]

namespace FlatEndless

/-- A subscription to `from_iterable(…) | flat_map(b ↦ from_iterable(x b)) | p`, `k` turns later; put together from cited definitions. -/
def sub (cap : Option Nat) (ov : ε) (react : List (Call γ ε) → Reaction ε) (p : Pipe ε δ γ) (x : Nat → Nat → δ) (k : Nat) : St (p.State (UserSt γ ε)) :=
  exec (p.lift (userObs cap ov react)) x (p.start (userObs cap ov react) {}) k

/-- What the callbacks were told; reads the model's state. -/
def sees {p : Pipe ε δ γ} (s : St (p.State (UserSt γ ε))) : List (Call γ ε) := evsOf (p.final s.obs).log

end FlatEndless

variable (cap : Option Nat) (ov : ε) (react : List (Call γ ε) → Reaction ε) (p : Pipe ε δ γ) (x : Nat → Nat → δ)

/-- C130: if what `R` rounds show, and not fewer, is all the subscriber needs, it is told exactly of that, only the `R - 1` inner sources that take part in these rounds have been subscribed to, and `subscribe` returns. -/
theorem C130_enough (hp : p.WF) (hfit : Fits cap (p.finals.length + 1)) (R : Nat) (hm : Enough react p ⟨shown x R, none⟩) (hmin : ∀ j < R, ¬ Enough react p ⟨shown x j, none⟩) :
    ∃ t, ∀ t' ≥ t, let s := FlatEndless.sub cap ov react p x t'
      s.queue = [] ∧ s.next = R - 1 ∧ FlatEndless.sees s = told react p ⟨shown x R, none⟩ := by
  have hl : Lawful (p.lift (userObs cap ov react)) := Pipe.lift_lawful p userObs_lawful
  have hg := fun l => SyncResub.gone_iff (cap := cap) (ov := ov) react p hp hfit l
  obtain ⟨t, _, h1, h2⟩ := rounds (x := x) hl R (fun j hj => (hg _).trans (Bool.eq_false_iff.2 (hmin j hj)))
  obtain ⟨hq, hn⟩ : (FlatEndless.sub cap ov react p x t).queue = [] ∧ (FlatEndless.sub cap ov react p x t).next = R - 1 := by
    rcases h2 with ⟨_, h⟩ | ⟨h, _⟩
    · exact h
    · rw [(hg (shown x R)).trans hm] at h; cases h
  refine ⟨t, fun t' ht' => ?_⟩
  obtain ⟨j, rfl⟩ := Nat.exists_eq_add_of_le ht'
  intro s
  have hs : s = Nat.repeat (FlatEndless.step (p.lift (userObs cap ov react)) x) j (FlatEndless.sub cap ov react p x t) := SyncPair.repeat_add _ t j _
  rw [empty_stays j hq] at hs
  rw [hs]
  refine ⟨hq, hn, ?_⟩
  have h := SyncPair.sees_told (cap := cap) (ov := ov) react p hp hfit ⟨shown x R, none⟩
  simp only [SyncPair.calls, SyncResub.finCalls, List.append_nil] at h
  rw [← h, ← h1]
  rfl

/-- C130: as long as the subscriber has not got enough, every round takes place: after `R` of them it has been told of them, `R` inner sources have been subscribed to, and inner source `b` has handed over `R - 1 - b` values. -/
theorem C130_fair (hp : p.WF) (hfit : Fits cap (p.finals.length + 1)) (R : Nat) (hne : ∀ j ≤ R, ¬ Enough react p ⟨shown x j, none⟩) :
    ∃ t, let s := FlatEndless.sub cap ov react p x t
      FlatEndless.sees s = told react p ⟨shown x R, none⟩ ∧ s.next = R ∧ ∀ b, s.idx b = R - 1 - b := by
  have hl : Lawful (p.lift (userObs cap ov react)) := Pipe.lift_lawful p userObs_lawful
  have hg := fun l => SyncResub.gone_iff (cap := cap) (ov := ov) react p hp hfit l
  obtain ⟨t, _, h1, h2⟩ := rounds (x := x) hl R (fun j hj => (hg _).trans (Bool.eq_false_iff.2 (hne j (by omega))))
  refine ⟨t, ?_⟩
  intro s
  rcases h2 with ⟨h, _⟩ | ⟨_, _, h5, h6⟩
  · rw [(hg (shown x R)).trans (Bool.eq_false_iff.2 (hne R (Nat.le_refl _)))] at h; cases h
  · refine ⟨?_, h5, h6⟩
    have h := SyncPair.sees_told (cap := cap) (ov := ov) react p hp hfit ⟨shown x R, none⟩
    simp only [SyncPair.calls, SyncResub.finCalls, List.append_nil] at h
    rw [← h, ← h1]
    rfl

/-- C130: so no value of any inner source is left out: value number `i` of inner source `b` is among those `b + i + 2` rounds show. -/
theorem C130_all (b i R : Nat) (hR : b + i + 2 ≤ R) : x b i ∈ shown x R := by
  unfold shown
  refine List.mem_flatMap.2 ⟨b + i + 1, List.mem_range.2 (by omega), List.mem_map.2 ⟨b, List.mem_range.2 (by omega), ?_⟩⟩
  rw [show b + i + 1 - 1 - b = i by omega]

/-- C130: `subscribe` returns if and only if what finitely many rounds show is all the subscriber needs. -/
theorem C130_returns (hp : p.WF) (hfit : Fits cap (p.finals.length + 1)) : (∃ t, (FlatEndless.sub cap ov react p x t).queue = []) ↔ ∃ R, Enough react p ⟨shown x R, none⟩ := by
  classical
  have hl : Lawful (p.lift (userObs cap ov react)) := Pipe.lift_lawful p userObs_lawful
  have hg := fun l => SyncResub.gone_iff (cap := cap) (ov := ov) react p hp hfit l
  constructor
  · rintro ⟨t, h⟩
    apply Classical.byContradiction
    intro hn
    have hne : ∀ j, ¬ Enough react p ⟨shown x j, none⟩ := fun j h => hn ⟨j, h⟩
    obtain ⟨t', ht', _, h2⟩ := rounds (x := x) hl t (fun j hj => (hg _).trans (Bool.eq_false_iff.2 (hne j)))
    obtain ⟨j, rfl⟩ := Nat.exists_eq_add_of_le ht'
    have hs : FlatEndless.sub cap ov react p x (t + j) = Nat.repeat (FlatEndless.step (p.lift (userObs cap ov react)) x) j (FlatEndless.sub cap ov react p x t) := SyncPair.repeat_add _ t j _
    rw [empty_stays j h] at hs
    rcases h2 with ⟨h2, _⟩ | ⟨_, h4, _⟩
    · rw [(hg _).trans (Bool.eq_false_iff.2 (hne t))] at h2; cases h2
    · have h5 : (FlatEndless.sub cap ov react p x (t + j)).queue = (List.range t).map some ++ [none] := h4
      rw [hs, h] at h5
      exact absurd h5.symm (by simp)
  · rintro ⟨k, hk⟩
    have hex : ∃ k, Enough react p ⟨shown x k, none⟩ ∧ ∀ j < k, ¬ Enough react p ⟨shown x j, none⟩ := by
      induction k using Nat.strongRecOn with
      | _ n ih =>
        by_cases h : ∃ j, j < n ∧ Enough react p ⟨shown x j, none⟩
        · obtain ⟨j, hj, hs⟩ := h; exact ih j hj hs
        · exact ⟨n, hk, fun j hj hs => h ⟨j, hj, hs⟩⟩
    obtain ⟨k, h1, h2⟩ := hex
    obtain ⟨t, h⟩ := C130_enough cap ov react p x hp hfit k h1 h2
    exact ⟨t, (h t (Nat.le_refl _)).1⟩

/-- C130: `take(n)` behind it stops them all. -/
theorem C130_take (n : Nat) (hp : p.WF) (hfit : Fits cap ((Pipe.cons (.take n) p).finals.length + 1)) : ∃ t, (FlatEndless.sub cap ov react (.cons (.take n) p) x t).queue = [] := by
  refine (C130_returns cap ov react (.cons (.take n) p) x ⟨trivial, hp⟩ hfit).2 ⟨max 1 n + 1, ?_⟩
  have hlen : ∀ R, R ≤ (shown x (R + 1)).length := by
    intro R
    rw [shown_succ, List.length_append, List.length_map, List.length_range]
    omega
  apply Endless.enough_fin
  refine Endless.pipe_fin p (Spec.take n ⟨shown x (max 1 n + 1), none⟩) ?_
  simp only [Spec.take]
  rw [if_pos (hlen _)]
  rfl

/-! ## Cases -/

/-- Inner source `b` shows `100 * b, 100 * b + 1, …`. -/
example : shown (fun b i => 100 * b + i) 4 = [0, 1, 100, 2, 101, 200] := by decide

/-- `take(4)` behind them has enough in the round with number 3. -/
example : Enough (fun _ => ({} : Reaction Unit)) (.cons (.take 4) .nil : Pipe Unit Nat Nat) ⟨shown (fun b i => 100 * b + i) 4, none⟩ ∧
    ∀ j < 4, ¬ Enough (fun _ => ({} : Reaction Unit)) (.cons (.take 4) .nil : Pipe Unit Nat Nat) ⟨shown (fun b i => 100 * b + i) j, none⟩ := by
  unfold Enough; decide

example : (FlatEndless.sub none () (fun _ => {}) (.cons (.take 4) .nil : Pipe Unit Nat Nat) (fun b i => 100 * b + i) 12).queue = [] ∧
    (FlatEndless.sub none () (fun _ => {}) (.cons (.take 4) .nil : Pipe Unit Nat Nat) (fun b i => 100 * b + i) 12).next = 3 ∧
    FlatEndless.sees (FlatEndless.sub none () (fun _ => {}) (.cons (.take 4) .nil : Pipe Unit Nat Nat) (fun b i => 100 * b + i) 12) = [.next 0, .next 1, .next 100, .next 2, .completed] := by decide

/-- The hypothesis of `C130_fair`: a subscriber that takes them all never has enough. -/
example : ∀ j ≤ 4, ¬ Enough (fun _ => ({} : Reaction Unit)) (.nil : Pipe Unit Nat Nat) ⟨shown (fun b i => 100 * b + i) j, none⟩ := by
  unfold Enough; decide

end Rpp
