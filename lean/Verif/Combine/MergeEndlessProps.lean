import Verif.Combine.MergeEndless

/-!
# C128: any number of endless sources merged on current_thread take turns until the subscriber has enough

`MergeEndless.shown n x k` says what `k` turns of `n` sources show, `MergeEndless.turns n b k` how many of them are those of source `b`; `SyncPair.Enough` says that a trace is all the subscriber needs.
-/

namespace Rpp

open MergeEndless
open SyncPair (told Enough)

variable {γ δ ε : Type} [DecidableEq δ] [DecidableEq γ] [DecidableEq ε]

namespace MergeEndless

/-- A subscription to `from_iterable(x 0) | merge_with(from_iterable(x 1), …, from_iterable(x m)) | p`, `k` turns later; put together from cited definitions. -/
def sub (cap : Option Nat) (ov : ε) (react : List (Call γ ε) → Reaction ε) (p : Pipe ε δ γ) (m : Nat) (x : Nat → Nat → δ) (k : Nat) : St (p.State (UserSt γ ε)) :=
  exec (p.lift (userObs cap ov react)) m x (p.start (userObs cap ov react) {}) k

/-- What the callbacks were told; reads the model's state. -/
def sees {p : Pipe ε δ γ} (s : St (p.State (UserSt γ ε))) : List (Call γ ε) := evsOf (p.final s.obs).log

end MergeEndless

variable (cap : Option Nat) (ov : ε) (react : List (Call γ ε) → Reaction ε) (p : Pipe ε δ γ) (m : Nat) (x : Nat → Nat → δ)

/-- C128: if what `k` turns show, and not fewer, is all the subscriber needs, exactly `k` turns are taken, each source its share; then the queue is empty, that is, `subscribe` returns. -/
theorem C128_enough (hp : p.WF) (hfit : Fits cap (p.finals.length + 1)) (k : Nat) (hm : Enough react p ⟨shown (m + 1) x k, none⟩) (hmin : ∀ j < k, ¬ Enough react p ⟨shown (m + 1) x j, none⟩) :
    ∃ t, ∀ t' ≥ t, let s := MergeEndless.sub cap ov react p m x t'
      s.queue = [] ∧ (∀ b, s.idx b = turns (m + 1) b k) ∧ MergeEndless.sees s = told react p ⟨shown (m + 1) x k, none⟩ := by
  have hl : Lawful (p.lift (userObs cap ov react)) := Pipe.lift_lawful p userObs_lawful
  have hg := fun l => SyncResub.gone_iff (cap := cap) (ov := ov) react p hp hfit l
  obtain ⟨t, ht⟩ := stops (m := m) (x := x) hl k (fun j hj => (hg _).trans (Bool.eq_false_iff.2 (hmin j hj))) ((hg _).trans hm)
  refine ⟨t, fun t' ht' => ?_⟩
  obtain ⟨j, rfl⟩ := Nat.exists_eq_add_of_le ht'
  intro s
  have hs : s = Nat.repeat (MergeEndless.step (p.lift (userObs cap ov react)) x) j (MergeEndless.sub cap ov react p m x t) := SyncPair.repeat_add _ t j _
  have ht2 : MergeEndless.sub cap ov react p m x t = _ := ht
  rw [ht2, empty_stays j rfl] at hs
  rw [hs]
  refine ⟨rfl, fun b => rfl, ?_⟩
  have h := SyncPair.sees_told (cap := cap) (ov := ov) react p hp hfit ⟨shown (m + 1) x k, none⟩
  simp only [SyncPair.calls, SyncResub.finCalls, List.append_nil] at h
  exact h

/-- C128: `subscribe` returns if and only if what finitely many turns show is all the subscriber needs. -/
theorem C128_returns (hp : p.WF) (hfit : Fits cap (p.finals.length + 1)) : (∃ t, (MergeEndless.sub cap ov react p m x t).queue = []) ↔ ∃ k, Enough react p ⟨shown (m + 1) x k, none⟩ := by
  classical
  have hl : Lawful (p.lift (userObs cap ov react)) := Pipe.lift_lawful p userObs_lawful
  constructor
  · rintro ⟨t, h⟩
    apply Classical.byContradiction
    intro hn
    have h0 := (SyncResub.gone_iff (cap := cap) (ov := ov) react p hp hfit (shown (m + 1) x t)).trans (Bool.eq_false_iff.2 fun h => hn ⟨t, h⟩)
    have h1 : MergeEndless.sub cap ov react p m x t = _ := reaches hl t h0
    rw [h1] at h
    have h2 : turn m t = [] := h
    cases h2
  · rintro ⟨k, hk⟩
    have hex : ∃ k, Enough react p ⟨shown (m + 1) x k, none⟩ ∧ ∀ j < k, ¬ Enough react p ⟨shown (m + 1) x j, none⟩ := by
      induction k using Nat.strongRecOn with
      | _ n ih =>
        by_cases h : ∃ j, j < n ∧ Enough react p ⟨shown (m + 1) x j, none⟩
        · obtain ⟨j, hj, hs⟩ := h; exact ih j hj hs
        · exact ⟨n, hk, fun j hj hs => h ⟨j, hj, hs⟩⟩
    obtain ⟨k, h1, h2⟩ := hex
    obtain ⟨t, h⟩ := C128_enough cap ov react p m x hp hfit k h1 h2
    exact ⟨t, (h t (Nat.le_refl _)).1⟩

/-- C128: as long as the subscriber has not got enough, every source gets its turn: after `r` rounds each has handed over `r` values, and the callbacks were told of them. -/
theorem C128_fair (hp : p.WF) (hfit : Fits cap (p.finals.length + 1)) (r : Nat) (hne : ¬ Enough react p ⟨shown (m + 1) x ((m + 1) * r), none⟩) :
    (∀ b ≤ m, (MergeEndless.sub cap ov react p m x ((m + 1) * r)).idx b = r) ∧
      MergeEndless.sees (MergeEndless.sub cap ov react p m x ((m + 1) * r)) = told react p ⟨shown (m + 1) x ((m + 1) * r), none⟩ := by
  have hl : Lawful (p.lift (userObs cap ov react)) := Pipe.lift_lawful p userObs_lawful
  have h0 := (SyncResub.gone_iff (cap := cap) (ov := ov) react p hp hfit (shown (m + 1) x ((m + 1) * r))).trans (Bool.eq_false_iff.2 hne)
  have h1 : MergeEndless.sub cap ov react p m x ((m + 1) * r) = _ := reaches hl _ h0
  rw [h1]
  constructor
  · intro b hb
    have h := turns_eq (n := m + 1) (b := b) (by omega) r 0 (Nat.zero_le _)
    rw [if_neg (Nat.not_lt_zero _)] at h
    exact h
  · have h := SyncPair.sees_told (cap := cap) (ov := ov) react p hp hfit ⟨shown (m + 1) x ((m + 1) * r), none⟩
    simp only [SyncPair.calls, SyncResub.finCalls, List.append_nil] at h
    exact h

/-- C128: `take(n)` behind it stops them all. -/
theorem C128_take (n : Nat) (hp : p.WF) (hfit : Fits cap ((Pipe.cons (.take n) p).finals.length + 1)) : ∃ t, (MergeEndless.sub cap ov react (.cons (.take n) p) m x t).queue = [] := by
  refine (C128_returns cap ov react (.cons (.take n) p) m x ⟨trivial, hp⟩ hfit).2 ⟨max 1 n, ?_⟩
  apply Endless.enough_fin
  refine Endless.pipe_fin p (Spec.take n ⟨shown (m + 1) x (max 1 n), none⟩) ?_
  simp only [Spec.take]
  rw [if_pos (by simp only [shown, List.length_map, List.length_range]; omega)]
  rfl

/-! ## Cases -/

/-- Three sources: `0, 1, 2, …`, `100, 101, …` and `200, 201, …`. -/
example : shown 3 (fun b i => 100 * b + i) 7 = [0, 100, 200, 1, 101, 201, 2] ∧ turns 3 0 7 = 3 ∧ turns 3 1 7 = 2 := by decide

/-- `take(4)` behind them: four turns are taken. -/
example : Enough (fun _ => ({} : Reaction Unit)) (.cons (.take 4) .nil : Pipe Unit Nat Nat) ⟨shown 3 (fun b i => 100 * b + i) 4, none⟩ ∧
    ∀ j < 4, ¬ Enough (fun _ => ({} : Reaction Unit)) (.cons (.take 4) .nil : Pipe Unit Nat Nat) ⟨shown 3 (fun b i => 100 * b + i) j, none⟩ := by
  unfold Enough; decide

example : (MergeEndless.sub none () (fun _ => {}) (.cons (.take 4) .nil : Pipe Unit Nat Nat) 2 (fun b i => 100 * b + i) 9).queue = [] ∧
    (MergeEndless.sub none () (fun _ => {}) (.cons (.take 4) .nil : Pipe Unit Nat Nat) 2 (fun b i => 100 * b + i) 9).idx 0 = 2 ∧
    MergeEndless.sees (MergeEndless.sub none () (fun _ => {}) (.cons (.take 4) .nil : Pipe Unit Nat Nat) 2 (fun b i => 100 * b + i) 9) = [.next 0, .next 100, .next 200, .next 1, .completed] := by decide

/-- A subscriber that takes them all never has enough: two rounds of three sources. -/
example : ¬ Enough (fun _ => ({} : Reaction Unit)) (.nil : Pipe Unit Nat Nat) ⟨shown 3 (fun b i => 100 * b + i) (3 * 2), none⟩ := by
  unfold Enough; decide

end Rpp
