import Verif.Combine.TurnsThrow

/-!
# C127 with a selector that throws

`TurnsEndless.pair kd x y k` says what the selector is applied to in turn `k`, `TurnsEndless.shown kd g x y k` what `k` turns show if the selector is `g`.
-/

namespace Rpp

open TurnsEndless
open SyncPair (told Enough)

variable {α β γ δ ε : Type} [DecidableEq δ] [DecidableEq γ] [DecidableEq ε]

namespace TurnsEndless

/-- As `TurnsEndless.sub`, with a selector that may throw; put together from cited definitions. -/
def subF (kd : SyncPair.Kind) (cap : Option Nat) (ov : ε) (react : List (Call γ ε) → Reaction ε) (p : Pipe ε δ γ) (f : α → β → Except ε δ) (x : Nat → α) (y : Nat → β) (k : Nat) : St α β (p.State (UserSt γ ε)) :=
  exec kd (p.lift (userObs cap ov react)) f x y (p.start (userObs cap ov react) {}) k

end TurnsEndless

variable (kd : SyncPair.Kind) (cap : Option Nat) (ov : ε) (react : List (Call γ ε) → Reaction ε) (p : Pipe ε δ γ) (f : α → β → Except ε δ) (g : α → β → δ) (x : Nat → α) (y : Nat → β)

/-- C127: if the selector throws in turn `k` for the first time, and what was shown before is not all the subscriber needs, the subscriber is told of the error after it; both sources are let go, and `subscribe` returns. -/
theorem C127_throws (hp : p.WF) (hfit : Fits cap (p.finals.length + 1)) (k : Nat) (ab : α × β) (e : ε)
    (hok : ∀ j < k, ∀ ab, pair kd x y j = some ab → f ab.1 ab.2 = .ok (g ab.1 ab.2)) (hk : pair kd x y k = some ab) (hf : f ab.1 ab.2 = .error e)
    (hne : ¬ Enough react p ⟨shown kd g x y k, none⟩) :
    ∃ t, ∀ t' ≥ t, let s := TurnsEndless.subF kd cap ov react p f x y t'
      s.queue = [] ∧ s.i = (k + 2) / 2 ∧ s.j = (k + 1) / 2 ∧ TurnsEndless.sees s = told react p ⟨shown kd g x y k, some (.error e)⟩ := by
  have hl : Lawful (p.lift (userObs cap ov react)) := Pipe.lift_lawful p userObs_lawful
  have hg := fun l => SyncResub.gone_iff (cap := cap) (ov := ov) react p hp hfit l
  obtain ⟨t, s', ht, h2, h3, h4, h5⟩ := stops_throws (kd := kd) (g := g) (x := x) (y := y) (f := f) hl k ((hg _).trans (Bool.eq_false_iff.2 hne)) hok hk hf
  refine ⟨t, fun t' ht' => ?_⟩
  obtain ⟨j, rfl⟩ := Nat.exists_eq_add_of_le ht'
  intro s
  have hs : s = Nat.repeat (TurnsEndless.step kd (p.lift (userObs cap ov react)) f x y) j (TurnsEndless.subF kd cap ov react p f x y t) := SyncPair.repeat_add _ t j _
  have ht2 : TurnsEndless.subF kd cap ov react p f x y t = _ := ht
  rw [ht2, empty_stays _ j h2] at hs
  rw [hs]
  refine ⟨h2, h3, h4, ?_⟩
  have h := SyncPair.sees_told (cap := cap) (ov := ov) react p hp hfit ⟨shown kd g x y k, some (.error e)⟩
  rw [← h]
  unfold TurnsEndless.sees
  rw [h5]
  simp only [SyncPair.calls, SyncResub.finCalls, Obs.run_append]
  rfl

/-- C127: if the subscriber has enough after `k` turns, and not before, it does not matter what the selector would do later. -/
theorem C127_enough_first (hp : p.WF) (hfit : Fits cap (p.finals.length + 1)) (k : Nat) (hok : ∀ j < k, ∀ ab, pair kd x y j = some ab → f ab.1 ab.2 = .ok (g ab.1 ab.2))
    (hm : Enough react p ⟨shown kd g x y k, none⟩) (hmin : ∀ j < k, ¬ Enough react p ⟨shown kd g x y j, none⟩) :
    ∃ t, ∀ t' ≥ t, let s := TurnsEndless.subF kd cap ov react p f x y t'
      s.queue = [] ∧ s.i = (k + 1) / 2 ∧ s.j = k / 2 ∧ TurnsEndless.sees s = told react p ⟨shown kd g x y k, none⟩ := by
  have hl : Lawful (p.lift (userObs cap ov react)) := Pipe.lift_lawful p userObs_lawful
  have hg := fun l => SyncResub.gone_iff (cap := cap) (ov := ov) react p hp hfit l
  obtain ⟨t, ht⟩ := stops_ok (kd := kd) (g := g) (x := x) (y := y) (f := f) hl k (fun j hj => (hg _).trans (Bool.eq_false_iff.2 (hmin j hj))) ((hg _).trans hm) hok
  refine ⟨t, fun t' ht' => ?_⟩
  obtain ⟨j, rfl⟩ := Nat.exists_eq_add_of_le ht'
  intro s
  have hs : s = Nat.repeat (TurnsEndless.step kd (p.lift (userObs cap ov react)) f x y) j (TurnsEndless.subF kd cap ov react p f x y t) := SyncPair.repeat_add _ t j _
  have ht2 : TurnsEndless.subF kd cap ov react p f x y t = _ := ht
  rw [ht2, empty_stays _ j rfl] at hs
  rw [hs]
  refine ⟨rfl, rfl, rfl, ?_⟩
  have h := SyncPair.sees_told (cap := cap) (ov := ov) react p hp hfit ⟨shown kd g x y k, none⟩
  simp only [SyncPair.calls, SyncResub.finCalls, List.append_nil] at h
  exact h

/-! ## Cases -/

/-- A selector that throws for `2`. -/
def TurnsEndless.exSel (a b : Nat) : Except String (Nat × Nat) := if a = 2 then .error "two" else .ok (a, b)

/-- The hypotheses of `C127_throws`: zip of the numbers with themselves throws in turn 5. -/
example : (∀ j < 5, ∀ ab, pair .zip (id : Nat → Nat) (10 * ·) j = some ab → exSel ab.1 ab.2 = .ok (ab.1, ab.2)) ∧ pair .zip (id : Nat → Nat) (10 * ·) 5 = some (2, 20) ∧ exSel 2 20 = .error "two" ∧
    ¬ Enough (fun _ => ({} : Reaction String)) (.nil : Pipe String (Nat × Nat) (Nat × Nat)) ⟨shown .zip Prod.mk id (10 * ·) 5, none⟩ := by
  refine ⟨?_, rfl, rfl, by unfold Enough; decide⟩
  intro j hj ab h
  match j, hj with
  | 0, _ => cases h
  | 1, _ => cases h; rfl
  | 2, _ => cases h
  | 3, _ => cases h; rfl
  | 4, _ => cases h

/-- What comes of it; `take(2)` stops before. -/
example : TurnsEndless.sees (TurnsEndless.subF .zip none "" (fun _ => {}) (.nil : Pipe String (Nat × Nat) (Nat × Nat)) exSel id (10 * ·) 9) = [.next (0, 0), .next (1, 10), .error "two"] ∧
    TurnsEndless.sees (TurnsEndless.subF .zip none "" (fun _ => {}) (.cons (.take 2) .nil : Pipe String (Nat × Nat) (Nat × Nat)) exSel id (10 * ·) 9) = [.next (0, 0), .next (1, 10), .completed] := by decide

end Rpp
