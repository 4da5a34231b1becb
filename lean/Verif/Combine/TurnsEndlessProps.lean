import Verif.Combine.TurnsEndless

/-!
# C127: two endless sources on current_thread are let go as soon as the subscriber has enough

`TurnsEndless.shown kd g x y k` says what `k` turns show; `SyncPair.Enough` says that a trace is all the subscriber needs.
-/

namespace Rpp

open TurnsEndless
open SyncPair (told Enough)

variable {α β γ δ ε : Type} [DecidableEq δ] [DecidableEq γ] [DecidableEq ε]

namespace TurnsEndless

/-- A subscription to `from_iterable(x) | zip(from_iterable(y)) | p` and the like, `k` turns later; put together from cited definitions. -/
def sub (kd : SyncPair.Kind) (cap : Option Nat) (ov : ε) (react : List (Call γ ε) → Reaction ε) (p : Pipe ε δ γ) (g : α → β → δ) (x : Nat → α) (y : Nat → β) (k : Nat) : St α β (p.State (UserSt γ ε)) :=
  exec kd (p.lift (userObs cap ov react)) (fun a b => .ok (g a b)) x y (p.start (userObs cap ov react) {}) k

/-- What the callbacks were told; reads the model's state. -/
def sees {p : Pipe ε δ γ} (s : St α β (p.State (UserSt γ ε))) : List (Call γ ε) := evsOf (p.final s.op.obs).log

end TurnsEndless

variable (kd : SyncPair.Kind) (cap : Option Nat) (ov : ε) (react : List (Call γ ε) → Reaction ε) (p : Pipe ε δ γ) (g : α → β → δ) (x : Nat → α) (y : Nat → β)

/-- C127: if what `k` turns show, and not fewer, is all the subscriber needs, exactly `k` turns are taken, `⌈k/2⌉` by the other observable and `⌊k/2⌋` by the main one; then the queue is empty, that is, `subscribe` returns. -/
theorem C127_enough (hp : p.WF) (hfit : Fits cap (p.finals.length + 1)) (k : Nat) (hm : Enough react p ⟨shown kd g x y k, none⟩) (hmin : ∀ j < k, ¬ Enough react p ⟨shown kd g x y j, none⟩) :
    ∃ t, ∀ t' ≥ t, let s := TurnsEndless.sub kd cap ov react p g x y t'
      s.queue = [] ∧ s.i = (k + 1) / 2 ∧ s.j = k / 2 ∧ TurnsEndless.sees s = told react p ⟨shown kd g x y k, none⟩ := by
  have hl : Lawful (p.lift (userObs cap ov react)) := Pipe.lift_lawful p userObs_lawful
  have hg := fun l => SyncResub.gone_iff (cap := cap) (ov := ov) react p hp hfit l
  obtain ⟨t, ht⟩ := stops (kd := kd) (g := g) (x := x) (y := y) hl k (fun j hj => (hg _).trans (Bool.eq_false_iff.2 (hmin j hj))) ((hg _).trans hm)
  refine ⟨t, fun t' ht' => ?_⟩
  obtain ⟨j, rfl⟩ := Nat.exists_eq_add_of_le ht'
  intro s
  have hs : s = Nat.repeat (TurnsEndless.step kd (p.lift (userObs cap ov react)) (fun a b => .ok (g a b)) x y) j (TurnsEndless.sub kd cap ov react p g x y t) := SyncPair.repeat_add _ t j _
  have ht2 : TurnsEndless.sub kd cap ov react p g x y t = _ := ht
  rw [ht2, empty_stays _ j rfl] at hs
  rw [hs]
  refine ⟨rfl, rfl, rfl, ?_⟩
  have h := SyncPair.sees_told (cap := cap) (ov := ov) react p hp hfit ⟨shown kd g x y k, none⟩
  simp only [SyncPair.calls, SyncResub.finCalls, List.append_nil] at h
  exact h

/-- C127: `subscribe` returns if and only if what finitely many turns show is all the subscriber needs. -/
theorem C127_returns (hp : p.WF) (hfit : Fits cap (p.finals.length + 1)) : (∃ t, (TurnsEndless.sub kd cap ov react p g x y t).queue = []) ↔ ∃ k, Enough react p ⟨shown kd g x y k, none⟩ := by
  classical
  have hl : Lawful (p.lift (userObs cap ov react)) := Pipe.lift_lawful p userObs_lawful
  constructor
  · rintro ⟨t, h⟩
    apply Classical.byContradiction
    intro hn
    have h0 := (SyncResub.gone_iff (cap := cap) (ov := ov) react p hp hfit (shown kd g x y t)).trans (Bool.eq_false_iff.2 fun h => hn ⟨t, h⟩)
    have h1 : TurnsEndless.sub kd cap ov react p g x y t = _ := reaches hl t h0
    rw [h1] at h
    have h2 : turn t = [] := h
    unfold turn at h2
    split at h2 <;> cases h2
  · rintro ⟨k, hk⟩
    have hex : ∃ k, Enough react p ⟨shown kd g x y k, none⟩ ∧ ∀ j < k, ¬ Enough react p ⟨shown kd g x y j, none⟩ := by
      induction k using Nat.strongRecOn with
      | _ n ih =>
        by_cases h : ∃ j, j < n ∧ Enough react p ⟨shown kd g x y j, none⟩
        · obtain ⟨j, hj, hs⟩ := h; exact ih j hj hs
        · exact ⟨n, hk, fun j hj hs => h ⟨j, hj, hs⟩⟩
    obtain ⟨k, h1, h2⟩ := hex
    obtain ⟨t, h⟩ := C127_enough kd cap ov react p g x y hp hfit k h1 h2
    exact ⟨t, (h t (Nat.le_refl _)).1⟩

/-- C127: so `take(n)` behind it stops two endless sources, which on the immediate scheduler nothing does (C122_other_endless). -/
theorem C127_take (n : Nat) (hp : p.WF) (hfit : Fits cap ((Pipe.cons (.take n) p).finals.length + 1)) : ∃ t, (TurnsEndless.sub kd cap ov react (.cons (.take n) p) g x y t).queue = [] := by
  refine (C127_returns kd cap ov react (.cons (.take n) p) g x y ⟨trivial, hp⟩ hfit).2 ⟨2 * max 1 n, ?_⟩
  have hlen : ∀ m, m ≤ (shown kd g x y (2 * m)).length := by
    intro m
    induction m with
    | zero => exact Nat.zero_le _
    | succ m ih =>
      rw [show 2 * (m + 1) = 2 * m + 1 + 1 by omega, shown_succ, shown_succ, List.length_append, List.length_append]
      have : (shows kd g x y (2 * m + 1)).length = 1 := by
        unfold shows
        rw [if_pos (by omega)]
        rfl
      omega
  apply Endless.enough_fin
  refine Endless.pipe_fin p (Spec.take n ⟨shown kd g x y (2 * max 1 n), none⟩) ?_
  simp only [Spec.take]
  rw [if_pos (hlen _)]
  rfl

/-! ## Cases -/

/-- The first turns of `0, 1, 2, …` with `0, 10, 20, …`. -/
example : shown .zip Prod.mk id (10 * ·) 6 = [(0, 0), (1, 10), (2, 20)] ∧ shown .withLatest Prod.mk id (10 * ·) 6 = [(0, 0), (1, 10), (2, 20)] ∧
    shown .latest Prod.mk id (10 * ·) 6 = [(0, 0), (0, 10), (1, 10), (1, 20), (2, 20)] := by decide

/-- `take(2)` behind combine_latest: three turns are taken, two by the other observable. -/
example : Enough (fun _ => ({} : Reaction Unit)) (.cons (.take 2) .nil : Pipe Unit (Nat × Nat) (Nat × Nat)) ⟨shown .latest Prod.mk id (10 * ·) 3, none⟩ ∧
    ∀ j < 3, ¬ Enough (fun _ => ({} : Reaction Unit)) (.cons (.take 2) .nil : Pipe Unit (Nat × Nat) (Nat × Nat)) ⟨shown .latest Prod.mk id (10 * ·) j, none⟩ := by
  unfold Enough; decide

example : (TurnsEndless.sub .latest none () (fun _ => {}) (.cons (.take 2) .nil : Pipe Unit (Nat × Nat) (Nat × Nat)) Prod.mk id (10 * ·) 9).queue = [] ∧
    (TurnsEndless.sub .latest none () (fun _ => {}) (.cons (.take 2) .nil : Pipe Unit (Nat × Nat) (Nat × Nat)) Prod.mk id (10 * ·) 9).i = 2 ∧
    TurnsEndless.sees (TurnsEndless.sub .latest none () (fun _ => {}) (.cons (.take 2) .nil : Pipe Unit (Nat × Nat) (Nat × Nat)) Prod.mk id (10 * ·) 9) = [.next (0, 0), .next (0, 10), .completed] := by decide

end Rpp
