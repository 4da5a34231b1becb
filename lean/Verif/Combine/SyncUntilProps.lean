import Verif.Combine.SyncUntil

/-!
# C125: property theorems

`take_until` over any chain of operators (`Pipe`) and callbacks (`react`), if the trigger `y` and the main observable `x` hand over everything inside `subscribe`.  `.done` means that `subscribe` has returned.
-/

namespace Rpp

open SyncUntil
open SyncPair (told Src Enough calls)

variable {α β γ ε : Type} [DecidableEq α] [DecidableEq γ] [DecidableEq ε]

namespace SyncUntil

/-- A subscription to `x | take_until(y) | p`, `k` steps later; put together from cited definitions. -/
def sub (cap : Option Nat) (ov : ε) (react : List (Call γ ε) → Reaction ε) (p : Pipe ε α γ) (x : Src α ε) (y : Src β ε) (k : Nat) : St (p.State (UserSt γ ε)) :=
  exec (p.lift (userObs cap ov react)) x y (p.start (userObs cap ov react) {}) k

/-- What the callbacks were told; reads the model's state. -/
def sees {p : Pipe ε α γ} (s : St (p.State (UserSt γ ε))) : List (Call γ ε) := evsOf (p.final s.obs).log

theorem settles {cap : Option Nat} {ov : ε} {react : List (Call γ ε) → Reaction ε} {p : Pipe ε α γ} (hp : p.WF) (hfit : Fits cap (p.finals.length + 1)) {x : Src α ε} {y : Src β ε} {t : Trace α ε} {b : Bool} {k m g : Nat}
    (h : Gets (p.lift (userObs cap ov react)) x y k { obs := (p.lift (userObs cap ov react)).call (.up 0) (p.start (userObs cap ov react) {}) }
      ⟨(p.lift (userObs cap ov react)).run ((p.lift (userObs cap ov react)).call (.up 0) (p.start (userObs cap ov react) {})) (calls t), .done, b, m, g⟩) :
    ∀ k' ≥ k, let s := sub cap ov react p x y k'
      s.pc = .done ∧ s.fired = m ∧ s.got = g ∧ sees s = told react p t := by
  intro k' hk'
  obtain ⟨j, rfl⟩ := Nat.exists_eq_add_of_le hk'
  intro s
  have hs : s = Nat.repeat (step (p.lift (userObs cap ov react)) x y) j (sub cap ov react p x y k) := SyncPair.repeat_add _ k j _
  have hk : sub cap ov react p x y k = _ := h
  rw [hk, done_stays j rfl] at hs
  rw [hs]
  exact ⟨rfl, rfl, rfl, SyncPair.sees_told (cap := cap) (ov := ov) react p hp hfit t⟩

end SyncUntil

variable (cap : Option Nat) (ov : ε) (react : List (Call γ ε) → Reaction ε) (p : Pipe ε α γ) (x : Src α ε) (y : Src β ε)

/-- C125: if the trigger has a value, `subscribe` returns, whatever else the trigger and the main observable have, even without end: the trigger's second value is not taken and no value of the main observable is; the subscriber sees a completion. -/
theorem C125_fires (hp : p.WF) (hfit : Fits cap (p.finals.length + 1)) (b : β) (hy : y.at' 0 = some b) (hne : ¬ Enough react p ⟨[], none⟩) :
    ∃ k, ∀ k' ≥ k, let s := SyncUntil.sub cap ov react p x y k'
      s.pc = .done ∧ s.fired = 1 ∧ s.got = 0 ∧ SyncUntil.sees s = told react p ⟨[], some .completed⟩ := by
  have h0 : (p.lift (userObs cap ov react)).isDisposed ((p.lift (userObs cap ov react)).call (.up 0) (p.start (userObs cap ov react) {})) = false :=
    (SyncPair.gone_iff (cap := cap) (ov := ov) react p hp hfit ⟨[], none⟩).trans (Bool.eq_false_iff.2 hne)
  have h1 : (p.lift (userObs cap ov react)).isDisposed ((p.lift (userObs cap ov react)).run ((p.lift (userObs cap ov react)).call (.up 0) (p.start (userObs cap ov react) {})) (calls ⟨[], some .completed⟩)) = true :=
    (SyncPair.gone_iff (cap := cap) (ov := ov) react p hp hfit _).trans (by apply Endless.enough_fin; exact Endless.pipe_fin p _ rfl)
  refine ⟨1 + 1 + 1, SyncUntil.settles (b := true) hp hfit ((Gets.trans (t := ⟨(p.lift (userObs cap ov react)).run ((p.lift (userObs cap ov react)).call (.up 0) (p.start (userObs cap ov react) {})) (calls ⟨[], some .completed⟩), .trigger 1, true, 1, 0⟩) (Gets.one ?_) (Gets.one (t := ⟨(p.lift (userObs cap ov react)).run ((p.lift (userObs cap ov react)).call (.up 0) (p.start (userObs cap ov react) {})) (calls ⟨[], some .completed⟩), .main 0, true, 1, 0⟩) ?_)).trans (Gets.one ?_))⟩
  · simp only [SyncUntil.step, h0, hy, SyncUntil.fire, Bool.false_eq_true, if_false]; rfl
  · simp only [SyncUntil.step]; exact if_pos h1
  · simp only [SyncUntil.step]; exact if_pos h1

/-- C125: if the trigger ends without a value, so does take_until, in the same way, and no value of the main observable is taken. -/
theorem C125_trigger_ends (hp : p.WF) (hfit : Fits cap (p.finals.length + 1)) (f : Term ε) (hy : y.at' 0 = none) (hf : y.fin = some f) (hne : ¬ Enough react p ⟨[], none⟩) :
    ∃ k, ∀ k' ≥ k, let s := SyncUntil.sub cap ov react p x y k'
      s.pc = .done ∧ s.fired = 0 ∧ s.got = 0 ∧ SyncUntil.sees s = told react p ⟨[], some f⟩ := by
  have h0 : (p.lift (userObs cap ov react)).isDisposed ((p.lift (userObs cap ov react)).call (.up 0) (p.start (userObs cap ov react) {})) = false :=
    (SyncPair.gone_iff (cap := cap) (ov := ov) react p hp hfit ⟨[], none⟩).trans (Bool.eq_false_iff.2 hne)
  have h1 : (p.lift (userObs cap ov react)).isDisposed ((p.lift (userObs cap ov react)).run ((p.lift (userObs cap ov react)).call (.up 0) (p.start (userObs cap ov react) {})) (calls ⟨[], some f⟩)) = true :=
    (SyncPair.gone_iff (cap := cap) (ov := ov) react p hp hfit _).trans (by apply Endless.enough_fin; exact Endless.pipe_fin p _ rfl)
  refine ⟨1 + 1, SyncUntil.settles (b := true) hp hfit (Gets.trans (t := ⟨(p.lift (userObs cap ov react)).run ((p.lift (userObs cap ov react)).call (.up 0) (p.start (userObs cap ov react) {})) (calls ⟨[], some f⟩), .main 0, true, 0, 0⟩) (Gets.one ?_) (Gets.one ?_))⟩
  · simp only [SyncUntil.step, h0, hy, hf, Bool.false_eq_true, if_false]; cases f <;> rfl
  · simp only [SyncUntil.step]; exact if_pos h1

/-- C125: with a trigger that says nothing, if the main observable's first values `as`, and no fewer, are all the subscriber needs, exactly these are taken, and `subscribe` returns. -/
theorem C125_enough (hp : p.WF) (hfit : Fits cap (p.finals.length + 1)) (hy : y.at' 0 = none) (hf : y.fin = none) (as : List α) (hx : x.Begins as)
    (hm : Enough react p ⟨as, none⟩) (hmin : ∀ k < as.length, ¬ Enough react p ⟨as.take k, none⟩) :
    ∃ k, ∀ k' ≥ k, let s := SyncUntil.sub cap ov react p x y k'
      s.pc = .done ∧ s.got = as.length ∧ SyncUntil.sees s = told react p ⟨as, none⟩ := by
  have hg := fun l => SyncResub.gone_iff (cap := cap) (ov := ov) react p hp hfit l
  have hc : calls (⟨as, none⟩ : Trace α ε) = as.map .next := by simp [calls, SyncResub.finCalls]
  have h1 := (silent (O := p.lift (userObs cap ov react)) (x := x) (o := (p.lift (userObs cap ov react)).call (.up 0) (p.start (userObs cap ov react) {})) hy hf).trans
    (main_values as.length as rfl (fun k hk => (hg _).trans (Bool.eq_false_iff.2 (hmin k hk))) hx)
  have h := SyncUntil.settles (t := ⟨as, none⟩) (b := false) hp hfit (h1.trans (Gets.one (t := ⟨_, .done, false, 0, as.length⟩) (by
    rw [hc]
    simp only [SyncUntil.step]
    exact if_pos ((hg _).trans hm))))
  exact ⟨_, fun k' hk' => ⟨(h k' hk').1, (h k' hk').2.2.1, (h k' hk').2.2.2⟩⟩

/-- C125: and otherwise the main observable is shown to its end. -/
theorem C125_ends (hp : p.WF) (hfit : Fits cap (p.finals.length + 1)) (hy : y.at' 0 = none) (hf : y.fin = none) (as : List α) (hx : x.Is as) (hne : ¬ Enough react p ⟨as, none⟩) :
    ∃ k, ∀ k' ≥ k, let s := SyncUntil.sub cap ov react p x y k'
      s.pc = .done ∧ s.got = as.length ∧ SyncUntil.sees s = told react p ⟨as, x.fin⟩ := by
  have hl : Lawful (p.lift (userObs cap ov react)) := Pipe.lift_lawful p userObs_lawful
  have hg := fun l => SyncResub.gone_iff (cap := cap) (ov := ov) react p hp hfit l
  have h0 := (hg as).trans (Bool.eq_false_iff.2 hne)
  have h1 := (silent (O := p.lift (userObs cap ov react)) (x := x) (o := (p.lift (userObs cap ov react)).call (.up 0) (p.start (userObs cap ov react) {})) hy hf).trans
    (main_values as.length as rfl (fun k hk => by
      have h : as = as.take k ++ as.drop k := (List.take_append_drop k as).symm
      rw [h] at h0
      exact SyncResub.not_gone hl h0) hx.1)
  have hc : calls (⟨as, x.fin⟩ : Trace α ε) = as.map .next ++ SyncResub.finCalls x.fin := rfl
  have h := SyncUntil.settles (t := ⟨as, x.fin⟩) (b := x.fin.isSome) hp hfit (h1.trans (Gets.one (t := ⟨_, .done, _, 0, as.length⟩) (by
    rw [hc, Obs.run_append]
    simp only [SyncUntil.step, h0, hx.2, Bool.false_eq_true, if_false]
    rcases x.fin with _ | ⟨e⟩ | _ <;> rfl)))
  exact ⟨_, fun k' hk' => ⟨(h k' hk').1, (h k' hk').2.2.1, (h k' hk').2.2.2⟩⟩

/-- C125: with a trigger that says nothing and a main observable without end, `subscribe` returns if and only if finitely many of its values are all the subscriber needs. -/
theorem C125_endless (hp : p.WF) (hfit : Fits cap (p.finals.length + 1)) (hy : y.at' 0 = none) (hf : y.fin = none) (v : Nat → α) (hx : ∀ i, x.at' i = some (v i)) :
    (∃ k, (SyncUntil.sub cap ov react p x y k).pc = .done) ↔ ∃ n, Enough react p ⟨(List.range n).map v, none⟩ := by
  classical
  have hg := fun l => SyncResub.gone_iff (cap := cap) (ov := ov) react p hp hfit l
  have hb : ∀ n, x.Begins ((List.range n).map v) := fun n i hi => by rw [hx]; simp
  have htake : ∀ n k, k < n → ((List.range n).map v).take k = (List.range k).map v := fun n k hk => by rw [← List.map_take, List.take_range, Nat.min_eq_left (by omega)]
  constructor
  · rintro ⟨k, h⟩
    apply Classical.byContradiction
    intro hn
    have h1 := (silent (O := p.lift (userObs cap ov react)) (x := x) (o := (p.lift (userObs cap ov react)).call (.up 0) (p.start (userObs cap ov react) {})) hy hf).trans
      (main_values k ((List.range k).map v) (by simp) (fun j hj => by
        rw [htake k j hj]
        exact (hg _).trans (Bool.eq_false_iff.2 fun h => hn ⟨j, h⟩)) (hb k))
    unfold Gets at h1
    rw [Nat.add_comm, SyncPair.repeat_add] at h1
    have h2 := done_stays (O := p.lift (userObs cap ov react)) (x := x) (y := y) 1 h
    have h3 : (SyncUntil.sub cap ov react p x y k).pc = .main k := congrArg St.pc (h2.symm.trans h1)
    rw [h] at h3
    cases h3
  · rintro ⟨n, hn⟩
    have hex : ∃ n, Enough react p ⟨(List.range n).map v, none⟩ ∧ ∀ k < n, ¬ Enough react p ⟨(List.range k).map v, none⟩ := by
      induction n using Nat.strongRecOn with
      | _ n ih =>
        by_cases h : ∃ k, k < n ∧ Enough react p ⟨(List.range k).map v, none⟩
        · obtain ⟨k, hk, hs⟩ := h; exact ih k hk hs
        · exact ⟨n, hn, fun k hk hs => h ⟨k, hk, hs⟩⟩
    obtain ⟨n, h1, h2⟩ := hex
    obtain ⟨k, h⟩ := C125_enough cap ov react p x y hp hfit hy hf _ (hb n) h1 (fun k hk => by
      rw [htake n k (by simpa using hk)]
      exact h2 k (by simpa using hk))
    exact ⟨k, (h k (Nat.le_refl _)).1⟩

/-! ## Cases -/

/-- The numbers without end as main observable and as trigger; `take_until` shows a completion only. -/
example : let x : Src Nat Unit := ⟨some, none⟩
    x.at' 0 = some 0 ∧ ¬ Enough (fun _ => ({} : Reaction Unit)) (.nil : Pipe Unit Nat Nat) ⟨[], none⟩ ∧
    (let s := SyncUntil.sub none () (fun _ => {}) (.nil : Pipe Unit Nat Nat) x x 9
     SyncUntil.sees s = [.completed] ∧ s.fired = 1 ∧ s.got = 0) := ⟨rfl, Bool.false_ne_true, by decide⟩

/-- A silent trigger and `take(2)`. -/
example : let x : Src Nat Unit := ⟨some, none⟩
    let y : Src Nat Unit := ⟨fun _ => none, none⟩
    Enough (fun _ => ({} : Reaction Unit)) (.cons (.take 2) .nil : Pipe Unit Nat Nat) ⟨[0, 1], none⟩ ∧ (∀ i, x.at' i = some i) ∧
    SyncUntil.sees (SyncUntil.sub none () (fun _ => {}) (.cons (.take 2) .nil : Pipe Unit Nat Nat) x y 9) = [.next 0, .next 1, .completed] := ⟨rfl, fun _ => rfl, by decide⟩

/-- A trigger that fails, and one that says nothing before `just(5)`. -/
example : let x : Src Nat Nat := ⟨fun i => [5][i]?, some .completed⟩
    x.Is [5] ∧
    SyncUntil.sees (SyncUntil.sub none 0 (fun _ => {}) (.nil : Pipe Nat Nat Nat) x (⟨fun _ => none, some (.error 3)⟩ : Src Nat Nat) 9) = [.error 3] ∧
    SyncUntil.sees (SyncUntil.sub none 0 (fun _ => {}) (.nil : Pipe Nat Nat Nat) x (⟨fun _ => none, none⟩ : Src Nat Nat) 9) = [.next 5, .completed] := by
  refine ⟨⟨fun i hi => ?_, rfl⟩, by decide, by decide⟩
  match i, hi with
  | 0, _ => rfl

end Rpp
