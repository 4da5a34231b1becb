import Verif.Time.Caller

/-!
# C123: property theorems

`delay`, `observe_on`, `debounce` and `timeout` on a scheduler that runs its tasks inside `schedule` (`immediate`, and `current_thread` where nothing runs yet), over any chain of operators (`Pipe`) and callbacks (`react`).
The clock goes on by any amount between any two steps (`tick`); `l` and `fin` are what the source hands over; `.done` means that `subscribe` has returned, `.stuck` that the thread waits for a mutex it holds itself.
-/

namespace Rpp

open Caller
open SyncPair (told Enough)

variable {α γ ε : Type} [DecidableEq α] [DecidableEq γ] [DecidableEq ε]

namespace Caller

/-- A subscription to `source | delay(…) | p` and the like, `k` steps later; put together from cited definitions. -/
def sub (c : Cfg α ε) (cap : Option Nat) (ov : ε) (react : List (Call γ ε) → Reaction ε) (p : Pipe ε α γ) (l : List α) (k : Nat) : St α ε (p.State (UserSt γ ε)) :=
  exec c (p.lift (userObs cap ov react)) l (p.start (userObs cap ov react) {}) k

/-- What the callbacks were told; reads the model's state. -/
def sees {p : Pipe ε α γ} (s : St α ε (p.State (UserSt γ ε))) : List (Call γ ε) := evsOf (p.final s.obs).log

theorem settles {c : Cfg α ε} {cap : Option Nat} {ov : ε} {react : List (Call γ ε) → Reaction ε} {p : Pipe ε α γ} (hp : p.WF) (hfit : Fits cap (p.finals.length + 1)) {l : List α} {t : Trace α ε} {w : Pc α ε} (hw : w = .done ∨ w = .stuck)
    {r : St α ε (p.State (UserSt γ ε)) → Prop} (hr : ∀ u u', u.rest = u'.rest → r u → r u')
    (h : Leads c (p.lift (userObs cap ov react)) (sub c cap ov react p l 0) (fun u => u.pc = w ∧ u.obs = (p.lift (userObs cap ov react)).run ((p.lift (userObs cap ov react)).call (.up 0) (p.start (userObs cap ov react) {})) (SyncPair.calls t) ∧ r u)) :
    ∃ k, ∀ k' ≥ k, let s := sub c cap ov react p l k'
      s.pc = w ∧ sees s = told react p t ∧ r s := by
  obtain ⟨k, h1, h2, h3⟩ := h
  refine ⟨k, fun k' hk' => ?_⟩
  obtain ⟨j, rfl⟩ := Nat.exists_eq_add_of_le hk'
  intro s
  have hs : s = _ := SyncPair.repeat_add _ k j _
  have hst := stays (c := c) (O := p.lift (userObs cap ov react)) j (s := Nat.repeat (step c (p.lift (userObs cap ov react))) k (sub c cap ov react p l 0)) (by rw [h1]; exact hw)
  have hs' : s = Nat.repeat (step c (p.lift (userObs cap ov react))) j (Nat.repeat (step c (p.lift (userObs cap ov react))) k (sub c cap ov react p l 0)) := hs
  rw [hs']
  refine ⟨hst.2.1.trans h1, ?_, hr _ _ hst.2.2.symm h3⟩
  unfold sees
  rw [hst.1, h2]
  exact SyncPair.sees_told (cap := cap) (ov := ov) react p hp hfit t

end Caller

variable (c : Cfg α ε) (cap : Option Nat) (ov : ε) (react : List (Call γ ε) → Reaction ε) (p : Pipe ε α γ)

/-- C123: with delay and observe_on `subscribe` returns, and the subscriber has seen what it would have seen without them. -/
theorem C123_delay (hk : c.kd = .delay ∨ c.kd = .observeOn) (hp : p.WF) (hfit : Fits cap (p.finals.length + 1)) (l : List α) :
    ∃ k, ∀ k' ≥ k, let s := Caller.sub c cap ov react p l k'
      s.pc = .done ∧ Caller.sees s = told react p ⟨l, c.fin⟩ := by
  have hl : Lawful (p.lift (userObs cap ov react)) := Pipe.lift_lawful p userObs_lawful
  have hkt : c.kd ≠ .timeout := by rcases hk with h | h <;> rw [h] <;> intro h <;> cases h
  have h := Caller.delay_all hl hk l (Caller.sub c cap ov react p l 0) ((p.lift (userObs cap ov react)).call (.up 0) (p.start (userObs cap ov react) {}))
    ⟨rfl, if_neg hkt, rfl, rfl, rfl, rfl, rfl, rfl⟩
  obtain ⟨k, h⟩ := Caller.settles (r := fun _ => True) (t := ⟨l, c.fin⟩) hp hfit (.inl rfl) (fun _ _ _ _ => trivial) (h.trans fun u hu => Leads.now ⟨hu.1, hu.2, trivial⟩)
  exact ⟨k, fun k' hk' => ⟨(h k' hk').1, (h k' hk').2.1⟩⟩

/-- C123: and at any moment, everything the task has passed on it has passed on no earlier than the period after it arrived. -/
theorem C123_late (hk : c.kd ≠ .debounce) (l : List α) (k : Nat) : ∀ q ∈ (Caller.sub c cap ov react p l k).shown, q.1 + c.d ≤ q.2 := by
  have h : Timed c (Caller.sub c cap ov react p l k) := by
    unfold Caller.sub Caller.exec
    induction k with
    | zero =>
      refine ⟨fun q hq => (by cases hq), fun x t h => ?_⟩
      simp only [Nat.repeat] at h
      split at h <;> cases h
    | succ k ih => exact timed_step hk ih
  exact h.shown

/-- C123: with debounce the thread hangs for ever at the source's first value, holding the mutex its own task waits for; nothing is shown, whatever the source does after that. -/
theorem C123_debounce_refutes (hk : c.kd = .debounce) (hp : p.WF) (hfit : Fits cap (p.finals.length + 1)) (a : α) (l : List α) (hne : ¬ Enough react p ⟨[], none⟩) :
    ∃ k, ∀ k' ≥ k, let s := Caller.sub c cap ov react p (a :: l) k'
      s.pc = .stuck ∧ Caller.sees s = told react p ⟨[], none⟩ ∧ s.rest = l := by
  have hkt : c.kd ≠ .timeout := by rw [hk]; intro h; cases h
  have hd : (p.lift (userObs cap ov react)).isDisposed ((p.lift (userObs cap ov react)).call (.up 0) (p.start (userObs cap ov react) {})) = false :=
    (SyncPair.gone_iff (cap := cap) (ov := ov) react p hp hfit _).trans (Bool.eq_false_iff.2 hne)
  have h := Caller.debounce_stuck (c := c) (O := p.lift (userObs cap ov react)) hk (s := Caller.sub c cap ov react p (a :: l) 0) (a := a) (r := l)
    ⟨rfl, if_neg hkt, rfl, rfl, rfl, rfl, rfl, rfl⟩ (if_neg hkt) hd
  exact Caller.settles (r := fun u => u.rest = l) (t := ⟨[], none⟩) hp hfit (.inr rfl) (fun _ _ e e' => e.symm.trans e') h

/-- C123: with timeout the subscriber gets the fallback, always and before the source is even subscribed to: no value of the source is taken, however fast it is. -/
theorem C123_timeout_refutes (hk : c.kd = .timeout) (hp : p.WF) (hfit : Fits cap (p.finals.length + 1)) (l : List α) (hne : ¬ Enough react p ⟨[], none⟩) :
    ∃ k, ∀ k' ≥ k, let s := Caller.sub c cap ov react p l k'
      s.pc = .done ∧ Caller.sees s = told react p c.fb ∧ s.rest = l := by
  have hl : Lawful (p.lift (userObs cap ov react)) := Pipe.lift_lawful p userObs_lawful
  have hd : (p.lift (userObs cap ov react)).isDisposed ((p.lift (userObs cap ov react)).call (.up 0) (p.start (userObs cap ov react) {})) = false :=
    (SyncPair.gone_iff (cap := cap) (ov := ov) react p hp hfit _).trans (Bool.eq_false_iff.2 hne)
  refine Caller.settles (r := fun u => u.rest = l) (t := c.fb) hp hfit (.inl rfl) (fun _ _ e e' => e.symm.trans e') ?_
  have h := Caller.to_task (c := c) (O := p.lift (userObs cap ov react)) (s := Caller.sub c cap ov react p l 0) (tp := c.d) (if_pos hk) (by
    show ((p.lift (userObs cap ov react)).isDisposed ((p.lift (userObs cap ov react)).call (.up 0) (p.start (userObs cap ov react) {})) || false) = false
    rw [hd]; rfl)
  refine h.trans ?_
  rintro u ⟨now, n, hle, rfl⟩
  apply Leads.step
  have e : Caller.step c (p.lift (userObs cap ov react)) { Caller.sub c cap ov react p l 0 with pc := .task, now := now, n := n }
      = { Caller.sub c cap ov react p l 0 with pc := .fallback c.fb.vals, now := now + c.tick n, n := n + 1, dead := true, held := true } := by
    have hlt : ¬ now + c.tick n < c.d := by omega
    simp only [Caller.sub, Caller.exec, Nat.repeat, Caller.step, Caller.act, Caller.task, hk, if_true, Bool.false_eq_true, if_false, hlt, Caller.gone, hd, Bool.or_false]
  rw [e]
  refine (Caller.fallback_all hl c.fb.vals _ rfl rfl rfl).trans ?_
  rintro u ⟨u1, u2, u3⟩
  exact Leads.now ⟨u1, u2, u3⟩

/-! ## Cases -/

set_option maxRecDepth 4000 in
/-- `just(1, 2) | delay(5)` on the immediate scheduler; a step takes one unit of time. -/
example : let s := Caller.sub (ε := Unit) ⟨.delay, 5, some .completed, ⟨[], none⟩, fun _ => 1⟩ none () (fun _ => {}) (.nil : Pipe Unit Nat Nat) [1, 2] 25
    Caller.sees s = [.next 1, .next 2, .completed] ∧ s.shown.length = 3 ∧ s.shown.all (fun q => q.1 + 5 ≤ q.2) := by decide

set_option maxRecDepth 4000 in
/-- `just(1, 2) | debounce(5)`, where other schedulers show `2`. -/
example : let s := Caller.sub (ε := Unit) ⟨.debounce, 5, some .completed, ⟨[], none⟩, fun _ => 1⟩ none () (fun _ => {}) (.nil : Pipe Unit Nat Nat) [1, 2] 25
    Caller.sees s = [] ∧ s.held = true ∧ s.rest = [2] := by decide

set_option maxRecDepth 4000 in
/-- `just(1, 2) | timeout(5, just(9))`, where other schedulers show `1, 2`. -/
example : let s := Caller.sub (ε := Unit) ⟨.timeout, 5, some .completed, ⟨[9], some .completed⟩, fun _ => 1⟩ none () (fun _ => {}) (.nil : Pipe Unit Nat Nat) [1, 2] 25
    Caller.sees s = [.next 9, .completed] ∧ s.rest = [1, 2] := by decide

example : ¬ Enough (ε := Unit) (fun _ => {}) (.cons (.take 1) .nil : Pipe Unit Nat Nat) ⟨[], none⟩ := Bool.false_ne_true

end Rpp
