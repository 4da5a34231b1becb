import Verif.Core.Storage
import Verif.Combine.Props
import Verif.Subject.Props

/-!
# C101: how many values operators keep
-/

namespace Rpp.Storage

variable {ε : Type}

/-! ## Pipelines -/

/-- C101: whatever a pipeline's source does and whatever observer is subscribed to it, between two notifications its operators hold
together at most as many values as the bounds allow: `n` for `take_last(n)`, `n - 1` for `buffer(n)`, one for `last`, `scan`,
`reduce` and `distinct_until_changed`, none for the others (`distinct` has no bound). -/
theorem C101_pipeline {α γ τ : Type} (p : Pipe ε α γ) (O : Obs γ ε τ) (t : τ) (cs : List (Call α ε)) (k : Nat)
    (hk : roomAll p = some k) : heldAll p ((p.lift O).run (p.start O t) cs) ≤ k := by
  have hstart : {α γ : Type} → (p : Pipe ε α γ) → (O : Obs γ ε τ) → FitsAll p (p.start O t) := by
    intro α γ p
    induction p with
    | nil => intro _; trivial
    | cons o p ih => intro O; exact ⟨fits_init o, (keeps_pipe p O).run _ _ (ih O)⟩
  have hfit := (keeps_pipe p O).run cs _ (hstart p O)
  generalize (p.lift O).run (p.start O t) cs = s at hfit
  clear hstart cs
  induction p generalizing k with
  | nil => exact Nat.zero_le _
  | cons o p ih =>
    simp only [roomAll] at hk
    split at hk
    · next a b ha hb =>
      injection hk with hk
      subst hk
      exact Nat.add_le_add (held_le o _ hfit.1 a ha) (ih O b hb s.2 hfit.2)
    · cases hk

/-- What an operator's own members are after some values, as long as the observer below is not disposed. -/
theorem run_nexts {α β τ : Type} {o : Op ε α β} {O : Obs β ε τ} (hO : ∀ s, O.isDisposed s = false)
    (hth : ∀ a s, (o.strategy.onNext a s).throws = none) (l : List α) : ∀ s : o.State × τ,
    ((o.strategy.lift O).run s (l.map .next)).1 = l.foldl (fun x a => (o.strategy.onNext a x).st) s.1 := by
  induction l with
  | nil => intro s; rfl
  | cons a l ih =>
    intro s
    rw [List.map_cons, Obs.run_cons, ih, List.foldl_cons]
    congr 1
    simp [Obs.call, OpStrategy.lift, observerImpl, noneDisp, OpStrategy.strategy, hO, hth]

/-- The bound of `take_last` is reached: after `m` values it holds `min n m`. -/
theorem C101_take_last {α τ : Type} (n : Nat) (O : Obs α ε τ) (hO : ∀ s, O.isDisposed s = false) (t : τ) (l : List α) :
    held (Op.takeLast n : Op ε α α) (((Op.takeLast n).strategy.lift O).run ((Op.takeLast n).strategy.start O t) (l.map .next)).1 =
      min n l.length := by
  rw [run_nexts hO (by intro a s; simp only [Op.strategy, Ops.takeLast]; split <;> (try split) <;> rfl)]
  suffices ∀ (l : List α) (s : Ops.TakeLastSt α), s.cap = n → s.data.length ≤ n →
      (l.foldl (fun x a => ((Ops.takeLast n : OpStrategy α α ε _).onNext a x).st) s).data.length = min n (s.data.length + l.length) by
    have := this l (Ops.takeLast n : OpStrategy α α ε _).init rfl (Nat.zero_le _)
    refine Eq.trans this ?_
    simp [Ops.takeLast]
  intro l
  induction l with
  | nil => intro s _ h; simp; omega
  | cons a l ih =>
    intro s hc hl
    rw [List.foldl_cons, List.length_cons]
    have hs : ((Ops.takeLast n : OpStrategy α α ε _).onNext a s).st.cap = n ∧
        ((Ops.takeLast n : OpStrategy α α ε _).onNext a s).st.data.length = min n (s.data.length + 1) := by
      simp only [Ops.takeLast]
      split
      · exact ⟨hc, by show s.data.length = _; omega⟩
      · split
        · exact ⟨hc, by simp; omega⟩
        · exact ⟨hc, by simp; omega⟩
    rw [ih _ hs.1 (by rw [hs.2]; omega), hs.2]
    omega

/-- `buffer(n)` holds what is left over from the lists of `n` already emitted. -/
theorem C101_buffer {α τ : Type} (n : Nat) (O : Obs (List α) ε τ) (hO : ∀ s, O.isDisposed s = false) (t : τ) (l : List α) :
    held (Op.buffer n : Op ε α (List α)) (((Op.buffer n).strategy.lift O).run ((Op.buffer n).strategy.start O t) (l.map .next)).1 =
      l.length % max 1 n := by
  rw [run_nexts hO (by intro a s; simp only [Op.strategy, Ops.buffer]; split <;> rfl)]
  suffices ∀ (l : List α) (s : List α), s.length < max 1 n →
      (l.foldl (fun x a => ((Ops.buffer n : OpStrategy α (List α) ε _).onNext a x).st) s).length = (s.length + l.length) % max 1 n by
    have := this l [] (by simp; omega)
    refine Eq.trans this ?_
    simp
  intro l
  induction l with
  | nil => intro s h; simp [Nat.mod_eq_of_lt h]
  | cons a l ih =>
    intro s hs
    rw [List.foldl_cons, List.length_cons]
    by_cases h : s.length + 1 = max 1 n
    · have : ((Ops.buffer n : OpStrategy α (List α) ε _).onNext a s).st = [] := by simp [Ops.buffer, h]
      rw [this, ih [] (by simp; omega)]
      rw [show s.length + (l.length + 1) = l.length + max 1 n by omega, Nat.add_mod_right]
      simp
    · have : ((Ops.buffer n : OpStrategy α (List α) ε _).onNext a s).st = s ++ [a] := by simp [Ops.buffer, h]
      rw [this, ih _ (by simp; omega)]
      simp only [List.length_append, List.length_singleton]
      congr 1; omega

/-- `distinct` holds every value it has received, once; it is the only operator here without a bound. -/
theorem C101_distinct {α τ : Type} [BEq α] [LawfulBEq α] (O : Obs α ε τ) (hO : ∀ s, O.isDisposed s = false) (t : τ) (l : List α) :
    let s : List α := (((Op.distinct : Op ε α α).strategy.lift O).run ((Op.distinct : Op ε α α).strategy.start O t) (l.map .next)).1
    s.Nodup ∧ ∀ a, a ∈ s ↔ a ∈ l := by
  intro s
  have hs : s = l.foldl (fun x a => ((Ops.distinct : OpStrategy α α ε _).onNext a x).st) [] :=
    run_nexts (o := (Op.distinct : Op ε α α)) hO (by intro a s; simp only [Op.strategy, Ops.distinct]; split <;> rfl) l _
  rw [hs]
  suffices ∀ (l s : List α), s.Nodup →
      (l.foldl (fun x a => ((Ops.distinct : OpStrategy α α ε _).onNext a x).st) s).Nodup ∧
      ∀ a, a ∈ (l.foldl (fun x a => ((Ops.distinct : OpStrategy α α ε _).onNext a x).st) s) ↔ a ∈ s ∨ a ∈ l by
    simpa using this l [] List.nodup_nil
  intro l
  induction l with
  | nil => intro s h; exact ⟨h, by simp⟩
  | cons b l ih =>
    intro s h
    rw [List.foldl_cons]
    by_cases hb : b ∈ s
    · have : ((Ops.distinct : OpStrategy α α ε _).onNext b s).st = s := by simp [Ops.distinct, hb]
      rw [this]
      refine ⟨(ih s h).1, fun a => ?_⟩
      rw [(ih s h).2 a, List.mem_cons]
      constructor
      · rintro (h | h)
        · exact .inl h
        · exact .inr (.inr h)
      · rintro (h | h | h)
        · exact .inl h
        · exact .inl (h ▸ hb)
        · exact .inr h
    · have : ((Ops.distinct : OpStrategy α α ε _).onNext b s).st = b :: s := by simp [Ops.distinct, hb]
      rw [this]
      have h2 := ih (b :: s) (List.nodup_cons.2 ⟨hb, h⟩)
      refine ⟨h2.1, fun a => ?_⟩
      rw [h2.2 a, List.mem_cons, List.mem_cons]
      constructor
      · rintro ((h | h) | h)
        · exact .inr (.inl h)
        · exact .inl h
        · exact .inr (.inr h)
      · rintro (h | h | h)
        · exact .inl (.inr h)
        · exact .inl (.inl h)
        · exact .inr h

/-! ## replay_subject -/

/-- C101: a `replay_subject(n)`, with or without a time limit, never holds more than `max(1, n)` values. -/
theorem C101_replay {α σ : Type} [DecidableEq α] [DecidableEq ε] (cap : Option Nat) (ov : ε) (react : Nat → List (Call α ε) → Reaction ε)
    (n : Nat) (window : Option Int) (h : List (Int × Subj.Op α ε)) :
    (Subj.run ⟨cap, ov, react, Subj.replay (some n) window⟩ h).store.length ≤ max 1 n := by
  induction h using Subj.snoc_ind with
  | h0 => exact Nat.zero_le _
  | h1 h o ih =>
    rw [Subj.step_store]
    generalize (Subj.run ⟨cap, ov, react, Subj.replay (some n) window⟩ h).store = S at *
    have hp : ∀ (w now : Int) (l : List (Int × α)), (Subj.prune w now l).length ≤ l.length := by
      intro w now l
      induction l with
      | nil => exact Nat.le_refl _
      | cons p l ih => simp only [Subj.prune]; split <;> simp only [List.length_cons] <;> omega
    have hput : ∀ now v, ((Subj.replay (some n) window).put now v S).length ≤ max 1 n := by
      intro now v
      cases window with
      | none => simp only [Subj.replay, Subj.shrink, List.length_append, List.length_drop, List.length_singleton]; omega
      | some w =>
        have := hp w now (Subj.shrink (max 1 n) S)
        simp only [Subj.replay, Subj.shrink, List.length_append, List.length_drop, List.length_singleton] at this ⊢; omega
    have hget : ∀ b now, ((Subj.replay (some n) window).get b now S).2.length ≤ max 1 n := by
      intro b now
      cases window with
      | none => exact ih
      | some w => exact Nat.le_trans (hp w now S) ih
    grind

/-! ## zip -/

open Comb

/-- C101, for `zip`, at any time: if the selector does not throw, then of at least one source no value is held. -/
theorem C101_zip_one_empty {α β : Type} (n : Nat) (hn : 0 < n) (sel : List α → Except ε β) (hsel : ∀ l, ∃ w, sel l = .ok w)
    (ls : List (Lbl α ε)) : ∃ j < n, (exec (zipHub n sel) ls).st.pend j = [] := by
  have hz := zip_made hn sel (exec (zipHub n sel) ls).log
  rw [← (inv1 (zipHub n sel) ls).st] at hz
  rcases hz.full with ⟨j, hj, h⟩ | ⟨⟨e, he⟩, -⟩
  · exact ⟨j, hj, by rw [(hz.pend j hj).2, ← h, List.drop_length]⟩
  · obtain ⟨w, hw⟩ := hsel (row n (fun j => sigVals (processed j (exec (zipHub n sel) ls).log)) (nexts (replay (zipHub n sel) (exec (zipHub n sel) ls).log).1).length)
    rw [hw] at he; cases he

/-- C101, for `zip`: when no call is in progress and it has neither ended nor been disposed, it holds of each source exactly what that
source has sent beyond the rows made. -/
theorem C101_zip_held {α β : Type} (n : Nat) (hn : 0 < n) (sel : List α → Except ε β) (ls : List (Lbl α ε))
    (hq : Quiet (exec (zipHub n sel) ls)) (hg : .gone ∉ (exec (zipHub n sel) ls).log) (he : ¬ Ended (exec (zipHub n sel) ls).log)
    (j : Nat) (hj : j < n) : (exec (zipHub n sel) ls).st.pend j =
      (sigVals (received j (exec (zipHub n sel) ls).log)).drop (values (exec (zipHub n sel) ls).log).length := by
  have hz := zip_made hn sel (exec (zipHub n sel) ls).log
  rw [← (inv1 (zipHub n sel) ls).st] at hz
  obtain ⟨rest, h1, h2⟩ := values_order _ (zip_late n sel) ls
  rw [h2 (not_gone ls hg he)] at h1
  have : (exec (zipHub n sel) ls).atDoor = [] := by
    unfold St.atDoor
    cases (exec (zipHub n sel) ls).lock with
    | none => rfl
    | some i => simp [hq i]
  rw [this] at h1
  rw [(hz.pend j hj).2, h1, processed_eq ls (hq j)]
  simp

/-- The statement that fails: when a source of the `zip` has completed and all its values have been used, so that nothing can be emitted
any more, there is a bound on the number of values held. -/
def NoWaste (α β ε : Type) : Prop := ∀ (n : Nat) (sel : List α → Except ε β) (i : Nat), i < n → ∃ bound, ∀ ls : List (Lbl α ε), ∀ j < n,
  Quiet (exec (zipHub n sel) ls) → .recv i (.term .completed) ∈ (exec (zipHub n sel) ls).log → (exec (zipHub n sel) ls).st.pend i = [] →
  ((exec (zipHub n sel) ls).st.pend j).length ≤ bound

/-- `n` values of source 1, after source 0 has completed. -/
def feed (n : Nat) : List (Lbl Nat Nat) :=
  [.term 0 .completed, .run 0, .run 0] ++ (List.range n).flatMap fun k => [.next 1 k, .run 1, .run 1]

theorem feed_run (n : Nat) : ∃ s, exec (zipHub 2 demoSel) (feed n) = s ∧ Quiet s ∧ s.lock = none ∧ s.active 1 = true ∧ s.done 1 = false ∧
    s.shut = false ∧ .recv 0 (.term .completed) ∈ s.log ∧ s.st.pend 0 = [] ∧ s.st.pend 1 = List.range n := by
  induction n with
  | zero =>
    refine ⟨_, rfl, ?_, by decide, by decide, by decide, by decide, by decide, by decide, by decide⟩
    intro k
    rcases k with _ | k <;> rfl
  | succ n ih =>
    obtain ⟨s, h1, h2, h3, h4, h5, h6, h7, h8, h9⟩ := ih
    have hf : feed (n + 1) = feed n ++ [.next 1 n, .run 1, .run 1] := by simp [feed, List.range_succ]
    have he : exec (zipHub 2 demoSel) (feed (n + 1)) = step (zipHub 2 demoSel) (step (zipHub 2 demoSel) (step (zipHub 2 demoSel) s (.next 1 n)) (.run 1)) (.run 1) := by
      rw [hf, exec, List.foldl_append, ← h1]; rfl
    have hq1 := h2 1
    have hall : ((List.range 2).all fun j => !(update s.st.pend 1 (s.st.pend 1 ++ [n]) j).isEmpty) = false := by
      simp [List.range_succ, update, h8]
    have s1 : step (zipHub 2 demoSel) s (.next 1 n) = (s.goto 1 (.pre (.next n))).emit (.recv 1 (.next n)) := by
      simp [step, hq1, Pc.isIdle, h4, h5, h6]
    have hz : (zipHub (ε := Nat) 2 demoSel).act 1 (.next n) s.st = (.silent, { s.st with pend := update s.st.pend 1 (s.st.pend 1 ++ [n]) }) := by
      simp only [zipHub, hall]; rfl
    refine ⟨_, he, ?_⟩
    rw [s1]
    simp only [step, St.advance, St.emit, St.goto, St.process, if_true, hz]
    simp only [zipHub, h3, Bool.false_eq_true, if_false, if_true]
    refine ⟨fun k => ?_, trivial, h4, h5, h6, by simp [h7], ?_, ?_⟩
    · by_cases hk : k = 1
      · simp [hk]
      · simp [hk, h2 k]
    · simp [update, h8]
    · simp [update, h9, List.range_succ]

/-- C101 fails for `zip`: when a source has completed and has nothing left, it goes on storing all values of the others. -/
theorem C101_waste_refutes : ¬ NoWaste Nat (List Nat) Nat := by
  intro h
  obtain ⟨b, hb⟩ := h 2 demoSel 0 (by decide)
  obtain ⟨s, h1, h2, _, _, _, _, h7, h8, h9⟩ := feed_run (b + 1)
  have := hb (feed (b + 1)) 1 (by decide)
  rw [h1] at this
  have := this h2 h7 h8
  rw [h9, List.length_range] at this
  omega

/-! ## Concrete cases -/

/-- An observer that is never disposed, for the examples: it keeps what it is told. -/
def sink (γ : Type) : Obs γ Nat (List γ) where
  onNext a s := s ++ [a]
  onError _ s := s
  onCompleted s := s
  setUpstream _ s := s
  isDisposed _ := false
  release _ s := s

/-- `take_last(3) | scan | buffer(2)`: at most `3 + 1 + 1` values. -/
def demoPipe : Pipe Nat Nat (List Nat) :=
  .cons (.takeLast 3) (.cons (.scan 0 fun a b => .ok (a + b)) (.cons (.buffer 2) .nil))

example : roomAll demoPipe = some 5 := rfl
example : heldAll demoPipe ((demoPipe.lift (sink _)).run (demoPipe.start (sink _) []) (([1, 2, 3, 4, 5] : List Nat).map .next)) = 5 := by
  decide
example : ∀ s, (sink Nat).isDisposed s = false := fun _ => rfl
/-- `zip` with one source a value ahead. -/
example : (exec (zipHub 2 demoSel) ([.next 0 7, .run 0, .run 0] ++ whole 1 (.next 1 8) ++ [.next 1 9, .run 1, .run 1])).st.pend 1 = [9] := by decide

end Rpp.Storage
