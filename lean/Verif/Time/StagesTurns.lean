import Verif.Time.StagesProps

/-!
# C100: every piece of a cut pipeline gets one call at a time
-/

namespace Rpp.Stages
open Rpp.Time (Delay.St Delay.Item Delay.CPc Delay.TPc)

/-- The step of the cut's machine which something happening at the cut is, if it can start a callback; no counterpart in /repo. -/
def Act.runs {α ε : Type} : Act → Option (Time.Delay.Lbl α ε)
  | .call => some (.call 0)
  | .task t => some (.task t)
  | _ => none

/-- The specification: `a` at the `n`-th cut would call the piece behind it while that is still busy with an earlier call. -/
def Chain.Clash {ε : Type} : {α γ : Type} → (c : Chain ε α γ) → c.State → Nat → Act → Prop
  | _, _, .last _, _, _, _ => False
  | _, _, .stage _ _ _ rest, s, 0, a => (∃ l x, a.runs = some l ∧ starts s.1.st l = some x) ∧ rest.busy s.2 = true
  | _, _, .stage _ _ _ rest, s, n + 1, a => rest.Clash s.2 n a

/-- A callback of the observer behind the cut has been entered and not left. -/
def Inside {α ε : Type} (st : Delay.St α ε) : Prop := (∃ t x, st.tasks t = .inCall x) ∨ ∃ e, st.calls 0 = .inErr e

/-- Used in the proofs; models no code. -/
def Chain.Turns {ε : Type} : {α γ : Type} → (c : Chain ε α γ) → c.State → Prop
  | _, _, .last _, _ => True
  | _, _, .stage _ _ _ rest, s => (rest.busy s.2 = true → Inside s.1.st) ∧ rest.Turns s.2

theorem step_idle {α ε : Type} (clr d) (s : Delay.St α ε) (l : Time.Delay.Lbl α ε) (hl : plain l = true) (h : s.calls 0 = .idle) :
    (Time.Delay.step clr d s l).calls 0 = .idle := by
  cases l with
  | tick k => exact h
  | dispose => exact h
  | arrive j x => cases hl
  | call j =>
    have : j = 0 := by simpa [plain] using hl
    subst this
    simp [Time.Delay.step, Time.Delay.stepCall, h]
  | task t =>
    simp only [Time.Delay.step, Time.Delay.stepTask]
    split
    · exact h
    · exact h
    · exact h
    · split
      · exact h
      · split
        · exact h
        · split <;> exact h
    · split <;> exact h
    · exact h

theorem step_inside {α ε : Type} (clr d) (s : Delay.St α ε) (l : Time.Delay.Lbl α ε) (hl : plain l = true) (hf : Time.Delay.InvF s)
    (hr : returns s l = false) (h : Inside s) : Inside (Time.Delay.step clr d s l) := by
  cases l with
  | tick k => exact h
  | dispose => exact h
  | arrive j x => cases hl
  | call j =>
    have : j = 0 := by simpa [plain] using hl
    subst this
    rcases h with ⟨t, x, ht⟩ | ⟨e, he⟩
    · left
      refine ⟨t, x, ?_⟩
      have hfr : t ≠ s.fresh := fun e => by
        have := hf s.fresh (Nat.le_refl _)
        rw [← e, ht] at this
        cases this
      simp only [Time.Delay.step, Time.Delay.stepCall]
      split
      · exact ht
      · split
        · exact ht
        · split
          · exact ht
          · simp only [Time.Delay.St.emplace]
            split <;> exact ht
      · simp [Time.Delay.St.setTask, Time.Delay.St.setCall, hfr, ht]
      · split <;> exact ht
      · exact ht
    · simp [returns, he] at hr
  | task u =>
    have hc : (Time.Delay.step clr d s (.task u)).calls = s.calls ∧ ∀ t, t ≠ u → (Time.Delay.step clr d s (.task u)).tasks t = s.tasks t := by
      simp only [Time.Delay.step, Time.Delay.stepTask]
      split
      · exact ⟨rfl, fun _ _ => rfl⟩
      · exact ⟨rfl, fun _ _ => rfl⟩
      · exact ⟨rfl, fun t ht => if_neg ht⟩
      · split
        · exact ⟨rfl, fun _ _ => rfl⟩
        · split
          · exact ⟨rfl, fun t ht => if_neg ht⟩
          · split <;> exact ⟨rfl, fun t ht => if_neg ht⟩
      · split <;> exact ⟨rfl, fun t ht => if_neg ht⟩
      · exact ⟨rfl, fun t ht => if_neg ht⟩
    rcases h with ⟨t, x, ht⟩ | ⟨e, he⟩
    · refine .inl ⟨t, x, ?_⟩
      rw [hc.2 t ?_, ht]
      rintro rfl
      simp [returns, ht] at hr
    · exact .inr ⟨e, by rw [hc.1, he]⟩

theorem starts_inside {α ε : Type} (clr d) (s : Delay.St α ε) (l : Time.Delay.Lbl α ε) (hl : plain l = true) (x : Delay.Item α ε) (h : starts s l = some x) :
    Inside (Time.Delay.step clr d s l) := by
  cases l with
  | tick k => cases h
  | dispose => cases h
  | arrive j x => cases hl
  | call j =>
    have : j = 0 := by simpa [plain] using hl
    subst this
    simp only [starts] at h
    split at h
    · rename_i e he
      split at h
      · cases h
      · rename_i hd
        exact .inr ⟨e, by simp [Time.Delay.step, Time.Delay.stepCall, he, hd, Time.Delay.St.setCall]⟩
    · cases h
  | task u =>
    simp only [starts] at h
    split at h
    · rename_i y tp he
      split at h
      · cases h
      · rename_i hd
        exact .inl ⟨u, y, by simp [Time.Delay.step, Time.Delay.stepTask, he, hd, Time.Delay.St.setTask]⟩
    · cases h

section
variable {ε : Type} [DecidableEq ε] {ov : ε}

theorem busy_stage {α β γ : Type} {p : Pipe ε α β} {clr d} {rest : Chain ε β γ} {k : Link α β ε} {r : rest.State} :
    (Chain.stage p clr d rest).busy (k, r) = (!(pending p k).isEmpty || !isIdle (k.st.calls 0)) := rfl

theorem Chain.busy_act : {α γ : Type} → [DecidableEq γ] → {react : List (Call γ ε) → Reaction ε} → (c : Chain ε α γ) → (s : c.State) →
    (n : Nat) → (a : Act) → c.busy (c.act ov react s n a) = true → c.busy s = true
  | _, _, _, _, .last _, _, _, _, h => h
  | _, _, _, _, .stage .., _, _ + 1, _, h => h
  | _, _, _, react, .stage p clr d rest, s, 0, a, h => by
    have h : (Chain.stage p clr d rest).busy (cutAct ov react p clr d rest s a) = true := h
    rcases cutAct_cut (ov := ov) (react := react) p clr d rest s a with e | e
    · rwa [e] at h
    · generalize cutAct ov react p clr d rest s a = s' at h e
      cases e with
      | push y m hp hi =>
        show (!(pending p s.1).isEmpty || !isIdle (s.1.st.calls 0)) = true
        rw [hp]; rfl
      | plain l hl hd =>
        rw [busy_stage] at h
        show (!(pending p s.1).isEmpty || !isIdle (s.1.st.calls 0)) = true
        simp only [Bool.or_eq_true, Bool.not_eq_true'] at h ⊢
        refine h.imp id fun h => ?_
        cases hc : s.1.st.calls 0 with
        | idle => rw [step_idle clr d s.1.st l hl hc] at h; exact h
        | _ => rfl
      | dispose hx => exact h

theorem Chain.turns_offer : {α γ : Type} → (c : Chain ε α γ) → (s : c.State) → (x : Delay.Item α ε) → c.Turns s → c.Turns (c.offer s x)
  | _, _, .last _, _, _, _ => trivial
  | _, _, .stage .., _, _, h => h

theorem Chain.turns_act {u : Bool} : {α γ : Type} → [DecidableEq γ] → {react : List (Call γ ε) → Reaction ε} → (c : Chain ε α γ) → (s : c.State) →
    (n : Nat) → (a : Act) → c.Good ov u react s → c.Turns s → c.Turns (c.act ov react s n a)
  | _, _, _, _, .last _, _, _, _, _, _ => trivial
  | _, _, _, react, .stage _ _ _ rest, s, n + 1, a, g, h => by
    refine ⟨fun hb => h.1 (rest.busy_act s.2 n a hb), rest.turns_act s.2 n a g.2.2.2 h.2⟩
  | _, _, _, react, .stage p clr d rest, s, 0, a, g, h => by
    obtain ⟨k, r⟩ := s
    obtain ⟨ls, hls⟩ := g.1.reach
    have hf : Time.Delay.InvF k.st := by rw [show k.st = _ from hls]; exact Time.Delay.invF clr d ls
    have adv : ∀ l, plain l = true → (Chain.stage p clr d rest).Turns (advance clr d rest (k, r) l) := by
      intro l hl
      unfold advance
      by_cases hb : (returns k.st l && rest.busy r) = true
      · rw [if_pos hb]; exact h
      · rw [if_neg hb]
        cases hst : starts k.st l with
        | some x => exact ⟨fun _ => starts_inside clr d k.st l hl x hst, rest.turns_offer r x h.2⟩
        | none =>
          refine ⟨fun hr => step_inside clr d k.st l hl hf ?_ (h.1 hr), h.2⟩
          have hr : rest.busy r = true := hr
          rw [hr] at hb
          simpa using hb
    cases a with
    | push =>
      show (Chain.stage p clr d rest).Turns (cutAct ov react p clr d rest (k, r) .push)
      simp only [cutAct]
      split
      · exact h
      · split
        · rename_i hi
          refine ⟨fun hb => ?_, h.2⟩
          have hi : isIdle (k.st.calls 0) = true := hi
          rcases h.1 hb with ⟨t, x, ht⟩ | ⟨e, he⟩
          · refine .inl ⟨t, x, ?_⟩
            simp only [Time.Delay.step]
            split
            · split <;> exact ht
            · exact ht
          · have he : k.st.calls 0 = .inErr e := he
            rw [he] at hi; cases hi
        · exact h
    | call => exact adv _ rfl
    | task t => exact adv _ rfl
    | tick j => exact h
    | close =>
      show (Chain.stage p clr d rest).Turns (cutAct ov react p clr d rest (k, r) .close)
      simp only [cutAct]
      split <;> exact h
    | dispose => exact h

theorem Chain.busy_quiet : {α γ : Type} → (c : Chain ε α γ) → (s : c.State) → c.Quiet s → c.busy s = false
  | _, _, .last _, _, _ => rfl
  | _, _, .stage p _ _ _, s, h => by
    show (!(pending p s.1).isEmpty || !isIdle (s.1.st.calls 0)) = false
    rw [h.1, h.2.1.1 0]; rfl

theorem Chain.turns_quiet : {α γ : Type} → (c : Chain ε α γ) → (s : c.State) → c.Quiet s → c.Turns s
  | _, _, .last _, _, _ => trivial
  | _, _, .stage _ _ _ rest, s, h => ⟨fun hb => absurd (hb.symm.trans (rest.busy_quiet s.2 h.2.2)) (by simp), rest.turns_quiet s.2 h.2.2⟩

theorem Chain.no_clash {u : Bool} : {α γ : Type} → [DecidableEq γ] → {react : List (Call γ ε) → Reaction ε} → (c : Chain ε α γ) → (s : c.State) →
    (n : Nat) → (a : Act) → c.Good ov u react s → c.NoError s → c.Turns s → ¬ c.Clash s n a
  | _, _, _, _, .last _, _, _, _, _, _, _ => fun h => h
  | _, _, _, _, .stage _ _ _ rest, s, n + 1, a, g, e, h => rest.no_clash s.2 n a g.2.2.2 e.2 h.2
  | _, _, _, _, .stage p clr d rest, s, 0, a, g, e, h => by
    rintro ⟨⟨l, x, ha, hs⟩, hb⟩
    obtain ⟨ls, hls⟩ := g.1.reach
    have hE := invE clr d ls
    rw [← hls] at hE
    have hnl : ∀ i, (s.1.st.calls i).locks = true → False := fun i hi => by
      obtain ⟨e', t, hm⟩ := hE.locks i hi
      exact e.1 e' t hm
    obtain ⟨own, ho⟩ := Time.Delay.invO clr d ls
    rw [← hls] at ho
    obtain ⟨t, y, ht⟩ : ∃ t y, s.1.st.tasks t = .inCall y := (h.1 hb).resolve_right fun ⟨e', he⟩ => hnl 0 (by rw [he]; rfl)
    cases a with
    | call =>
      injection ha with ha; subst ha
      simp only [starts] at hs
      split at hs
      · rename_i e' he; exact hnl 0 (by rw [he]; rfl)
      · cases hs
    | task t' =>
      injection ha with ha; subst ha
      simp only [starts] at hs
      split at hs
      · rename_i z tp hz
        have := ho.hold_unique (t := t) (u := t') (by rw [ht]; rfl) (by rw [hz]; rfl)
        subst this
        rw [ht] at hz; cases hz
      · cases hs
    | _ => cases ha

theorem Chain.turns_run {α γ : Type} [DecidableEq γ] {react : List (Call γ ε) → Reaction ε} (c : Chain ε α γ) (ls : List (Lbl α ε)) (s : c.State)
    (g : c.Good ov true react s) (h : c.Turns s) : c.Turns (ls.foldl (c.step ov react) s) := by
  induction ls generalizing s with
  | nil => exact h
  | cons l ls ih =>
    refine ih _ (c.good_step s l (.inr rfl) g) ?_
    cases l with
    | src x =>
      show c.Turns (if c.busy s then s else c.offer s x)
      split
      · exact h
      · exact c.turns_offer s x h
    | act n a => exact c.turns_act s n a g h

/-- **C100, one call at a time.** Once what the operators say at subscription has been handed on (`ls0`; for most pipelines that is nothing), no cut ever calls the piece behind it while that is still handing on the result of an earlier call: the pieces run on different threads, but each of them gets its calls one after the other, as the operators need it (C08). As before, no error has reached an `observe_on` (C37). -/
theorem C100_turns {α γ : Type} [DecidableEq γ] (ov : ε) (react : List (Call γ ε) → Reaction ε) (c : Chain ε α γ) (ls0 ls : List (Lbl α ε))
    (hq : c.Quiet (c.run ov react ls0)) (he : c.NoError (c.run ov react (ls0 ++ ls))) (n : Nat) (a : Act) :
    ¬ c.Clash (c.run ov react (ls0 ++ ls)) n a := by
  refine c.no_clash (u := true) (ov := ov) (react := react) _ n a (c.good_run (ls0 ++ ls) (.inr rfl)) he ?_
  have e : c.run ov react (ls0 ++ ls) = ls.foldl (c.step ov react) (c.run ov react ls0) := by simp [Chain.run]
  rw [e]
  exact c.turns_run ls _ (c.good_run ls0 (.inr rfl)) (c.turns_quiet _ hq)

end

/-- Everything is at rest when `demo` has been subscribed to. Later, with the callback of the first worker entered (`.task 0`), the piece behind it is busy: the worker has to wait before it can go on to the next value. -/
example : demo.Quiet (demo.run 0 (fun _ => {}) []) ∧
    ((demo.run 0 (fun _ => {}) (oneThrough (.val 10) 2 0)).1.st.tasks 0 = .inCall (.val 11)) ∧
    ((demo.run 0 (fun _ => {}) (oneThrough (.val 10) 2 0 ++ [.act 0 (.task 0)])).1.st.tasks 0 = .inCall (.val 11)) ∧
    ((demo.run 0 (fun _ => {}) (oneThrough (.val 10) 2 0 ++ [.act 1 .push, .act 1 .call, .act 1 .call, .act 0 (.task 0)])).1.st.tasks 0 = .loop) := by
  refine ⟨⟨rfl, ⟨fun _ => rfl, fun _ => .inl rfl⟩, rfl, ⟨fun _ => rfl, fun _ => .inl rfl⟩, trivial⟩, ?_, ?_, ?_⟩ <;> decide

/-- `observe_on | delay(5)`: a cut right behind a cut. -/
def double : Chain Nat Nat Nat := .stage .nil true 0 (.stage .nil false 5 (.last .nil))

/-- Why `NoError` (disagreement 5 in DESIGN.md, C37): the worker is inside the callback for a value, which has not been handed on yet, and the source's thread calls the same observer with the error (delay.hpp 115-118). -/
theorem error_clashes : ∃ ls : List (Lbl Nat Nat), double.Quiet (double.run 0 (fun _ => {}) []) ∧ double.Clash (double.run 0 (fun _ => {}) ls) 0 .call := by
  refine ⟨[.src (.val 7), .act 0 .push, .act 0 .call, .act 0 .call, .act 0 (.task 0), .act 0 (.task 0), .act 0 (.task 0),
    .src (.err 1), .act 0 .push, .act 0 .call], ⟨rfl, ⟨fun _ => rfl, fun _ => .inl rfl⟩, rfl, ⟨fun _ => rfl, fun _ => .inl rfl⟩, trivial⟩, ⟨.call 0, .err 1, rfl, by decide⟩, by decide⟩

end Rpp.Stages
