import Verif.Subject.SerializedProofs

/-! # The deliveries of one emission of a serialized subject are not interleaved with those of another -/

namespace Rpp.Subj.Conc
open Rpp.Subj

variable {α ε σ : Type} [DecidableEq α] [DecidableEq ε]

/-- Between a callback made by call `i` and the next one nobody else has delivered an emission; a callback that a
subscription makes to its own observer (`j = m`) is none. Used in the proofs; models no code. -/
def Alone (log : List (Ev α ε)) (i : Nat) : Prop :=
  ∀ a k c b, log = a ++ .beg i k c :: b → ∀ j m c', j ≠ i → j ≠ m → Ev.beg j m c' ∉ b

/-- Used in the proofs; models no code. -/
def Ok3 (pre : List (Ev α ε)) : Ev α ε → Prop
  | .beg i k _ => (i = k → ¬ Emission pre i) ∧ (i ≠ k → Alone pre i)
  | _ => True

/-- Used in the proofs; models no code. -/
def Legal3 (log : List (Ev α ε)) : Prop := ∀ pre ev post, log = pre ++ ev :: post → Ok3 pre ev

theorem Legal3.snoc {log : List (Ev α ε)} {ev : Ev α ε} (h : Legal3 log) (ho : Ok3 log ev) : Legal3 (log ++ [ev]) := by
  intro pre e post he
  rcases List.eq_nil_or_concat post with rfl | ⟨post', x, rfl⟩
  · obtain ⟨rfl, h2⟩ := List.append_inj' he rfl
    cases h2; exact ho
  · rw [List.concat_eq_append, ← List.cons_append, ← List.append_assoc] at he
    exact h pre e post' (List.append_inj_left' he rfl)

theorem Alone.snoc {log : List (Ev α ε)} {i : Nat} {ev : Ev α ε} (h : Alone log i)
    (he : ∀ j m c, ev = .beg j m c → j ≠ i → j = m) : Alone (log ++ [ev]) i := by
  intro a k c b hb j m c' h1 h2 hm
  rcases List.eq_nil_or_concat b with rfl | ⟨b', x, rfl⟩
  · simp at hm
  · rw [List.concat_eq_append, ← List.cons_append, ← List.append_assoc] at hb
    obtain ⟨h3, h4⟩ := List.append_inj' hb rfl
    rw [List.concat_eq_append, List.mem_append, List.mem_singleton] at hm
    rcases hm with hm | hm
    · exact h a k c b' h3 j m c' h1 h2 hm
    · cases h4; exact h2 (he j m c' hm.symm h1)

theorem Alone.fresh {log : List (Ev α ε)} {i : Nat} (h : ∀ k c, Ev.beg i k c ∉ log) : Alone log i := by
  intro a k c b hb
  exact absurd (by rw [hb]; simp) (h k c)

/-- Invariant of the proofs; models no code. -/
structure TInv (s : St α ε σ) : Prop where
  alone : ∀ i, (s.calls i).holds = true → Alone s.log i
  legal : Legal3 s.log

variable {C : Cfg α σ} {s : St α ε σ}

/-- A step that enters no callback. -/
theorem TInv.quiet (h : TInv s) (s' : St α ε σ) (i : Nat) (p : Pc α ε) (l : List (Ev α ε))
    (hl : ∀ ev ∈ l, ∀ a b c, ev ≠ .beg a b c) (hlog : s'.log = s.log ++ l)
    (hcalls : s'.calls = fun j => if j = i then p else s.calls j)
    (hp : p.holds = true → (s.calls i).holds = true ∨ ∀ k c, Ev.beg i k c ∉ s.log) : TInv s' := by
  have key : ∀ (l : List (Ev α ε)), (∀ ev ∈ l, ∀ a b c, ev ≠ .beg a b c) → ∀ log : List (Ev α ε),
      (∀ i, Alone log i → Alone (log ++ l) i) ∧ (Legal3 log → Legal3 (log ++ l)) := by
    intro l
    induction l with
    | nil => intro _ log; simp
    | cons ev l ih =>
      intro hl log
      have h0 := hl ev (by simp)
      obtain ⟨h1, h2⟩ := ih (fun e he => hl e (by simp [he])) (log ++ [ev])
      rw [List.append_assoc] at h1 h2
      refine ⟨fun i hi => h1 i (hi.snoc fun j m c he => absurd he (h0 j m c)), fun hg => h2 (hg.snoc ?_)⟩
      cases ev <;> first | trivial | exact absurd rfl (h0 _ _ _)
  obtain ⟨h1, h2⟩ := key l hl s.log
  refine ⟨fun j hj => ?_, by rw [hlog]; exact h2 h.legal⟩
  rw [hlog]
  refine h1 j ?_
  rw [hcalls] at hj
  dsimp only at hj
  split at hj
  · next e =>
    subst e
    rcases hp hj with h' | h'
    · exact h.alone j h'
    · exact .fresh h'
  · exact h.alone j hj

theorem TInv.turn (h : Inv C s) (hs : SInv s) (ht : TInv s) {i j todo cur k rest} (c : Sig α ε)
    (hc : s.calls i = .work j todo cur)
    (hk : (∃ c rest, todo = (k, c) :: rest ∧ cur = .none) ∨ ∃ e, cur = .err k e) : TInv (s.turn i j k c rest) := by
  have hh : ∀ todo' cur', (Pc.work j todo' cur').holds = (s.calls i).holds := by
    intro a b; rw [hc]; cases j <;> rfl
  unfold St.turn
  split
  · exact ht.quiet _ i _ [] (by simp) (by simp [St.goto]) rfl (fun h' => Or.inl (by rw [← hh]; exact h'))
  · have hcall := h.caller hs hc hk
    have hl := hs.lock
    refine ⟨fun m hm => ?_, ht.legal.snoc ⟨fun he => ?_, fun hne => ?_⟩⟩
    · simp only [St.goto, St.emit] at hm ⊢
      by_cases e : m = i
      · subst e
        rw [if_pos rfl, hh] at hm
        refine (ht.alone m hm).snoc fun j' m' c' he hj => ?_
        cases he; exact absurd rfl hj
      · rw [if_neg e] at hm
        refine (ht.alone m hm).snoc fun j' m' c' he hj => ?_
        cases he
        rcases hcall with h1 | h1
        · exact h1.1
        · have := (hl m).1 hm
          rw [h1.1] at this
          exact absurd (Option.some.inj this).symm e
    · rcases hcall with h1 | h1
      · exact h1.2.2
      · -- a call that holds the mutex is no registered subscription
        have h2 := (hl i).2 h1.1
        have h3 := h.pc i
        rw [hc] at h2 h3
        subst he
        cases j with
        | nxt v l d => exact absurd h1.2 h3.2.2.2.2.2.1
        | term t => exact absurd h1.2 h3.2.2.2.1
        | sub => cases h2
        | late => cases h2
    · rcases hcall with h1 | h1
      · exact absurd h1.1 hne
      · exact ht.alone i ((hl i).2 h1.1)

theorem TInv.advance (h : Inv C s) (hs : SInv s) (ht : TInv s) (i : Nat) (now : Int) : TInv (s.advance C i now) := by
  have hpc := h.pc i
  unfold St.advance
  split
  · exact ht
  · exact ht
  · next v hc => exact ht.quiet _ i (.nSnap v) [.stored i v now] (by simp) rfl rfl (by simp [Pc.holds])
  · next v hc =>
    split
    · next d l _ => exact ht.quiet _ i (.nLock v l d) [.snap i v l] (by simp) rfl rfl (by simp [Pc.holds])
    · exact ht.quiet _ i .done [.done i] (by simp) rfl rfl (by simp [Pc.holds])
    · exact ht.quiet _ i .done [.done i] (by simp) rfl rfl (by simp [Pc.holds])
  · next v l d hc =>
    rw [hc] at hpc
    have hb : ∀ k c, Ev.beg i k c ∉ s.log := by
      intro k c hm
      have := hpc.2 _ hm rfl
      simp at this
    unfold St.acquire
    split
    · split
      · exact ht.quiet _ i _ [] (by simp) (by simp [St.goto]) rfl fun _ => Or.inr hb
      · exact ht
    · exact ht.quiet _ i _ [] (by simp) (by simp [St.goto]) rfl fun _ => Or.inr hb
  · next t hc =>
    rw [hc] at hpc
    have hb : ∀ k c, Ev.beg i k c ∉ s.log := by
      intro k c hm
      have := hpc.2 _ hm rfl
      simp at this
    unfold St.acquire
    split
    · split
      · exact ht.quiet _ i _ [] (by simp) (by simp [St.goto]) rfl fun _ => Or.inr hb
      · exact ht
    · exact ht.quiet _ i _ [] (by simp) (by simp [St.goto]) rfl fun _ => Or.inr hb
  · next t hc =>
    split <;> exact ht.quiet _ i _ [] (by simp) (by simp [St.goto]) rfl (fun _ => Or.inl (by rw [hc]; rfl))
  · next d hc =>
    exact ht.quiet _ i _ [.read i d now (C.store.get d now s.store).1] (by simp) rfl rfl (by simp [Pc.holds])
  · next hc =>
    split
    · exact ht.quiet _ i .done [.reg i] (by simp) rfl rfl (by simp [Pc.holds])
    · dsimp only
      split
      · exact ht.quiet _ i .done [.reg i, .ub i] (by simp) (by simp [St.goto, St.emit]) rfl (by simp [Pc.holds])
      · exact ht.quiet _ i .done [.reg i] (by simp) rfl rfl (by simp [Pc.holds])
    · exact ht.quiet _ i _ [] (by simp) (by simp [St.goto]) rfl (by simp [Pc.holds])
    · exact ht.quiet _ i _ [] (by simp) (by simp [St.goto]) rfl (by simp [Pc.holds])
  · next j k c rest hc => exact ht.turn h hs c hc (Or.inl ⟨c, rest, rfl, rfl⟩)
  · exact ht
  · next j todo k e hc => exact ht.turn h hs _ hc (Or.inr ⟨e, rfl⟩)
  · next j todo k hc =>
    exact ht.quiet _ i (.work j todo .none) [.gone k] (by simp) rfl rfl
      (fun h' => Or.inl (by rw [hc]; cases j <;> first | rfl | simp [Pc.holds] at h'))
  · next v l d hc =>
    refine ht.quiet _ i .done [.done i] (by simp) ?_ ?_ (by simp [Pc.holds])
    · simp only [St.goto, St.emit, St.release]; split <;> rfl
    · simp only [St.goto, St.emit, St.release]; split <;> rfl
  · next t hc =>
    refine ht.quiet _ i .dFlag [] (by simp) ?_ ?_ (by simp [Pc.holds])
    · simp only [St.goto, St.release]; split <;> simp
    · simp only [St.goto, St.release]; split <;> rfl
  · exact ht.quiet _ i _ [] (by simp) (by simp [St.goto]) rfl (by simp [Pc.holds])
  · exact ht.quiet _ i _ [] (by simp) (by simp [St.goto]) rfl (by simp [Pc.holds])
  · split <;> exact ht.quiet _ i _ [] (by simp) (by simp [St.goto]) rfl (by simp [Pc.holds])
  · split <;> exact ht.quiet _ i _ [] (by simp) (by simp [St.goto]) rfl (by simp [Pc.holds])

theorem TInv.step (h : Inv C s) (hs : SInv s) (ht : TInv s) (l : Lbl α ε) : TInv (step C s l) := by
  cases l with
  | next i v =>
    simp only [Conc.step]
    split
    · exact ht.quiet _ i (.nPut v) [.emit i v] (by simp) rfl rfl (by simp [Pc.holds])
    · exact ht
  | finish i t =>
    simp only [Conc.step]
    split
    · exact ht.quiet _ i (.tLock t) [.finish i t] (by simp) rfl rfl (by simp [Pc.holds])
    · exact ht
  | sub k =>
    simp only [Conc.step]
    split
    · exact ht.quiet _ k _ [] (by simp) (by simp [St.goto]) rfl (by simp [Pc.holds])
    · exact ht
  | down i =>
    simp only [Conc.step]
    split
    · exact ht.quiet _ i _ [] (by simp) (by simp [St.goto]) rfl (by simp [Pc.holds])
    · exact ht
  | run i now => exact ht.advance h hs i now
  | ret i r =>
    simp only [Conc.step]
    split
    · next j todo k c hc =>
      have key : ∀ cur, TInv ((s.goto i (.work j todo cur)).emit (.fin i k)) := fun cur =>
        ht.quiet _ i (.work j todo cur) [.fin i k] (by simp) rfl rfl
          (fun h' => Or.inl (by rw [hc]; cases j <;> first | rfl | simp [Pc.holds] at h'))
      split <;> exact key _
    · exact ht
  | gone k =>
    simp only [Conc.step]
    split
    · exact ht
    · refine ⟨fun i hi => (ht.alone i hi).snoc (by simp), ht.legal.snoc trivial⟩
  | clean k =>
    simp only [Conc.step]
    split
    · split
      · exact ⟨ht.alone, ht.legal⟩
      · exact ht
    · exact ht

theorem tinv (hser : C.serialized = true) (ls : List (Lbl α ε)) : TInv (exec C ls) := by
  unfold exec
  generalize hs : ({ store := C.store.init } : St α ε σ) = s0
  have h : Inv C s0 := hs ▸ Inv.init
  have h' : SInv s0 := by
    subst hs
    refine ⟨by simp [Pc.holds], ?_, by simp, by intro pre ev post h; simp at h⟩
    rintro i k ⟨a, c, b, he, _⟩; simp at he
  have h'' : TInv s0 := by
    subst hs
    exact ⟨by simp [Pc.holds], by intro pre ev post h; simp at h⟩
  clear hs
  induction ls generalizing s0 with
  | nil => exact h''
  | cons l ls ih => exact ih _ (h.step l) (h'.step hser h l) (h''.step h h' l)

/-! ## A call that has returned -/

/-- Invariant of the proofs; models no code. -/
structure DInv (s : St α ε σ) : Prop where
  pc : ∀ i, .done i ∈ s.log → s.calls i = .done
  legal : ∀ a i b, s.log = a ++ .done i :: b → ∀ k c, Ev.beg i k c ∉ b

theorem DInv.quiet (h : DInv s) (s' : St α ε σ) (i : Nat) (p : Pc α ε) (l : List (Ev α ε))
    (hi : s.calls i ≠ .done) (hl : ∀ ev ∈ l, (∀ j, ev = .done j → j = i ∧ p = .done) ∧ ∀ a b c, ev = .beg a b c → a = i)
    (hb : p = .done → ∀ ev ∈ l, ∀ a b c, ev ≠ .beg a b c) (hlog : s'.log = s.log ++ l)
    (hcalls : s'.calls = fun j => if j = i then p else s.calls j) : DInv s' := by
  have hdi : Ev.done i ∉ s.log := fun h' => hi (h.pc i h')
  refine ⟨fun j hj => ?_, fun a j b he k c hm => ?_⟩
  · rw [hlog, List.mem_append] at hj
    rw [hcalls]; dsimp only
    rcases hj with hj | hj
    · have : j ≠ i := fun e => hdi (e ▸ hj)
      rw [if_neg this]; exact h.pc j hj
    · obtain ⟨h1, h2⟩ := (hl _ hj).1 j rfl
      rw [if_pos h1, h2]
  · rw [hlog] at he
    rcases List.append_eq_append_iff.1 he with ⟨x, h1, h2⟩ | ⟨x, h1, h2⟩
    · -- the end lies in the new part
      have h3 : Ev.done j ∈ l := by rw [h2]; simp
      obtain ⟨rfl, h4⟩ := (hl _ h3).1 j rfl
      exact hb h4 (.beg j k c) (by rw [h2]; simp [hm]) j k c rfl
    · rcases List.append_eq_cons_iff.1 h2.symm with ⟨rfl, h3⟩ | ⟨y, rfl, h3⟩
      · obtain ⟨rfl, h4⟩ := (hl (.done j) (by rw [h3]; simp)).1 j rfl
        exact hb h4 (.beg j k c) (by rw [h3]; simp [hm]) j k c rfl
      · rw [h3, List.mem_append] at hm
        rcases hm with hm | hm
        · exact h.legal a j y h1 k c hm
        · have := (hl _ hm).2 j k c rfl
          subst this
          exact hdi (by rw [h1]; simp)

theorem DInv.turn (ht : DInv s) {i j k c rest} (hc : s.calls i ≠ .done) : DInv (s.turn i j k c rest) := by
  unfold St.turn
  split
  · exact ht.quiet _ i _ [] hc (by simp) (by simp) (by simp [St.goto]) rfl
  · exact ht.quiet _ i _ [.beg i k c] hc (by simp) (by simp) (by simp [St.goto, St.emit]) rfl

theorem DInv.advance (ht : DInv s) (i : Nat) (now : Int) : DInv (s.advance C i now) := by
  unfold St.advance
  split
  · exact ht
  · exact ht
  · next v hc => exact ht.quiet _ i (.nSnap v) [.stored i v now] (by simp [hc]) (by simp) (by simp) rfl rfl
  · next v hc =>
    split
    · next d l _ => exact ht.quiet _ i (.nLock v l d) [.snap i v l] (by simp [hc]) (by simp) (by simp) rfl rfl
    · exact ht.quiet _ i .done [.done i] (by simp [hc]) (by simp) (by simp) rfl rfl
    · exact ht.quiet _ i .done [.done i] (by simp [hc]) (by simp) (by simp) rfl rfl
  · next v l d hc =>
    unfold St.acquire
    split
    · split
      · exact ht.quiet _ i _ [] (by simp [hc]) (by simp) (by simp) (by simp [St.goto]) rfl
      · exact ht
    · exact ht.quiet _ i _ [] (by simp [hc]) (by simp) (by simp) (by simp [St.goto]) rfl
  · next t hc =>
    unfold St.acquire
    split
    · split
      · exact ht.quiet _ i _ [] (by simp [hc]) (by simp) (by simp) (by simp [St.goto]) rfl
      · exact ht
    · exact ht.quiet _ i _ [] (by simp [hc]) (by simp) (by simp) (by simp [St.goto]) rfl
  · next t hc =>
    split <;> exact ht.quiet _ i _ [] (by simp [hc]) (by simp) (by simp) (by simp [St.goto]) rfl
  · next d hc =>
    exact ht.quiet _ i _ [.read i d now (C.store.get d now s.store).1] (by simp [hc]) (by simp) (by simp) rfl rfl
  · next hc =>
    split
    · exact ht.quiet _ i .done [.reg i] (by simp [hc]) (by simp) (by simp) rfl rfl
    · dsimp only
      split
      · exact ht.quiet _ i .done [.reg i, .ub i] (by simp [hc]) (by simp) (by simp) (by simp [St.goto, St.emit]) rfl
      · exact ht.quiet _ i .done [.reg i] (by simp [hc]) (by simp) (by simp) rfl rfl
    · exact ht.quiet _ i _ [] (by simp [hc]) (by simp) (by simp) (by simp [St.goto]) rfl
    · exact ht.quiet _ i _ [] (by simp [hc]) (by simp) (by simp) (by simp [St.goto]) rfl
  · next hc => exact ht.turn (by simp [hc])
  · exact ht
  · next hc => exact ht.turn (by simp [hc])
  · next j todo k hc =>
    exact ht.quiet _ i (.work j todo .none) [.gone k] (by simp [hc]) (by simp) (by simp) rfl rfl
  · next v l d hc =>
    refine ht.quiet _ i .done [.done i] (by simp [hc]) (by simp) (by simp) ?_ ?_
    · simp only [St.goto, St.emit, St.release]; split <;> rfl
    · simp only [St.goto, St.emit, St.release]; split <;> rfl
  · next t hc =>
    refine ht.quiet _ i .dFlag [] (by simp [hc]) (by simp) (by simp) ?_ ?_
    · simp only [St.goto, St.release]; split <;> simp
    · simp only [St.goto, St.release]; split <;> rfl
  · next hc => exact ht.quiet _ i _ [] (by simp [hc]) (by simp) (by simp) (by simp [St.goto]) rfl
  · next hc => exact ht.quiet _ i _ [] (by simp [hc]) (by simp) (by simp) (by simp [St.goto]) rfl
  · next hc => split <;> exact ht.quiet _ i _ [] (by simp [hc]) (by simp) (by simp) (by simp [St.goto]) rfl
  · next hc => split <;> exact ht.quiet _ i _ [] (by simp [hc]) (by simp) (by simp) (by simp [St.goto]) rfl

theorem DInv.step (ht : DInv s) (l : Lbl α ε) : DInv (step C s l) := by
  cases l with
  | next i v =>
    simp only [Conc.step]
    split
    · next hc => exact ht.quiet _ i (.nPut v) [.emit i v] (by simp [hc]) (by simp) (by simp) rfl rfl
    · exact ht
  | finish i t =>
    simp only [Conc.step]
    split
    · next hc => exact ht.quiet _ i (.tLock t) [.finish i t] (by simp [hc]) (by simp) (by simp) rfl rfl
    · exact ht
  | sub k =>
    simp only [Conc.step]
    split
    · next hc => exact ht.quiet _ k _ [] (by simp [hc]) (by simp) (by simp) (by simp [St.goto]) rfl
    · exact ht
  | down i =>
    simp only [Conc.step]
    split
    · next hc => exact ht.quiet _ i _ [] (by simp [hc]) (by simp) (by simp) (by simp [St.goto]) rfl
    · exact ht
  | run i now => exact ht.advance i now
  | ret i r =>
    simp only [Conc.step]
    split
    · next j todo k c hc =>
      have key : ∀ cur, DInv ((s.goto i (.work j todo cur)).emit (.fin i k)) := fun cur =>
        ht.quiet _ i (.work j todo cur) [.fin i k] (by simp [hc]) (by simp) (by simp) rfl rfl
      split <;> exact key _
    · exact ht
  | gone k =>
    simp only [Conc.step]
    split
    · exact ht
    · refine ⟨fun i hi => ht.pc i (by simpa [St.emit] using hi), fun a j b he m c hm => ?_⟩
      simp only [St.emit] at he
      rcases List.eq_nil_or_concat b with rfl | ⟨b', x, rfl⟩
      · simp at hm
      · rw [List.concat_eq_append, ← List.cons_append, ← List.append_assoc] at he
        obtain ⟨h3, h4⟩ := List.append_inj' he rfl
        cases h4
        rw [List.concat_eq_append, List.mem_append, List.mem_singleton] at hm
        rcases hm with hm | hm
        · exact ht.legal a j b' h3 m c hm
        · cases hm
  | clean k =>
    simp only [Conc.step]
    split
    · split
      · exact ⟨ht.pc, ht.legal⟩
      · exact ht
    · exact ht

theorem dinv (C : Cfg α σ) (ls : List (Lbl α ε)) : DInv (exec C ls) := by
  unfold exec
  generalize hs : ({ store := C.store.init } : St α ε σ) = s0
  have h : DInv s0 := by subst hs; exact ⟨by simp, by intro a i b h; simp at h⟩
  clear hs
  induction ls generalizing s0 with
  | nil => exact h
  | cons l ls ih => exact ih _ (h.step l)

end Rpp.Subj.Conc
