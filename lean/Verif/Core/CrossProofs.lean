import Verif.Core.Cross
import Verif.Core.UserProofs
import Verif.Core.Props

/-!
# Proofs about disposal from other threads (C94)
-/

namespace Rpp.Cross

section
variable {α ε : Type}

/-- Is it the return of a `dispose()`? Models no code. -/
def Ev.isAns : Ev α ε → Bool
  | .answered _ => true
  | _ => false

/-- Does a call of the source begin? Models no code. -/
def Ev.isEnter : Ev α ε → Bool
  | .enter => true
  | _ => false

/-- What comes after the first element satisfying `p`; models no code. -/
def after (p : Ev α ε → Bool) : List (Ev α ε) → List (Ev α ε)
  | [] => []
  | e :: l => if p e then l else after p l

theorem after_snoc (p : Ev α ε → Bool) (l : List (Ev α ε)) (e : Ev α ε) :
    after p (l ++ [e]) = if l.any p then after p l ++ [e] else [] := by
  induction l with
  | nil => simp [after]
  | cons x l ih =>
    simp only [List.cons_append, after, List.any_cons]
    by_cases h : p x = true <;> simp [ih, h]

theorem after_suffix (p : Ev α ε → Bool) (pre post : List (Ev α ε)) (e : Ev α ε) (he : p e = true) :
    ∃ q, after p (pre ++ e :: post) = q ++ post := by
  induction pre with
  | nil => exact ⟨[], by simp [after, he]⟩
  | cons x pre ih =>
    simp only [List.cons_append, after]
    split
    · exact ⟨pre ++ [e], by simp⟩
    · exact ih

theorem after_none (p : Ev α ε → Bool) (l : List (Ev α ε)) (h : l.any p = false) : after p l = [] := by
  induction l with
  | nil => rfl
  | cons x l ih =>
    simp only [List.any_cons, Bool.or_eq_false_iff] at h
    simp [after, h.1, ih h.2]

theorem shown_append (l m : List (Ev α ε)) : shown (l ++ m) = shown l ++ shown m := by
  induction l with
  | nil => rfl
  | cons x l ih => cases x <;> simp [shown, ih]

end

section
variable {α ε σ τ : Type} [DecidableEq α] [DecidableEq ε]

theorem tick_ind (env : Nat → List Nat) {I : World α ε → Prop} (hc : ∀ w n, I w → I { w with clock := n })
    (ha : ∀ w t, I w → I (w.advance t)) (w : World α ε) (h : I w) : I (w.tick env) := by
  have : ∀ (l : List Nat) (w : World α ε), I w → I (l.foldl World.advance w) := by
    intro l
    induction l with
    | nil => intro w h; exact h
    | cons t l ih => intro w h; exact ih _ (ha w t h)
  exact this _ _ (hc _ _ h)

/-- The events that are neither callbacks nor operators; models no code. -/
def Ev.calm : Ev α ε → Bool
  | .start _ | .ran => false
  | _ => true

theorem Ev.calm_shown {e : Ev α ε} (h : e.calm = true) : shown [e] = [] := by
  cases e <;> first | rfl | cases h

/-- A list of releases is appended to the log; models no code. -/
structure Rel (w w' : World α ε) : Prop where
  log : ∃ ds : List Nat, w'.log = w.log ++ ds.map Ev.released
  disposed : w'.disposed = w.disposed
  clock : w'.clock = w.clock
  pcs : w'.pcs = w.pcs

theorem release_rel (d : Nat) (w : World α ε) : Rel w (w.release d) := by
  unfold World.release
  split
  · exact ⟨⟨[], by simp⟩, rfl, rfl, rfl⟩
  · exact ⟨⟨[d], rfl⟩, rfl, rfl, rfl⟩

theorem Rel.trans {w w' w'' : World α ε} (h : Rel w w') (k : Rel w' w'') : Rel w w'' := by
  obtain ⟨⟨ds, h1⟩, h2, h3, h4⟩ := h
  obtain ⟨⟨es, k1⟩, k2, k3, k4⟩ := k
  exact ⟨⟨ds ++ es, by rw [k1, h1]; simp⟩, k2.trans h2, k3.trans h3, k4.trans h4⟩

theorem fold_rel (ds : List Nat) : ∀ w : World α ε, Rel w (ds.foldl (fun w d => w.release d) w) := by
  induction ds with
  | nil => intro w; exact ⟨⟨[], by simp⟩, rfl, rfl, rfl⟩
  | cons d ds ih => intro w; exact (release_rel d w).trans (ih _)

theorem releaseAll_rel (w : World α ε) : Rel w w.releaseAll := by
  obtain ⟨h1, h2, h3, h4⟩ := fold_rel w.ups w
  exact ⟨h1, h2, h3, h4⟩

/-! ## Invariants are kept by whole pipelines -/

/-- Everything an observer does keeps `I`; models no code. -/
structure Keeps (C : CObs α ε σ) (wo : σ → τ) (I : τ → Prop) : Prop where
  next : ∀ a s, I (wo s) → I (wo (C.onNext a s))
  err : ∀ e s, I (wo s) → I (wo (C.onError e s))
  comp : ∀ s, I (wo s) → I (wo (C.onCompleted s))
  up : ∀ d s, I (wo s) → I (wo (C.setUpstream d s))
  chk : ∀ s, I (wo s) → I (wo (C.isDisposed s).2)
  ran : ∀ s, I (wo s) → (C.isDisposed s).1 = false → I (wo (C.ran (C.isDisposed s).2))
  release : ∀ d s, I (wo s) → I (wo (C.release d s))

omit [DecidableEq α] [DecidableEq ε] in
theorem Keeps.call {C : CObs α ε σ} {wo : σ → τ} {I : τ → Prop} (h : Keeps C wo I) (c : Call α ε) (s : σ)
    (hs : I (wo s)) : I (wo (C.call c s)) := by
  cases c with
  | next a => exact h.next a s hs
  | error e => exact h.err e s hs
  | completed => exact h.comp s hs
  | up d => exact h.up d s hs

omit [DecidableEq α] [DecidableEq ε] in
theorem Keeps.run {C : CObs α ε σ} {wo : σ → τ} {I : τ → Prop} (h : Keeps C wo I) (cs : List (Call α ε)) :
    ∀ s, I (wo s) → I (wo (C.run s cs)) := by
  induction cs with
  | nil => intro s hs; exact hs
  | cons c cs ih => intro s hs; exact ih _ (h.call c s hs)

end

theorem Keeps.lift {α β ε σ τ ω : Type} {down : CObs β ε τ} {wo : τ → ω} {I : ω → Prop} (h : Keeps down wo I)
    (P : OpStrategy α β ε σ) : Keeps (lift P down) (fun s => wo s.2) I := by
  have herr : ∀ e s, I (wo s.2) → I (wo ((Cross.lift P down).onError e s).2) := by
    intro e s hs
    simp only [Cross.lift]
    by_cases hb : (down.isDisposed s.2).1 = true
    · simp only [hb, if_true]; exact h.chk _ hs
    · simp only [Bool.not_eq_true] at hb
      simp only [hb, Bool.false_eq_true, if_false]
      exact h.run _ _ (h.ran _ hs hb)
  refine ⟨?_, herr, ?_, ?_, ?_, ?_, ?_⟩
  · intro a s hs
    have e1 : (Cross.lift P down).onNext a s =
        if (down.isDisposed s.2).1 then (s.1, (down.isDisposed s.2).2)
        else match (P.onNext a s.1).throws with
          | none => ((P.onNext a s.1).st, down.run (down.ran (down.isDisposed s.2).2) (P.onNext a s.1).out)
          | some e => (Cross.lift P down).onError e
            ((P.onNext a s.1).st, down.run (down.ran (down.isDisposed s.2).2) (P.onNext a s.1).out) := rfl
    rw [e1]
    by_cases hb : (down.isDisposed s.2).1 = true
    · rw [if_pos hb]; exact h.chk _ hs
    · rw [if_neg hb]
      have h1 := h.run (P.onNext a s.1).out _ (h.ran _ hs (by simpa using hb))
      cases (P.onNext a s.1).throws with
      | none => exact h1
      | some e => exact herr e (_, _) h1
  · intro s hs
    simp only [Cross.lift]
    by_cases hb : (down.isDisposed s.2).1 = true
    · simp only [hb, if_true]; exact h.chk _ hs
    · simp only [Bool.not_eq_true] at hb
      simp only [hb, Bool.false_eq_true, if_false]
      exact h.run _ _ (h.ran _ hs hb)
  · intro d s hs
    simp only [Cross.lift]
    by_cases hb : (down.isDisposed s.2).1 = true
    · simp only [hb, if_true]; exact h.release _ _ (h.chk _ hs)
    · simp only [Bool.not_eq_true] at hb
      simp only [hb, Bool.false_eq_true, if_false]
      exact h.up _ _ (h.chk _ hs)
  · intro s hs; exact h.chk _ hs
  · intro s hs hb; exact h.ran _ hs hb
  · intro d s hs; exact h.release _ _ hs

theorem Keeps.liftAll {ε γ τ ω : Type} {C : CObs γ ε τ} {wo : τ → ω} {I : ω → Prop} (h : Keeps C wo I) :
    {α : Type} → (p : Pipe ε α γ) → Keeps (liftAll p C) (fun s => wo (p.final s)) I
  | _, .nil => h
  | _, .cons o p => (Keeps.liftAll h p).lift o.strategy

theorem Keeps.startAll {ε γ τ ω : Type} {C : CObs γ ε τ} {wo : τ → ω} {I : ω → Prop} (h : Keeps C wo I) (t : τ)
    (ht : I (wo t)) : {α : Type} → (p : Pipe ε α γ) → I (wo (p.final (startAll p C t)))
  | _, .nil => ht
  | _, .cons o p => (Keeps.liftAll h p).run o.strategy.initOut _ (Keeps.startAll h t ht p)

theorem final_mapFinal {ε γ τ : Type} (f : τ → τ) : {α : Type} → (p : Pipe ε α γ) → (s : p.State τ) →
    p.final (p.mapFinal f s) = f (p.final s)
  | _, .nil, _ => rfl
  | _, .cons _ p, s => final_mapFinal f p s.2

/-- Whatever the observer's functions and the marks of the source's calls keep holds of a subscription at any time. -/
theorem Keeps.subscription {α γ ε : Type} [DecidableEq γ] [DecidableEq ε] {env : Nat → List Nat}
    {react : List (Call γ ε) → Reaction ε} {I : World γ ε → Prop} (h : Keeps (user env react) id I)
    (hi : I {}) (he : ∀ w, I w → I (w.say .enter)) (hl : ∀ w, I w → I (w.say .leave))
    (p : Pipe ε α γ) (cs : List (Call α ε)) : I (subscription env react p cs) := by
  have key : ∀ (cs : List (Call α ε)) (s : p.State (World γ ε)), I (p.final s) →
      I (p.final (cs.foldl (notify env react p) s)) := by
    intro cs
    induction cs with
    | nil => intro s hs; exact hs
    | cons c cs ih =>
      intro s hs
      refine ih _ ?_
      unfold notify
      rw [final_mapFinal]
      refine hl _ ?_
      refine (h.liftAll p).call c _ ?_
      show I (p.final _)
      rw [final_mapFinal]
      exact he _ hs
  exact key cs _ (h.startAll {} hi p)

end Rpp.Cross
