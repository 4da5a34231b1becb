import Verif.Core.Mortal

/-!
# C114 — which exceptions of user code end the process
-/

set_option linter.unusedSectionVars false

namespace Rpp

/-! ## Helper lemmas -/

/-- `M` is the observer `O` with deaths, `F` the states in which a death is due. -/
structure Twin (M : MObs α ε σ) (O : Obs α ε σ) (F : σ → Prop) : Prop where
  disp : ∀ s, M.isDisposed s = O.isDisposed s
  rel : ∀ d s, M.release d s = O.release d s
  relF : ∀ d s, F (O.release d s) ↔ F s
  live : ∀ c s, (M.call c s).2 = false → (M.call c s).1 = O.call c s ∧ (F (O.call c s) ↔ F s)
  dead : ∀ c s, (M.call c s).2 = true → F (O.call c s)
  mono : ∀ c s, F s → F (O.call c s)

namespace Twin

variable {M : MObs α ε σ} {O : Obs α ε σ} {F : σ → Prop}

theorem run_mono (h : Twin M O F) (cs : List (Call α ε)) : ∀ s, F s → F (O.run s cs) := by
  induction cs with
  | nil => intro s hs; exact hs
  | cons c cs ih => intro s hs; exact ih _ (h.mono c s hs)

theorem run_live (h : Twin M O F) (cs : List (Call α ε)) : ∀ s, (M.run s cs).2 = false →
    (M.run s cs).1 = O.run s cs ∧ (F (O.run s cs) ↔ F s) := by
  induction cs with
  | nil => intro s _; exact ⟨rfl, Iff.rfl⟩
  | cons c cs ih =>
    intro s hs
    unfold MObs.run at hs ⊢
    rcases hc : M.call c s with ⟨s', b⟩
    rw [hc] at hs
    cases b with
    | true => cases hs
    | false =>
      have := h.live c s (by rw [hc])
      rw [hc] at this
      simp only at this hs ⊢
      obtain ⟨h1, h2⟩ := ih s' hs
      rw [Obs.run_cons, ← this.1]
      exact ⟨h1, h2.trans (by rw [this.1]; exact this.2)⟩

theorem run_dead (h : Twin M O F) (cs : List (Call α ε)) : ∀ s, (M.run s cs).2 = true →
    F (O.run s cs) := by
  induction cs with
  | nil => intro s hs; cases hs
  | cons c cs ih =>
    intro s hs
    unfold MObs.run at hs
    rcases hc : M.call c s with ⟨s', b⟩
    rw [hc] at hs
    cases b with
    | true =>
      have := h.dead c s (by rw [hc])
      exact h.run_mono cs _ this
    | false =>
      have := h.live c s (by rw [hc])
      rw [hc] at this
      simp only at this hs
      rw [Obs.run_cons, ← this.1]
      exact ih s' hs

end Twin

variable [DecidableEq α] [DecidableEq ε]

theorem throwsAtEnd_snoc (react : List (Call α ε) → Reaction ε) (evs : List (Call α ε)) (c : Call α ε) :
    ThrowsAtEnd react (evs ++ [c]) ↔
      ThrowsAtEnd react evs ∨ (c.isTerm = true ∧ (react (evs ++ [c])).throws.isSome = true) := by
  constructor
  · rintro ⟨b, x, a, he, hx, hr⟩
    rcases List.eq_nil_or_concat a with rfl | ⟨a', y, rfl⟩
    · have := List.append_inj' he rfl
      obtain ⟨rfl, h2⟩ := this
      simp only [List.cons.injEq, and_true] at h2
      subst h2
      exact .inr ⟨hx, hr⟩
    · have he' : evs ++ [c] = (b ++ x :: a') ++ [y] := by simpa using he
      have := (List.append_inj' he' rfl).1
      exact .inl ⟨b, x, a', this, hx, hr⟩
  · rintro (⟨b, x, a, he, hx, hr⟩ | ⟨h1, h2⟩)
    · exact ⟨b, x, a ++ [c], by rw [he]; simp, hx, hr⟩
    · exact ⟨evs, c, [], rfl, h1, h2⟩

theorem throwsAtEnd_next (react : List (Call α ε) → Reaction ε) (evs : List (Call α ε)) (a : α) :
    ThrowsAtEnd react (evs ++ [.next a]) ↔ ThrowsAtEnd react evs := by
  rw [throwsAtEnd_snoc]; simp [Call.isTerm]

/-- State of the subscriber after a callback, before the observer is disposed of. -/
theorem evs_reacted (r : Reaction ε) (s : UserSt α ε) :
    evsOf (if r.dispose then s.dispose else s).log = evsOf s.log := by
  split
  · exact (UserSt.dispose_facts s).1
  · rfl

section user

variable (cap : Option Nat) (ov : ε) (react : List (Call α ε) → Reaction ε)

theorem user_error_eq (e : ε) (s : UserSt α ε) :
    (userObs cap ov react).onError e s =
      if s.disposed then s else
        (if (react (evsOf (s.log ++ [.ev (.error e)]))).dispose then
          ({ s with log := s.log ++ [.ev (.error e)] } : UserSt α ε).dispose
        else { s with log := s.log ++ [.ev (.error e)] }).dispose := by
  simp only [userObs, observerImpl, implOnError, lambdaStrategy, localDisp, Bool.or_false]

theorem user_completed_eq (s : UserSt α ε) :
    (userObs cap ov react).onCompleted s =
      if s.disposed then s else
        (if (react (evsOf (s.log ++ [.ev .completed]))).dispose then
          ({ s with log := s.log ++ [.ev .completed] } : UserSt α ε).dispose
        else { s with log := s.log ++ [.ev .completed] }).dispose := by
  simp only [userObs, observerImpl, lambdaStrategy, localDisp, Bool.or_false]

theorem user_error_twin (e : ε) (s : UserSt α ε) :
    ((mUserError react e s).2 = false → (mUserError react e s).1 = (userObs cap ov react).onError e s ∧
      (ThrowsAtEnd react (evsOf ((userObs cap ov react).onError e s).log) ↔
        ThrowsAtEnd react (evsOf s.log))) ∧
    ((mUserError react e s).2 = true →
      ThrowsAtEnd react (evsOf ((userObs cap ov react).onError e s).log)) ∧
    (ThrowsAtEnd react (evsOf s.log) →
      ThrowsAtEnd react (evsOf ((userObs cap ov react).onError e s).log)) := by
  rw [user_error_eq]
  unfold mUserError
  by_cases hd : s.disposed = true
  · simp [hd]
  · simp only [hd, if_false, Bool.false_eq_true]
    rw [(UserSt.dispose_facts _).1, evs_reacted]
    simp only [evsOf_append, evsOf, throwsAtEnd_snoc, Call.isTerm, true_and]
    by_cases ht : (react (evsOf s.log ++ [.error e])).throws.isSome = true
    · simp [ht]
    · simp [ht]

theorem user_next_eq (a : α) (s : UserSt α ε) (hd : s.disposed = false) :
    (userObs cap ov react).onNext a s =
      (match (react (evsOf (s.log ++ [.ev (.next a)]))).throws with
      | none => if (react (evsOf (s.log ++ [.ev (.next a)]))).dispose then
          ({ s with log := s.log ++ [.ev (.next a)] } : UserSt α ε).dispose
        else { s with log := s.log ++ [.ev (.next a)] }
      | some e => (userObs cap ov react).onError e
        (if (react (evsOf (s.log ++ [.ev (.next a)]))).dispose then
          ({ s with log := s.log ++ [.ev (.next a)] } : UserSt α ε).dispose
        else { s with log := s.log ++ [.ev (.next a)] })) := by
  simp only [userObs, observerImpl, lambdaStrategy, localDisp, Bool.or_false, hd]
  cases (react (evsOf (s.log ++ [.ev (.next a)]))).throws <;> rfl

theorem user_call_twin (c : Call α ε) (s : UserSt α ε) :
    ((mUserCall cap ov react c s).2 = false →
      (mUserCall cap ov react c s).1 = (userObs cap ov react).call c s ∧
      (ThrowsAtEnd react (evsOf ((userObs cap ov react).call c s).log) ↔
        ThrowsAtEnd react (evsOf s.log))) ∧
    ((mUserCall cap ov react c s).2 = true →
      ThrowsAtEnd react (evsOf ((userObs cap ov react).call c s).log)) ∧
    (ThrowsAtEnd react (evsOf s.log) →
      ThrowsAtEnd react (evsOf ((userObs cap ov react).call c s).log)) := by
  cases c with
  | next a =>
    simp only [Obs.call, mUserCall]
    by_cases hd : s.disposed = true
    · have : (userObs cap ov react).onNext a s = s := by
        simp only [userObs, observerImpl, localDisp, hd, Bool.true_or, if_true]
      simp [this, hd]
    · rw [user_next_eq cap ov react a s (by simpa using hd), if_neg hd]
      have hev : ∀ r : Reaction ε, ThrowsAtEnd react (evsOf (if r.dispose then
          ({ s with log := s.log ++ [.ev (.next a)] } : UserSt α ε).dispose
          else { s with log := s.log ++ [.ev (.next a)] }).log) ↔ ThrowsAtEnd react (evsOf s.log) := by
        intro r
        rw [evs_reacted]
        simp only [evsOf_append, evsOf, throwsAtEnd_next]
      cases ht : (react (evsOf (s.log ++ [.ev (.next a)]))).throws with
      | none => exact ⟨fun _ => ⟨rfl, hev _⟩, fun hh => by simp at hh, (hev _).2⟩
      | some e =>
        have h := user_error_twin cap ov react e (if (react (evsOf (s.log ++ [.ev (.next a)]))).dispose then
          ({ s with log := s.log ++ [.ev (.next a)] } : UserSt α ε).dispose
          else { s with log := s.log ++ [.ev (.next a)] })
        simp only [hev] at h
        exact h
  | error e => exact user_error_twin cap ov react e s
  | completed =>
    simp only [Obs.call, mUserCall]
    rw [user_completed_eq]
    by_cases hd : s.disposed = true
    · simp [hd]
    · simp only [hd, if_false, Bool.false_eq_true]
      rw [(UserSt.dispose_facts _).1, evs_reacted]
      simp only [evsOf_append, evsOf, throwsAtEnd_snoc, Call.isTerm, true_and]
      by_cases ht : (react (evsOf s.log ++ [.completed])).throws.isSome = true
      · simp [ht]
      · simp [ht]
  | up d =>
    simp only [Obs.call, mUserCall]
    cases hd : s.disposed with
    | true =>
      have : (userObs cap ov react).setUpstream d s = s.release d := by
        simp only [userObs, observerImpl, localDisp, hd, Bool.true_or, if_true]; rfl
      simp [this, UserSt.evs_release]
    | false =>
      simp only [if_false, Bool.false_eq_true]
      have key : (userObs cap ov react).setUpstream d s =
          (match (localDisp cap ov).add d s with
          | (s', none) => s'
          | (s', some e) => (userObs cap ov react).onError e s') := by
        have hb : ((localDisp cap ov).isDisposed s || (lambdaStrategy react).isDisposed s) = false := by
          simp [localDisp, lambdaStrategy, hd]
        show (if ((localDisp cap ov).isDisposed s || (lambdaStrategy react).isDisposed s) = true
          then _ else _) = _
        rw [hb, if_neg (by simp)]
        rcases (localDisp cap ov).add d s with ⟨s', _ | e⟩ <;> rfl
      rw [key]
      have hl : ∀ x, (localDisp cap ov).add d s = x → x.1.log = s.log := by
        intro x hx
        subst hx
        simp only [localDisp]
        split
        · rfl
        · split <;> rfl
      rcases ha : (localDisp cap ov).add d s with ⟨s', o⟩
      have hlog : s'.log = s.log := hl _ ha
      cases o with
      | none => simp [hlog]
      | some e =>
        have h := user_error_twin cap ov react e s'
        rw [hlog] at h
        exact h

theorem user_twin : Twin (mUser cap ov react) (userObs cap ov react)
    (fun s => ThrowsAtEnd react (evsOf s.log)) where
  disp s := by simp [mUser]
  rel d s := rfl
  relF d s := by rw [userObs_release, UserSt.evs_release]
  live c s := (user_call_twin cap ov react c s).1
  dead c s := (user_call_twin cap ov react c s).2.1
  mono c s := (user_call_twin cap ov react c s).2.2

end user

omit [DecidableEq α] [DecidableEq ε]

/-- What relates an operator's strategy `P` with deaths to the strategy `Q` without; `G` are the states
of the operator in which a death is due. -/
structure Kin (P Q : OpStrategy α β ε σ) (G : σ → Prop) : Prop where
  next : ∀ a s, P.onNext a s = Q.onNext a s
  nextG : ∀ a s, G (Q.onNext a s).st ↔ G s
  err : ∀ e s, (P.onError e s).throws = none → P.onError e s = Q.onError e s ∧ (G (Q.onError e s).st ↔ G s)
  errX : ∀ e s, (P.onError e s).throws.isSome = true → (P.onError e s).out = [] ∧ G (Q.onError e s).st
  errM : ∀ e s, G s → G (Q.onError e s).st
  comp : ∀ s, (P.onCompleted s).throws = none → P.onCompleted s = Q.onCompleted s ∧ (G (Q.onCompleted s).st ↔ G s)
  compX : ∀ s, (P.onCompleted s).throws.isSome = true → (P.onCompleted s).out = [] ∧ G (Q.onCompleted s).st
  compM : ∀ s, G s → G (Q.onCompleted s).st

section lift

variable {P Q : OpStrategy α β ε σ} {G : σ → Prop} {M : MObs β ε τ} {O : Obs β ε τ} {F : τ → Prop}

theorem lift_error_twin (hk : Kin P Q G) (h : Twin M O F) (e : ε) (s : σ × τ) :
    ((P.mError M e s).2 = false → (P.mError M e s).1 = (Q.lift O).onError e s ∧
      ((G ((Q.lift O).onError e s).1 ∨ F ((Q.lift O).onError e s).2) ↔ (G s.1 ∨ F s.2))) ∧
    ((P.mError M e s).2 = true → G ((Q.lift O).onError e s).1 ∨ F ((Q.lift O).onError e s).2) ∧
    ((G s.1 ∨ F s.2) → G ((Q.lift O).onError e s).1 ∨ F ((Q.lift O).onError e s).2) := by
  have eq : (Q.lift O).onError e s = if O.isDisposed s.2 then s else
      ((Q.onError e s.1).st, O.run s.2 (Q.onError e s.1).out) := by
    simp only [OpStrategy.lift, observerImpl, implOnError, OpStrategy.strategy, noneDisp, Bool.false_or]
  rw [eq]
  unfold OpStrategy.mError
  rw [h.disp]
  by_cases hd : O.isDisposed s.2 = true
  · simp [hd]
  · simp only [hd, if_false, Bool.false_eq_true]
    have hm : (G s.1 ∨ F s.2) → G (Q.onError e s.1).st ∨ F (O.run s.2 (Q.onError e s.1).out) := by
      rintro (hg | hf)
      · exact .inl (hk.errM e s.1 hg)
      · exact .inr (h.run_mono _ _ hf)
    cases ht : (P.onError e s.1).throws with
    | none =>
      obtain ⟨h1, h2⟩ := hk.err e s.1 ht
      rw [h1]
      have hl := h.run_live (Q.onError e s.1).out s.2
      have hx := h.run_dead (Q.onError e s.1).out s.2
      rcases hr : M.run s.2 (Q.onError e s.1).out with ⟨t, b⟩
      rw [hr] at hl hx
      cases b with
      | true =>
        refine ⟨fun hh => by simp at hh, fun _ => .inr (hx rfl), hm⟩
      | false =>
        obtain ⟨h3, h4⟩ := hl rfl
        simp only at h3
        refine ⟨fun _ => ⟨by simp [h3], by rw [h2, h4]⟩, fun hh => ?_, hm⟩
        simp at hh
    | some x =>
      obtain ⟨h1, h2⟩ := hk.errX e s.1 (by rw [ht]; rfl)
      rw [h1]
      simp only [MObs.run, Option.isSome_some]
      exact ⟨fun hh => by simp at hh, fun _ => .inl h2, hm⟩

theorem lift_call_twin (hk : Kin P Q G) (h : Twin M O F) (c : Call α ε) (s : σ × τ) :
    ((P.mCall M c s).2 = false → (P.mCall M c s).1 = (Q.lift O).call c s ∧
      ((G ((Q.lift O).call c s).1 ∨ F ((Q.lift O).call c s).2) ↔ (G s.1 ∨ F s.2))) ∧
    ((P.mCall M c s).2 = true → G ((Q.lift O).call c s).1 ∨ F ((Q.lift O).call c s).2) ∧
    ((G s.1 ∨ F s.2) → G ((Q.lift O).call c s).1 ∨ F ((Q.lift O).call c s).2) := by
  cases c with
  | next a =>
    have eq : (Q.lift O).call (.next a) s = if O.isDisposed s.2 then s else
        match (Q.onNext a s.1).throws with
        | none => ((Q.onNext a s.1).st, O.run s.2 (Q.onNext a s.1).out)
        | some e => (Q.lift O).onError e ((Q.onNext a s.1).st, O.run s.2 (Q.onNext a s.1).out) := by
      simp only [Obs.call, OpStrategy.lift, observerImpl, OpStrategy.strategy, noneDisp, Bool.false_or]
      split
      · rfl
      · cases (Q.onNext a s.1).throws <;> rfl
    rw [eq]
    simp only [OpStrategy.mCall]
    rw [h.disp]
    by_cases hd : O.isDisposed s.2 = true
    · simp [hd]
    · simp only [hd, if_false, Bool.false_eq_true]
      rw [hk.next]
      have hl := h.run_live (Q.onNext a s.1).out s.2
      have hx := h.run_dead (Q.onNext a s.1).out s.2
      have hm := h.run_mono (Q.onNext a s.1).out s.2
      have hg := hk.nextG a s.1
      rcases hr : M.run s.2 (Q.onNext a s.1).out with ⟨t, b⟩
      rw [hr] at hl hx
      cases b with
      | true =>
        simp only
        have hF := hx rfl
        cases (Q.onNext a s.1).throws with
        | none =>
          exact ⟨fun hh => by simp at hh, fun _ => .inr hF, fun _ => .inr hF⟩
        | some e =>
          have := (lift_error_twin hk h e ((Q.onNext a s.1).st, O.run s.2 (Q.onNext a s.1).out)).2.2
            (.inr hF)
          exact ⟨fun hh => by simp at hh, fun _ => this, fun _ => this⟩
      | false =>
        obtain ⟨h3, h4⟩ := hl rfl
        simp only at h3 ⊢
        subst h3
        cases (Q.onNext a s.1).throws with
        | none =>
          simp only
          refine ⟨fun _ => ⟨trivial, by rw [hg, h4]⟩, fun hh => by simp at hh, by rw [hg, h4]; exact id⟩
        | some e =>
          have := lift_error_twin hk h e ((Q.onNext a s.1).st, O.run s.2 (Q.onNext a s.1).out)
          simp only [hg, h4] at this
          exact this
  | error e => exact lift_error_twin hk h e s
  | completed =>
    have eq : (Q.lift O).call .completed s = if O.isDisposed s.2 then s else
        ((Q.onCompleted s.1).st, O.run s.2 (Q.onCompleted s.1).out) := by
      simp only [Obs.call, OpStrategy.lift, observerImpl, OpStrategy.strategy, noneDisp, Bool.false_or]
    rw [eq]
    simp only [OpStrategy.mCall]
    rw [h.disp]
    by_cases hd : O.isDisposed s.2 = true
    · simp [hd]
    · simp only [hd, if_false, Bool.false_eq_true]
      have hm : (G s.1 ∨ F s.2) → G (Q.onCompleted s.1).st ∨ F (O.run s.2 (Q.onCompleted s.1).out) := by
        rintro (hg | hf)
        · exact .inl (hk.compM s.1 hg)
        · exact .inr (h.run_mono _ _ hf)
      cases ht : (P.onCompleted s.1).throws with
      | none =>
        obtain ⟨h1, h2⟩ := hk.comp s.1 ht
        rw [h1]
        have hl := h.run_live (Q.onCompleted s.1).out s.2
        have hx := h.run_dead (Q.onCompleted s.1).out s.2
        rcases hr : M.run s.2 (Q.onCompleted s.1).out with ⟨t, b⟩
        rw [hr] at hl hx
        cases b with
        | true =>
          refine ⟨fun hh => by simp at hh, fun _ => .inr (hx rfl), hm⟩
        | false =>
          obtain ⟨h3, h4⟩ := hl rfl
          simp only at h3
          refine ⟨fun _ => ⟨by simp [h3], by rw [h2, h4]⟩, fun hh => ?_, hm⟩
          simp at hh
      | some x =>
        obtain ⟨h1, h2⟩ := hk.compX s.1 (by rw [ht]; rfl)
        rw [h1]
        simp only [MObs.run, Option.isSome_some]
        exact ⟨fun hh => by simp at hh, fun _ => .inl h2, hm⟩
  | up d =>
    have eq : (Q.lift O).call (.up d) s = if O.isDisposed s.2 then (s.1, O.release d s.2) else
        (s.1, O.setUpstream d s.2) := by
      simp only [Obs.call, OpStrategy.lift, observerImpl, OpStrategy.strategy, noneDisp, Bool.false_or]
    rw [eq]
    simp only [OpStrategy.mCall]
    rw [h.disp]
    by_cases hd : O.isDisposed s.2 = true
    · simp [hd, h.rel, h.relF]
    · simp only [hd, if_false, Bool.false_eq_true]
      have h1 := h.live (.up d) s.2
      have h2 := h.dead (.up d) s.2
      have h3 := h.mono (.up d) s.2
      simp only [Obs.call] at h1 h2 h3
      refine ⟨fun hh => ?_, fun hh => .inr (h2 hh), ?_⟩
      · obtain ⟨h4, h5⟩ := h1 hh
        exact ⟨by rw [h4], by rw [h5]⟩
      · rintro (hg | hf)
        · exact .inl hg
        · exact .inr (h3 hf)

theorem lift_twin (hk : Kin P Q G) (h : Twin M O F) :
    Twin (P.mLift M) (Q.lift O) (fun s => G s.1 ∨ F s.2) where
  disp s := by simp [OpStrategy.mLift, OpStrategy.lift, observerImpl, OpStrategy.strategy, noneDisp, h.disp]
  rel d s := by simp [OpStrategy.mLift, OpStrategy.lift, observerImpl, OpStrategy.strategy, h.rel]
  relF d s := by simp [OpStrategy.lift, observerImpl, OpStrategy.strategy, h.relF]
  live c s := (lift_call_twin hk h c s).1
  dead c s := (lift_call_twin hk h c s).2.1
  mono c s := (lift_call_twin hk h c s).2.2

end lift

/-- The operators of `Verif.Core.Model` call no throwing function from `on_error`/`on_completed`. -/
theorem Op.calm (o : Op ε α β) : (∀ e s, (o.strategy.onError e s).throws = none) ∧
    ∀ s, (o.strategy.onCompleted s).throws = none := by
  cases o <;> refine ⟨fun e s => ?_, fun s => ?_⟩ <;> try rfl
  · simp only [Op.strategy, Ops.last]; split <;> rfl
  · simp only [Op.strategy, Ops.elementAt]; split <;> rfl

theorem op_kin (o : Op ε α β) : Kin o.strategy o.strategy (fun _ => False) where
  next _ _ := rfl
  nextG _ _ := Iff.rfl
  err _ _ _ := ⟨rfl, Iff.rfl⟩
  errX e s h := by rw [o.calm.1 e s] at h; cases h
  errM _ _ h := h
  comp _ _ := ⟨rfl, Iff.rfl⟩
  compX s h := by rw [o.calm.2 s] at h; cases h
  compM _ h := h

theorem tap_kin (cb : α → Option ε) (cbE : ε → Option ε) (cbC : Option ε) :
    Kin (Ops.tap3 cb cbE cbC) (Ops.tap cb) (TapThrows cbE cbC) where
  next _ _ := rfl
  nextG a s := by
    simp only [Ops.tap]
    cases cb a <;> simp [TapThrows]
  err e s h := by
    simp only [Ops.tap, Ops.tap3] at h ⊢
    cases hc : cbE e with
    | none =>
      refine ⟨rfl, ?_⟩
      simp only [TapThrows, List.mem_append, List.mem_singleton, Call.error.injEq, reduceCtorEq, or_false]
      constructor
      · rintro (⟨x, hx | rfl, hy⟩ | h)
        · exact .inl ⟨x, hx, hy⟩
        · rw [hc] at hy; cases hy
        · exact .inr h
      · rintro (⟨x, hx, hy⟩ | h)
        · exact .inl ⟨x, .inl hx, hy⟩
        · exact .inr h
    | some x => rw [hc] at h; cases h
  errX e s h := by
    simp only [Ops.tap, Ops.tap3] at h ⊢
    cases hc : cbE e with
    | none => rw [hc] at h; cases h
    | some x => exact ⟨rfl, .inl ⟨e, by simp, by rw [hc]; rfl⟩⟩
  errM e s h := by
    rcases h with ⟨x, hx, hy⟩ | ⟨h1, h2⟩
    · exact .inl ⟨x, by simp [Ops.tap, hx], hy⟩
    · exact .inr ⟨by simp [Ops.tap, h1], h2⟩
  comp s h := by
    simp only [Ops.tap, Ops.tap3] at h ⊢
    cases cbC with
    | none => exact ⟨rfl, by simp [TapThrows]⟩
    | some x => cases h
  compX s h := by
    simp only [Ops.tap, Ops.tap3] at h ⊢
    cases cbC with
    | none => cases h
    | some x => exact ⟨rfl, .inr ⟨by simp, rfl⟩⟩
  compM s h := by
    rcases h with ⟨x, hx, hy⟩ | ⟨h1, h2⟩
    · exact .inl ⟨x, by simp [Ops.tap, hx], hy⟩
    · exact .inr ⟨by simp [Ops.tap, h1], h2⟩

variable [DecidableEq γ] [DecidableEq ε]

theorem Twin.congr {M : MObs α ε σ} {O : Obs α ε σ} {F F' : σ → Prop} (h : Twin M O F)
    (hf : ∀ s, F s ↔ F' s) : Twin M O F' := by
  have : F = F' := funext fun s => propext (hf s)
  rw [← this]; exact h

theorem pipe_twin (cap : Option Nat) (ov : ε) (react : List (Call γ ε) → Reaction ε) :
    {α : Type} → (p : MPipe ε α γ) →
    Twin (p.lift (mUser cap ov react)) (p.calm.lift (userObs cap ov react)) (p.Fatal react)
  | _, .nil => user_twin cap ov react
  | _, .op o p => (lift_twin (op_kin o) (pipe_twin cap ov react p)).congr fun s => by
      simp [MPipe.Fatal]
  | _, .tap cb cbE cbC p =>
    (lift_twin (tap_kin cb cbE cbC) (pipe_twin cap ov react p)).congr fun _ => Iff.rfl

theorem pipe_start (cap : Option Nat) (ov : ε) (react : List (Call γ ε) → Reaction ε) :
    {α : Type} → (p : MPipe ε α γ) →
    ((p.start (mUser cap ov react) {}).2 = false →
      (p.start (mUser cap ov react) {}).1 = p.calm.start (userObs cap ov react) {} ∧
      ¬ p.Fatal react (p.calm.start (userObs cap ov react) {})) ∧
    ((p.start (mUser cap ov react) {}).2 = true →
      p.Fatal react (p.calm.start (userObs cap ov react) {}))
  | _, .nil => by
    refine ⟨fun _ => ⟨rfl, ?_⟩, fun h => by cases h⟩
    rintro ⟨b, c, a, h, _⟩
    cases b <;> cases h
  | _, .op o p => by
    have ih := pipe_start cap ov react p
    have ht := pipe_twin cap ov react p
    have e1 : MPipe.Fatal react (.op o p) ((MPipe.op o p).calm.start (userObs cap ov react) {}) ↔
        p.Fatal react ((p.calm.lift (userObs cap ov react)).run
          (p.calm.start (userObs cap ov react) {}) o.strategy.initOut) := Iff.rfl
    rw [e1]
    simp only [MPipe.start]
    rcases hs : p.start (mUser cap ov react) {} with ⟨s, b⟩
    rw [hs] at ih
    cases b with
    | true =>
      exact ⟨fun h => (by cases h), fun _ => ht.run_mono _ _ (ih.2 rfl)⟩
    | false =>
      obtain ⟨h1, h2⟩ := ih.1 rfl
      simp only at h1
      subst h1
      refine ⟨fun h => ?_, fun h => ht.run_dead _ _ h⟩
      obtain ⟨h3, h4⟩ := ht.run_live _ _ h
      refine ⟨?_, fun hh => h2 (h4.1 hh)⟩
      show (_, _) = (_, _)
      rw [h3]
  | α', .tap cb cbE cbC p => by
    have ih := pipe_start cap ov react p
    have e1 : MPipe.Fatal react (.tap cb cbE cbC p)
        ((MPipe.tap cb cbE cbC p).calm.start (userObs cap ov react) {}) ↔
        TapThrows cbE cbC ([] : List (Call α' ε)) ∨
          p.Fatal react (p.calm.start (userObs cap ov react) {}) := Iff.rfl
    rw [e1]
    have e0 : ¬ TapThrows cbE cbC ([] : List (Call α' ε)) := by simp [TapThrows]
    refine ⟨fun h => ?_, fun h => .inr (ih.2 h)⟩
    obtain ⟨h1, h2⟩ := ih.1 h
    refine ⟨?_, fun hh => hh.elim e0 h2⟩
    show (_, _) = (_, _)
    rw [h1]; rfl

/-! ## C114 -/

section props

variable (cap : Option Nat) (ov : ε) (react : List (Call γ ε) → Reaction ε) (p : MPipe ε α γ)
  (cs : List (Call α ε))

/-- **C114.** A chain of operators in which all three functions of every `tap`, all three callbacks of
the subscriber and the functions of the other operators may throw: the process dies exactly when, with
handlers that do not throw, the second or third function of a `tap` or the `on_error` or `on_completed`
of the subscriber would be called with something upon which the actual one throws. -/
theorem C114_exact : p.dies cap ov react cs ↔
    p.Fatal react ((p.calm.lift (userObs cap ov react)).run
      (p.calm.start (userObs cap ov react) {}) cs) := by
  have ht := pipe_twin cap ov react p
  have hs := pipe_start cap ov react p
  unfold MPipe.dies MPipe.subscription
  rcases he : p.start (mUser cap ov react) {} with ⟨s, b⟩
  rw [he] at hs
  cases b with
  | true => exact ⟨fun _ => ht.run_mono _ _ (hs.2 rfl), fun _ => rfl⟩
  | false =>
    obtain ⟨h1, h2⟩ := hs.1 rfl
    simp only at h1
    subst h1
    constructor
    · intro h; exact ht.run_dead _ _ h
    · intro h
      cases hr : ((p.lift (mUser cap ov react)).run
          (p.calm.start (userObs cap ov react) {}) cs).2 with
      | true => rfl
      | false => exact absurd ((ht.run_live _ _ hr).2.1 h) h2

/-- **C114.** As long as the process lives everything is as in the chain with handlers that do not
throw: every other theorem about chains (`C01`–`C22`) applies. -/
theorem C114_same (h : ¬ p.dies cap ov react cs) :
    (p.subscription cap ov react cs).1 =
      (p.calm.lift (userObs cap ov react)).run (p.calm.start (userObs cap ov react) {}) cs := by
  have ht := pipe_twin cap ov react p
  have hs := pipe_start cap ov react p
  unfold MPipe.dies MPipe.subscription at h
  unfold MPipe.subscription
  rcases he : p.start (mUser cap ov react) {} with ⟨s, b⟩
  rw [he] at hs h
  cases b with
  | true => exact absurd rfl h
  | false =>
    obtain ⟨h1, _⟩ := hs.1 rfl
    simp only at h1
    subst h1
    exact (ht.run_live _ _ (by simpa using h)).1

/-- Nothing is due in a quiet chain beyond what the subscriber throws. -/
theorem quiet_fatal : {α : Type} → (p : MPipe ε α γ) → p.Quiet → (s : p.calm.State (UserSt γ ε)) →
    (p.Fatal react s ↔ ThrowsAtEnd react (evsOf (p.calm.final s).log))
  | _, .nil, _, _ => Iff.rfl
  | _, .op _ p, h, s => quiet_fatal p h s.2
  | α', .tap _ cbE cbC p, h, s => by
    obtain ⟨h1, h2, h3⟩ : (∀ e, cbE e = none) ∧ cbC = none ∧ p.Quiet := h
    have : ¬ TapThrows (α := α') cbE cbC s.1 := by
      rintro (⟨e, _, h⟩ | ⟨_, h⟩)
      · rw [h1] at h; cases h
      · rw [h2] at h; cases h
    exact ⟨fun h => (quiet_fatal p h3 s.2).1 (h.resolve_left this),
      fun h => .inr ((quiet_fatal p h3 s.2).2 h)⟩

/-- **C114 (the part that holds).** If the second and third functions of the `tap`s and the subscriber's
`on_error` and `on_completed` do not throw, no exception ends the process — whatever the functions of
the operators and the subscriber's `on_next` throw, and whatever the source does.
Missing: handlers that throw, among them the default for `on_error`; see `C114_default` and
`C114_tap_refutes`. -/
theorem C114_lives_partial (hq : p.Quiet)
    (hr : ∀ before c, c.isTerm = true → (react (before ++ [c])).throws = none) :
    ¬ p.dies cap ov react cs := by
  rw [C114_exact, quiet_fatal react p hq]
  rintro ⟨b, c, a, _, hc, hx⟩
  rw [hr b c hc] at hx; cases hx

/-- **C114.** A subscriber without `on_error` of its own: the default rethrows.  The process dies
exactly when the subscriber would get an error. -/
theorem C114_default (hq : p.Quiet)
    (herr : ∀ before e, (react (before ++ [.error e])).throws.isSome = true)
    (hcomp : ∀ before, (react (before ++ [.completed])).throws = none) :
    p.dies cap ov react cs ↔ ∃ e, Call.error e ∈ subscriberSees cap ov react p.calm cs := by
  rw [C114_exact, quiet_fatal react p hq]
  show ThrowsAtEnd react (subscriberSees cap ov react p.calm cs) ↔ _
  constructor
  · rintro ⟨b, c, a, he, hc, hx⟩
    cases c with
    | next => cases hc
    | up => cases hc
    | completed => rw [hcomp] at hx; cases hx
    | error e => exact ⟨e, by rw [he]; simp⟩
  · rintro ⟨e, he⟩
    obtain ⟨b, a, h⟩ := List.append_of_mem he
    exact ⟨b, .error e, a, h, rfl, herr b e⟩

/-- **C114.** In terms of what the chain means: a subscriber that gives no `on_error`, and whose `on_next`
neither throws nor disposes, ends the process exactly when the chain turns what the source sends into
something that ends with an error. -/
theorem C114_default_spec [DecidableEq α] (hq : p.Quiet) (hp : p.calm.WF)
    (herr : ∀ before e, (react (before ++ [.error e])).throws.isSome = true)
    (hcomp : ∀ before, (react (before ++ [.completed])).throws = none)
    (hnext : ∀ before a, (react (before ++ [.next a])).throws = none ∧
      (react (before ++ [.next a])).dispose = false)
    (hfit : Fits cap (p.calm.finals.length + (upsOf cs).length)) :
    p.dies cap ov react cs ↔ ∃ e, (p.calm.spec (traceOf cs)).fin = some (.error e) := by
  rw [C114_default cap ov react p cs hq herr hcomp, C04_pipeline cap ov react p.calm hp cs hfit]
  generalize (p.calm.spec (traceOf cs)).vals = vs
  generalize (p.calm.spec (traceOf cs)).fin = fin
  have : ∀ (vs : List γ) (hist : List (Call γ ε)), deliver react hist vs fin =
      hist ++ vs.map Call.next ++ fin.toList.map Term.toCall := by
    intro vs
    induction vs with
    | nil => intro hist; simp [deliver]
    | cons v vs ih => intro hist; simp [deliver, hnext, ih]
  rw [this]
  cases fin with
  | none => simp
  | some t => cases t <;> simp [Term.toCall]

end props

/-- **C114 fails for `tap`.** `source | tap(…, [](auto){ throw; }, …) | subscribe(…)`: an error from the
source ends the process although the subscriber has a handler for it; whatever follows the `tap`, unless
the subscription is disposed of already. -/
theorem C114_tap_refutes (cap : Option Nat) (ov : ε) (react : List (Call γ ε) → Reaction ε)
    (p : MPipe ε α γ) (cb : α → Option ε) (cbE : ε → Option ε) (cbC : Option ε) (e : ε)
    (he : (cbE e).isSome = true)
    (hlive : (p.calm.lift (userObs cap ov react)).isDisposed
      (p.calm.start (userObs cap ov react) {}) = false) :
    (MPipe.tap cb cbE cbC p).dies cap ov react [.error e] := by
  rw [C114_exact]
  refine .inl (.inl ⟨e, ?_, he⟩)
  have : (((MPipe.tap cb cbE cbC p).calm.lift (userObs cap ov react)).run
      ((MPipe.tap cb cbE cbC p).calm.start (userObs cap ov react) {}) [.error e]).1 =
      ([.error e] : List (Call α ε)) := by
    show (implOnError ((Ops.tap cb).strategy (p.calm.lift (userObs cap ov react))) noneDisp e
      ([], p.calm.start (userObs cap ov react) {})).1 = _
    simp only [implOnError, noneDisp, OpStrategy.strategy, hlive, Bool.or_false, Bool.false_eq_true,
      if_false, Ops.tap, List.nil_append]
  rw [this]; simp

/-! Concrete cases. -/

/-- A subscriber with a handler: it throws upon the value 3 and nothing else (example only). -/
def demoReact (l : List (Call Nat Nat)) : Reaction Nat :=
  match l.getLast? with
  | some (.next 3) => { throws := some 33 }
  | _ => {}

/-- A subscriber without `on_error` (example only). -/
def demoDefault (l : List (Call Nat Nat)) : Reaction Nat :=
  match l.getLast? with
  | some (.error e) => { throws := some e }
  | _ => {}

/-- `map` with a function that throws for 5, then a harmless `tap` (example only). -/
def demoPipe : MPipe Nat Nat Nat :=
  .op (.map fun a => if a = 5 then .error 55 else .ok (a + 1)) (.tap (fun _ => none) (fun _ => none) none .nil)

example : ¬ demoPipe.dies none 0 demoReact [.next 1, .next 2, .next 5, .completed] :=
  C114_lives_partial none 0 demoReact demoPipe _ ⟨fun _ => rfl, rfl, trivial⟩ (by
    intro b c hc
    cases c <;> simp_all [demoReact, Call.isTerm])

example : demoPipe.dies none 0 demoDefault [.next 1, .next 5] ∧
    ¬ demoPipe.dies none 0 demoDefault [.next 1, .completed, .error 7] := by
  unfold MPipe.dies; decide

example : (∀ before e, (demoDefault (before ++ [.error e])).throws.isSome = true) ∧
    (∀ before, (demoDefault (before ++ [.completed])).throws = none) ∧
    (∀ before a, (demoDefault (before ++ [.next a])).throws = none ∧
      (demoDefault (before ++ [.next a])).dispose = false) := by
  simp [demoDefault]

example : (MPipe.tap (fun _ : Nat => none) (fun e => some e) none .nil).dies none 0 demoReact [.error 1] :=
  C114_tap_refutes none 0 demoReact .nil _ _ _ 1 rfl rfl

end Rpp
