import Verif.Core.CrossInv

/-!
# Proofs about disposal from other threads: comparison with the undisturbed subscription (C94)
-/

set_option linter.unusedSectionVars false

namespace Rpp.Cross

/-- An observer with other threads around and one without; `dead`: the subscription is disposed. Models no code. -/
structure Sim {α ε σ σ' : Type} (C : CObs α ε σ) (O : Obs α ε σ') (dead : σ → Bool) (R : σ → σ' → Prop) : Prop where
  call : ∀ c s s', R s s' → R (C.call c s) (O.call c s')
  chk : ∀ s s', R s s' → R (C.isDisposed s).2 s'
  res : ∀ s, (C.isDisposed s).1 = dead (C.isDisposed s).2
  mono : ∀ s, dead s = true → dead (C.isDisposed s).2 = true
  alive : ∀ s s', R s s' → dead s = false → O.isDisposed s' = false
  skip : ∀ c s s', R s s' → dead s = true → R s (O.call c s')
  ran : ∀ s s', R s s' → R (C.ran s) s'
  rel : ∀ d s s', R s s' → R (C.release d s) s'
  rel' : ∀ d s s', R s s' → R s (O.release d s')
  monoRan : ∀ s, dead s = true → dead (C.ran s) = true
  monoRel : ∀ d s, dead s = true → dead (C.release d s) = true

section
variable {α β ε σ σ' τ τ' : Type}

theorem Sim.run {C : CObs α ε σ} {O : Obs α ε σ'} {dead : σ → Bool} {R : σ → σ' → Prop} (h : Sim C O dead R)
    (cs : List (Call α ε)) : ∀ s s', R s s' → R (C.run s cs) (O.run s' cs) := by
  induction cs with
  | nil => intro s s' hr; exact hr
  | cons c cs ih => intro s s' hr; exact ih _ _ (h.call c s s' hr)

theorem Sim.skips {C : CObs α ε σ} {O : Obs α ε σ'} {dead : σ → Bool} {R : σ → σ' → Prop} (h : Sim C O dead R)
    (cs : List (Call α ε)) : ∀ s s', R s s' → dead s = true → R s (O.run s' cs) := by
  induction cs with
  | nil => intro s s' hr _; exact hr
  | cons c cs ih => intro s s' hr hd; exact ih _ _ (h.skip c s s' hr hd) hd

/-- The relation for an operator's observer; models no code. -/
def LR (dead : τ → Bool) (R : τ → τ' → Prop) (s : σ × τ) (s' : σ × τ') : Prop :=
  R s.2 s'.2 ∧ (dead s.2 = false → s.1 = s'.1)

theorem Sim.lift {C : CObs β ε τ} {O : Obs β ε τ'} {dead : τ → Bool} {R : τ → τ' → Prop} (h : Sim C O dead R)
    (P : OpStrategy α β ε σ) : Sim (lift P C) (P.lift O) (fun s => dead s.2) (LR dead R) := by
  -- the undisturbed one goes on alone
  have oErr : ∀ e (s : σ × τ) (s' : σ × τ'), LR dead R s s' → dead s.2 = true → LR dead R s ((P.lift O).onError e s') := by
    intro e s s' hr hd
    refine ⟨?_, fun hf => by rw [hd] at hf; cases hf⟩
    simp only [OpStrategy.lift, observerImpl, implOnError, noneDisp, OpStrategy.strategy, Bool.false_or]
    split
    · exact hr.1
    · exact h.skips _ _ _ hr.1 hd
  have oSkip : ∀ c (s : σ × τ) (s' : σ × τ'), LR dead R s s' → dead s.2 = true → LR dead R s ((P.lift O).call c s') := by
    intro c s s' hr hd
    cases c with
    | error e => exact oErr e s s' hr hd
    | next a =>
      have e1 : (P.lift O).call (.next a) s' =
          if O.isDisposed s'.2 then s'
          else match (P.onNext a s'.1).throws with
            | none => ((P.onNext a s'.1).st, O.run s'.2 (P.onNext a s'.1).out)
            | some e => (P.lift O).onError e ((P.onNext a s'.1).st, O.run s'.2 (P.onNext a s'.1).out) := by
        simp only [Obs.call, OpStrategy.lift, observerImpl, noneDisp, OpStrategy.strategy, Bool.false_or]
        split
        · rfl
        · cases (P.onNext a s'.1).throws <;> rfl
      rw [e1]
      split
      · exact hr
      · have h1 : LR dead R s ((P.onNext a s'.1).st, O.run s'.2 (P.onNext a s'.1).out) :=
          ⟨h.skips _ _ _ hr.1 hd, fun hf => by rw [hd] at hf; cases hf⟩
        cases (P.onNext a s'.1).throws with
        | none => exact h1
        | some e => exact oErr e s _ h1 hd
    | completed =>
      refine ⟨?_, fun hf => by rw [hd] at hf; cases hf⟩
      simp only [Obs.call, OpStrategy.lift, observerImpl, noneDisp, OpStrategy.strategy, Bool.false_or]
      split
      · exact hr.1
      · exact h.skips _ _ _ hr.1 hd
    | up d =>
      refine ⟨?_, fun hf => by rw [hd] at hf; cases hf⟩
      simp only [Obs.call, OpStrategy.lift, observerImpl, noneDisp, OpStrategy.strategy, Bool.false_or]
      split
      · exact h.rel' d _ _ hr.1
      · exact h.skip (.up d) _ _ hr.1 hd
  -- after the check
  have chkd : ∀ (s : σ × τ) (s' : σ × τ'), LR dead R s s' → (C.isDisposed s.2).1 = true →
      LR dead R (s.1, (C.isDisposed s.2).2) s' ∧ dead (C.isDisposed s.2).2 = true := by
    intro s s' hr hb
    have hd : dead (C.isDisposed s.2).2 = true := by rw [← h.res]; exact hb
    exact ⟨⟨h.chk _ _ hr.1, fun hf => by rw [show dead (C.isDisposed s.2).2 = false from hf] at hd; cases hd⟩, hd⟩
  have chka : ∀ (s : σ × τ) (s' : σ × τ'), LR dead R s s' → ¬ (C.isDisposed s.2).1 = true →
      R (C.isDisposed s.2).2 s'.2 ∧ s.1 = s'.1 ∧ O.isDisposed s'.2 = false := by
    intro s s' hr hb
    have hd : dead (C.isDisposed s.2).2 = false := by rw [← h.res]; simpa using hb
    have hd0 : dead s.2 = false := by
      cases hx : dead s.2 with
      | false => rfl
      | true => rw [h.mono _ hx] at hd; cases hd
    exact ⟨h.chk _ _ hr.1, hr.2 hd0, h.alive _ _ hr.1 hd0⟩
  have hErr : ∀ e (s : σ × τ) (s' : σ × τ'), LR dead R s s' → LR dead R ((Cross.lift P C).onError e s) ((P.lift O).onError e s') := by
    intro e s s' hr
    have e1 : (Cross.lift P C).onError e s = if (C.isDisposed s.2).1 then (s.1, (C.isDisposed s.2).2)
        else ((P.onError e s.1).st, C.run (C.ran (C.isDisposed s.2).2) (P.onError e s.1).out) := rfl
    rw [e1]
    by_cases hb : (C.isDisposed s.2).1 = true
    · rw [if_pos hb]
      obtain ⟨h1, h2⟩ := chkd s s' hr hb
      exact oErr e (s.1, (C.isDisposed s.2).2) s' h1 h2
    · rw [if_neg hb]
      obtain ⟨h1, h2, h3⟩ := chka s s' hr hb
      simp only [OpStrategy.lift, observerImpl, implOnError, noneDisp, OpStrategy.strategy, Bool.false_or, h3, Bool.false_eq_true,
        if_false]
      rw [← h2]
      exact ⟨h.run _ _ _ (h.ran _ _ h1), fun _ => rfl⟩
  refine ⟨?_, ?_, fun s => h.res s.2, fun s hs => h.mono s.2 hs, ?_, oSkip, ?_, ?_, ?_, ?_, ?_⟩
  · intro c s s' hr
    cases c with
    | error e => exact hErr e s s' hr
    | next a =>
      have e1 : (Cross.lift P C).call (.next a) s = if (C.isDisposed s.2).1 then (s.1, (C.isDisposed s.2).2)
          else match (P.onNext a s.1).throws with
            | none => ((P.onNext a s.1).st, C.run (C.ran (C.isDisposed s.2).2) (P.onNext a s.1).out)
            | some e => (Cross.lift P C).onError e
              ((P.onNext a s.1).st, C.run (C.ran (C.isDisposed s.2).2) (P.onNext a s.1).out) := rfl
      rw [e1]
      by_cases hb : (C.isDisposed s.2).1 = true
      · rw [if_pos hb]
        obtain ⟨h1, h2⟩ := chkd s s' hr hb
        exact oSkip _ (s.1, (C.isDisposed s.2).2) s' h1 h2
      · rw [if_neg hb]
        obtain ⟨h1, h2, h3⟩ := chka s s' hr hb
        have e2 : (P.lift O).call (.next a) s' = match (P.onNext a s'.1).throws with
            | none => ((P.onNext a s'.1).st, O.run s'.2 (P.onNext a s'.1).out)
            | some e => (P.lift O).onError e ((P.onNext a s'.1).st, O.run s'.2 (P.onNext a s'.1).out) := by
          simp only [Obs.call, OpStrategy.lift, observerImpl, noneDisp, OpStrategy.strategy, Bool.false_or, h3,
            Bool.false_eq_true, if_false]
          cases (P.onNext a s'.1).throws <;> rfl
        rw [e2, ← h2]
        have h4 : LR dead R ((P.onNext a s.1).st, C.run (C.ran (C.isDisposed s.2).2) (P.onNext a s.1).out)
            ((P.onNext a s.1).st, O.run s'.2 (P.onNext a s.1).out) := ⟨h.run _ _ _ (h.ran _ _ h1), fun _ => rfl⟩
        cases (P.onNext a s.1).throws with
        | none => exact h4
        | some e => exact hErr e _ _ h4
    | completed =>
      have e1 : (Cross.lift P C).call .completed s = if (C.isDisposed s.2).1 then (s.1, (C.isDisposed s.2).2)
          else ((P.onCompleted s.1).st, C.run (C.ran (C.isDisposed s.2).2) (P.onCompleted s.1).out) := rfl
      rw [e1]
      by_cases hb : (C.isDisposed s.2).1 = true
      · rw [if_pos hb]
        obtain ⟨h1, h2⟩ := chkd s s' hr hb
        exact oSkip _ (s.1, (C.isDisposed s.2).2) s' h1 h2
      · rw [if_neg hb]
        obtain ⟨h1, h2, h3⟩ := chka s s' hr hb
        simp only [Obs.call, OpStrategy.lift, observerImpl, noneDisp, OpStrategy.strategy, Bool.false_or, h3,
          Bool.false_eq_true, if_false]
        rw [← h2]
        exact ⟨h.run _ _ _ (h.ran _ _ h1), fun _ => rfl⟩
    | up d =>
      have e1 : (Cross.lift P C).call (.up d) s = if (C.isDisposed s.2).1 then (s.1, C.release d (C.isDisposed s.2).2)
          else (s.1, C.setUpstream d (C.isDisposed s.2).2) := rfl
      rw [e1]
      by_cases hb : (C.isDisposed s.2).1 = true
      · rw [if_pos hb]
        obtain ⟨h1, h2⟩ := chkd s s' hr hb
        have h5 := oSkip (.up d) (s.1, (C.isDisposed s.2).2) s' h1 h2
        refine ⟨h.rel d _ _ h5.1, fun hf => ?_⟩
        have := h.monoRel d _ h2
        rw [show dead (C.release d (C.isDisposed s.2).2) = false from hf] at this; cases this
      · rw [if_neg hb]
        obtain ⟨h1, h2, h3⟩ := chka s s' hr hb
        simp only [Obs.call, OpStrategy.lift, observerImpl, noneDisp, OpStrategy.strategy, Bool.false_or, h3,
          Bool.false_eq_true, if_false]
        exact ⟨h.call (.up d) _ _ h1, fun _ => h2⟩
  · intro s s' hr
    refine ⟨h.chk _ _ hr.1, fun hf => hr.2 ?_⟩
    cases hx : dead s.2 with
    | false => rfl
    | true => have := h.mono _ hx; rw [show dead (C.isDisposed s.2).2 = false from hf] at this; cases this
  · intro s s' hr hd
    simp only [OpStrategy.lift, observerImpl, noneDisp, OpStrategy.strategy, Bool.false_or]
    exact h.alive _ _ hr.1 hd
  · intro s s' hr
    refine ⟨h.ran _ _ hr.1, fun hf => hr.2 ?_⟩
    cases hx : dead s.2 with
    | false => rfl
    | true => have := h.monoRan _ hx; rw [show dead (C.ran s.2) = false from hf] at this; cases this
  · intro d s s' hr
    refine ⟨h.rel d _ _ hr.1, fun hf => hr.2 ?_⟩
    cases hx : dead s.2 with
    | false => rfl
    | true => have := h.monoRel d _ hx; rw [show dead (C.release d s.2) = false from hf] at this; cases this
  · intro d s s' hr
    exact ⟨h.rel' d _ _ hr.1, hr.2⟩
  · intro s hs; exact h.monoRan _ hs
  · intro d s hs; exact h.monoRel d _ hs

end

/-! ## The subscriber -/

section
variable {α ε : Type} [DecidableEq α] [DecidableEq ε] {env : Nat → List Nat} {react : List (Call α ε) → Reaction ε}

/-- What the other threads do: nothing is shown, and nothing comes alive; models no code. -/
structure Quiet (w w' : World α ε) : Prop where
  shown : shown w'.log = shown w.log
  dead : w.disposed = true → w'.disposed = true

theorem Quiet.refl (w : World α ε) : Quiet w w := ⟨rfl, id⟩

theorem Quiet.trans {w w' w'' : World α ε} (h : Quiet w w') (k : Quiet w' w'') : Quiet w w'' :=
  ⟨k.shown.trans h.shown, fun hd => k.dead (h.dead hd)⟩

theorem Quiet.say (w : World α ε) (e : Ev α ε) (he : e.calm = true) : Quiet w (w.say e) :=
  ⟨by show Cross.shown (w.log ++ [e]) = _; rw [shown_append, Ev.calm_shown he, List.append_nil], id⟩

theorem shown_released (ds : List Nat) : shown (ds.map (Ev.released (α := α) (ε := ε))) = [] := by
  induction ds with
  | nil => rfl
  | cons d ds ih => exact ih

theorem Rel.quiet {w w' : World α ε} (h : Rel w w') : Quiet w w' := by
  obtain ⟨ds, hl⟩ := h.log
  refine ⟨?_, fun hd => by rw [h.disposed]; exact hd⟩
  rw [hl, shown_append, shown_released, List.append_nil]

theorem tick_quiet (w : World α ε) : Quiet w (w.tick env) := by
  refine tick_ind (I := fun w' => Quiet w w') env (fun w' n h => ⟨h.shown, h.dead⟩) ?_ w (Quiet.refl w)
  intro w' t h
  refine h.trans ?_
  have g : ∀ (v : World α ε) pc, Quiet v (v.goto t pc) := fun v pc => ⟨rfl, id⟩
  unfold World.advance
  split
  · exact (g w' .asked).trans (Quiet.say _ (.asked (some t)) rfl)
  · split
    · exact (g w' .over).trans (Quiet.say _ (.answered (some t)) rfl)
    · exact ⟨rfl, fun _ => rfl⟩
  · exact ((releaseAll_rel w').quiet.trans (g _ .over)).trans (Quiet.say _ (.answered (some t)) rfl)
  · exact Quiet.refl _

theorem dispose_quiet (w : World α ε) : Quiet w (w.dispose env) ∧ (w.dispose env).disposed = true := by
  have h1 := tick_quiet (env := env) w
  unfold World.dispose
  by_cases hd : (w.tick env).disposed = true
  · rw [if_pos hd]; exact ⟨h1, hd⟩
  · rw [if_neg hd]
    have h2 : Quiet (w.tick env) { w.tick env with disposed := true } := ⟨rfl, fun _ => rfl⟩
    have h3 := tick_quiet (env := env) { w.tick env with disposed := true }
    have h4 := (releaseAll_rel (World.tick env { w.tick env with disposed := true })).quiet
    exact ⟨h1.trans (h2.trans (h3.trans h4)), h4.dead (h3.dead rfl)⟩

/-- The relation for the subscriber; models no code. -/
structure R (w : World α ε) (u : UserSt α ε) : Prop where
  alive : w.disposed = false → u.disposed = false ∧ shown w.log = evsOf u.log
  pre : shown w.log <+: evsOf u.log

/-- As `R`, and everything shown is the same; models no code. -/
structure E (w : World α ε) (u : UserSt α ε) : Prop where
  alive : w.disposed = false → u.disposed = false
  same : shown w.log = evsOf u.log

theorem E.r {w : World α ε} {u : UserSt α ε} (h : E w u) : R w u :=
  ⟨fun hd => ⟨h.alive hd, h.same⟩, by rw [h.same]; exact List.prefix_refl _⟩

theorem R.e {w : World α ε} {u : UserSt α ε} (h : R w u) (hd : w.disposed = false) : E w u :=
  ⟨fun _ => (h.alive hd).1, (h.alive hd).2⟩

theorem Quiet.alive {w w' : World α ε} (h : Quiet w w') (hd : w'.disposed = false) : w.disposed = false := by
  cases hx : w.disposed with
  | false => rfl
  | true => rw [h.dead hx] at hd; cases hd

theorem R.quiet {w w' : World α ε} {u : UserSt α ε} (h : R w u) (q : Quiet w w') : R w' u :=
  ⟨fun hd => by rw [q.shown]; exact h.alive (q.alive hd), by rw [q.shown]; exact h.pre⟩

theorem E.quiet {w w' : World α ε} {u : UserSt α ε} (h : E w u) (q : Quiet w w') : E w' u :=
  ⟨fun hd => h.alive (q.alive hd), by rw [q.shown]; exact h.same⟩

/-- The undisturbed subscriber only sees more. -/
theorem user_mono (ov : ε) (c : Call α ε) (u : UserSt α ε) : evsOf u.log <+: evsOf ((userObs none ov react).call c u).log := by
  have hev : ∀ c, evsOf (u.log ++ [.ev c]) = evsOf u.log ++ [c] := fun c => by rw [evsOf_append]; rfl
  have key : ∀ (e : ε) (u : UserSt α ε), evsOf u.log <+: evsOf (implOnError (lambdaStrategy react) (localDisp none ov) e u).log := by
    intro e u
    rw [implOnError_user]
    split
    · exact List.prefix_refl _
    · rw [(UserSt.dispose_facts _).1]
      simp only [lambdaStrategy]
      split
      · rw [(UserSt.dispose_facts _).1, evsOf_append]; exact List.prefix_append _ _
      · rw [evsOf_append]; exact List.prefix_append _ _
  cases c with
  | error e => exact key e u
  | completed =>
    simp only [Obs.call, userObs, observerImpl, localDisp, lambdaStrategy, Bool.or_false]
    split
    · exact List.prefix_refl _
    · rw [(UserSt.dispose_facts _).1]
      split
      · rw [(UserSt.dispose_facts _).1, hev]; exact List.prefix_append _ _
      · rw [hev]; exact List.prefix_append _ _
  | up d =>
    simp only [Obs.call, userObs, observerImpl, localDisp, lambdaStrategy, Bool.or_false]
    split
    · rw [UserSt.evs_release]; exact List.prefix_refl _
    · exact List.prefix_refl _
  | next a =>
    have h1 : evsOf u.log <+: evsOf ((lambdaStrategy react).onNext a u).1.log := by
      simp only [lambdaStrategy]
      split
      · rw [(UserSt.dispose_facts _).1, hev]; exact List.prefix_append _ _
      · rw [hev]; exact List.prefix_append _ _
    show _ <+: evsOf (if (u.disposed || false) = true then u else _).log
    simp only [Bool.or_false]
    split
    · exact List.prefix_refl _
    · generalize (lambdaStrategy react).onNext a u = r at h1
      obtain ⟨s', t⟩ := r
      cases t with
      | none => exact h1
      | some e => exact h1.trans (key e s')

/-- What the undisturbed callback does; models no code. -/
def ucb (react : List (Call α ε) → Reaction ε) (c : Call α ε) (u : UserSt α ε) : UserSt α ε × Option ε :=
  let s1 : UserSt α ε := { u with log := u.log ++ [.ev c] }
  (if (react (evsOf s1.log)).dispose then s1.dispose else s1, (react (evsOf s1.log)).throws)

theorem callback_e {w : World α ε} {u : UserSt α ε} (h : E w u) (c : Call α ε) (hu : u.disposed = false) :
    E (callback env react c w).1 (ucb react c u).1 ∧ (callback env react c w).2 = (ucb react c u).2 := by
  have h1 : shown ((w.tick env).say (.start c)).log = evsOf (u.log ++ [.ev c]) := by
    show shown ((w.tick env).log ++ [.start c]) = _
    rw [shown_append, (tick_quiet w).shown, evsOf_append, h.same]; rfl
  simp only [callback, ucb, h1]
  refine ⟨?_, trivial⟩
  have h2 : E ((w.tick env).say (.start c)) { u with log := u.log ++ [.ev c] } := ⟨fun _ => hu, h1⟩
  generalize react (evsOf (u.log ++ [.ev c])) = r
  cases r.dispose with
  | false =>
    simp only [Bool.false_eq_true, if_false]
    exact (h2.quiet (tick_quiet _)).quiet (Quiet.say _ _ rfl)
  | true =>
    simp only [if_true]
    have q := dispose_quiet (env := env) (((w.tick env).say (.start c)).say (.asked none))
    have h3 := ((h2.quiet (Quiet.say _ (.asked none) rfl)).quiet q.1).quiet (Quiet.say _ (.answered none) rfl)
    have h4 := (h3.quiet (tick_quiet (env := env) _)).quiet (Quiet.say _ (.finish c) rfl)
    have hd := (Quiet.trans (tick_quiet (env := env) _) (Quiet.say _ (.finish c) rfl)).dead
      (show (((((w.tick env).say (.start c)).say (.asked none)).dispose env).say (.answered none)).disposed = true from q.2)
    exact ⟨fun hf => (by rw [hf] at hd; cases hd), by rw [h4.same, (UserSt.dispose_facts _).1]⟩

theorem terminal_r {w : World α ε} {u : UserSt α ε} (h : R w u) (c : Call α ε) (f : UserSt α ε)
    (hf : f = if u.disposed then u else (ucb react c u).1.dispose) : R (terminal env react c w) f := by
  have h1 := h.quiet (tick_quiet (env := env) w)
  have hmono : evsOf u.log <+: evsOf f.log := by
    rw [hf]
    split
    · exact List.prefix_refl _
    · rw [(UserSt.dispose_facts _).1]
      simp only [ucb]
      split
      · rw [(UserSt.dispose_facts _).1, evsOf_append]; exact List.prefix_append _ _
      · rw [evsOf_append]; exact List.prefix_append _ _
  unfold terminal
  by_cases hd : (w.tick env).disposed = true
  · simp only [hd, if_true]
    exact ⟨fun hx => (by rw [hd] at hx; cases hx), h1.pre.trans hmono⟩
  · simp only [hd, Bool.false_eq_true, if_false]
    have hdf : (w.tick env).disposed = false := by simpa using hd
    have h2 := (callback_e (env := env) (react := react) (h1.e hdf) c (h1.alive hdf).1).1
    have q := dispose_quiet (env := env) (callback env react c (w.tick env)).1
    have h3 := h2.quiet q.1
    rw [(h1.alive hdf).1] at hf
    simp only [Bool.false_eq_true, if_false] at hf
    subst hf
    exact ⟨fun hx => (by rw [q.2] at hx; cases hx), by rw [(UserSt.dispose_facts _).1, h3.same]; exact List.prefix_refl _⟩

theorem user_sim (ov : ε) : Sim (user env react) (userObs none ov react) World.disposed (R (α := α) (ε := ε)) := by
  refine ⟨?_, ?_, fun w => rfl, fun w hw => (tick_quiet w).dead hw, ?_, ?_, ?_, ?_, ?_, ?_, ?_⟩
  · intro c w u h
    cases c with
    | error e =>
      refine terminal_r h _ _ ?_
      show implOnError (lambdaStrategy react) (localDisp none ov) e u = _
      rw [implOnError_user]; rfl
    | completed =>
      refine terminal_r h _ _ ?_
      simp only [Obs.call, userObs, observerImpl, localDisp, lambdaStrategy, Bool.or_false]; rfl
    | up d =>
      have h1 := h.quiet (tick_quiet (env := env) w)
      have q : Quiet w (((user env react).call (.up d) w)) := by
        simp only [CObs.call, user]
        have q1 := tick_quiet (env := env) w
        split
        · exact q1.trans ((Quiet.say _ (.handed d) rfl).trans (release_rel d _).quiet)
        · have q2 := tick_quiet (env := env) (w.tick env)
          split
          · exact (q1.trans q2).trans ((Quiet.say _ (.handed d) rfl).trans (release_rel d _).quiet)
          · exact ((q1.trans q2).trans (Quiet.say _ (.handed d) rfl)).trans ⟨rfl, id⟩
      have h2 := h.quiet q
      have e1 : evsOf ((userObs none ov react).call (.up d) u).log = evsOf u.log := by
        simp only [Obs.call, userObs, observerImpl, localDisp, lambdaStrategy, Bool.or_false]
        split
        · rw [UserSt.evs_release]
        · rfl
      have e2 : u.disposed = false → ((userObs none ov react).call (.up d) u).disposed = false := by
        intro hu
        simp only [Obs.call, userObs, observerImpl, localDisp, lambdaStrategy, Bool.or_false, hu, Bool.false_eq_true, if_false]
      exact ⟨fun hd => ⟨e2 (h2.alive hd).1, by rw [e1]; exact (h2.alive hd).2⟩, by rw [e1]; exact h2.pre⟩
    | next a =>
      have h1 := h.quiet (tick_quiet (env := env) w)
      by_cases hd : (w.tick env).disposed = true
      · have e1 : (user env react).call (.next a) w = w.tick env := by
          simp only [CObs.call, user]; rw [if_pos hd]
        rw [e1]
        exact ⟨fun hx => (by rw [hd] at hx; cases hx), h1.pre.trans (user_mono ov _ u)⟩
      · have hdf : (w.tick env).disposed = false := by simpa using hd
        have hu := (h1.alive hdf).1
        obtain ⟨h2, h3⟩ := callback_e (env := env) (react := react) (h1.e hdf) (.next a) hu
        rcases hx : callback env react (.next a) (w.tick env) with ⟨w2, t⟩
        rcases hy : (lambdaStrategy react).onNext a u with ⟨u2, t'⟩
        have hy' : ucb react (.next a) u = (u2, t') := hy
        have e1 : (user env react).call (.next a) w = match (w2, t) with
            | (w, none) => w
            | (w, some e) => terminal env react (.error e) w := by
          simp only [CObs.call, user]; rw [if_neg hd, hx]
          cases t <;> rfl
        have e2 : (userObs none ov react).call (.next a) u = match (u2, t') with
            | (s', none) => s'
            | (s', some e) => implOnError (lambdaStrategy react) (localDisp none ov) e s' := by
          show (if (u.disposed || false) = true then u else _) = _
          rw [hu, hy]
          cases t' <;> rfl
        rw [hx, hy'] at h2 h3
        rw [e1, e2]
        cases h3
        cases t with
        | none => exact h2.r
        | some e => exact terminal_r h2.r _ _ (implOnError_user u2 e)
  · intro w u h; exact h.quiet (tick_quiet w)
  · intro w u h hd; rw [userObs_isDisposed]; exact (h.alive hd).1
  · intro c w u h hd
    exact ⟨fun hx => (by rw [hd] at hx; cases hx), h.pre.trans (user_mono ov c u)⟩
  · intro w u h; 
    refine (h.quiet (tick_quiet (env := env) w)).quiet ⟨?_, id⟩
    show shown ((w.tick env).log ++ [.ran]) = _
    rw [shown_append]; exact List.append_nil _
  · intro d w u h; exact (h.quiet (Quiet.say _ (.handed d) rfl)).quiet (release_rel d _).quiet
  · intro d w u h
    have e1 : evsOf ((userObs none ov react).release d u).log = evsOf u.log := UserSt.evs_release u d
    have e2 : ((userObs none ov react).release d u).disposed = u.disposed := by
      show (u.release d).disposed = _
      unfold UserSt.release; split <;> rfl
    exact ⟨fun hd => ⟨by rw [e2]; exact (h.alive hd).1, by rw [e1]; exact (h.alive hd).2⟩, by rw [e1]; exact h.pre⟩
  · intro w hw; exact (tick_quiet w).dead hw
  · intro d w hw; exact (release_rel d _).quiet.dead hw

end

/-! ## Pipelines -/

/-- The relation for a pipeline; models no code. -/
def PR {ε γ τ τ' : Type} (dead : τ → Bool) (R : τ → τ' → Prop) : {α : Type} → (p : Pipe ε α γ) → p.State τ → p.State τ' → Prop
  | _, .nil, s, s' => R s s'
  | _, .cons _ p, s, s' => LR (fun t => dead (p.final t)) (PR dead R p) s s'

theorem Sim.liftAll {ε γ τ τ' : Type} {C : CObs γ ε τ} {O : Obs γ ε τ'} {dead : τ → Bool} {R : τ → τ' → Prop} (h : Sim C O dead R) :
    {α : Type} → (p : Pipe ε α γ) → Sim (liftAll p C) (p.lift O) (fun s => dead (p.final s)) (PR dead R p)
  | _, .nil => h
  | _, .cons o p => (Sim.liftAll h p).lift o.strategy

theorem Sim.startAll {ε γ τ τ' : Type} {C : CObs γ ε τ} {O : Obs γ ε τ'} {dead : τ → Bool} {R : τ → τ' → Prop} (h : Sim C O dead R)
    (t : τ) (t' : τ') (hr : R t t') : {α : Type} → (p : Pipe ε α γ) → PR dead R p (startAll p C t) (p.start O t')
  | _, .nil => hr
  | _, .cons o p => ⟨(Sim.liftAll h p).run o.strategy.initOut _ _ (Sim.startAll h t t' hr p), fun _ => rfl⟩

theorem PR.final {ε γ τ τ' : Type} {dead : τ → Bool} {R : τ → τ' → Prop} : {α : Type} → (p : Pipe ε α γ) →
    (s : p.State τ) → (s' : p.State τ') → PR dead R p s s' → R (p.final s) (p.final s')
  | _, .nil, _, _, h => h
  | _, .cons _ p, s, s', h => PR.final p s.2 s'.2 h.1

theorem PR.mapFinal {ε γ τ τ' : Type} {dead : τ → Bool} {R : τ → τ' → Prop} (f : τ → τ) (hf : ∀ t t', R t t' → R (f t) t')
    (hd : ∀ t, dead (f t) = dead t) : {α : Type} → (p : Pipe ε α γ) →
    (s : p.State τ) → (s' : p.State τ') → PR dead R p s s' → PR dead R p (p.mapFinal f s) s'
  | _, .nil, _, _, h => hf _ _ h
  | _, .cons _ p, s, s', h => ⟨PR.mapFinal f hf hd p s.2 s'.2 h.1, fun hx => h.2 (by
      have : dead (p.final (p.mapFinal f s.2)) = false := hx
      rw [final_mapFinal, hd] at this; exact this)⟩

theorem subscription_sim {α γ ε : Type} [DecidableEq γ] [DecidableEq ε] (env : Nat → List Nat)
    (react : List (Call γ ε) → Reaction ε) (ov : ε) (p : Pipe ε α γ) (cs : List (Call α ε)) :
    shown (subscription env react p cs).log <+: subscriberSees none ov react p cs := by
  have hs := user_sim (env := env) (react := react) ov
  have key : ∀ (cs : List (Call α ε)) (s : p.State (World γ ε)) (s' : p.State (UserSt γ ε)), PR World.disposed R p s s' →
      PR World.disposed R p (cs.foldl (notify env react p) s) ((p.lift (userObs none ov react)).run s' cs) := by
    intro cs
    induction cs with
    | nil => intro s s' h; exact h
    | cons c cs ih =>
      intro s s' h
      refine ih _ _ ?_
      have hm : ∀ (e : Ev γ ε), e = .enter ∨ e = .leave → ∀ (s : p.State (World γ ε)) (s' : p.State (UserSt γ ε)),
          PR World.disposed R p s s' → PR World.disposed R p (p.mapFinal (World.say · e) s) s' := by
        intro e he s s' h
        refine PR.mapFinal (World.say · e) (fun w u (h : R w u) => h.quiet ⟨?_, id⟩) (fun _ => rfl) p s s' h
        show shown (w.log ++ [e]) = _
        rw [shown_append]
        rcases he with rfl | rfl <;> exact List.append_nil _
      exact hm _ (.inr rfl) _ _ ((hs.liftAll p).call c _ _ (hm _ (.inl rfl) _ _ h))
  have h0 : R ({} : World γ ε) ({} : UserSt γ ε) := ⟨fun _ => ⟨rfl, rfl⟩, List.prefix_refl _⟩
  exact (PR.final p _ _ (key cs _ _ (hs.startAll _ _ h0 p))).pre

end Rpp.Cross
