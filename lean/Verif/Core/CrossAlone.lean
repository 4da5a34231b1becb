import Verif.Core.CrossHand

/-!
# Proofs about disposal from other threads: as long as nobody disposes (C94)
-/

set_option linter.unusedSectionVars false

namespace Rpp.Cross

section
variable {α ε : Type} [DecidableEq α] [DecidableEq ε] {env : Nat → List Nat} {react : List (Call α ε) → Reaction ε}

/-- No other thread has called `dispose()`; models no code. -/
def NoAsk (w : World α ε) : Prop := ∀ t, Ev.asked (some t) ∉ w.log

/-- As long as no other thread has called `dispose()` nothing is missing; models no code. -/
def S (w : World α ε) (u : UserSt α ε) : Prop :=
  NoAsk w → (∀ t, w.pcs t = .idle) ∧ w.disposed = u.disposed ∧ shown w.log = evsOf u.log

theorem NoAsk.soft {w w' : World α ε} (h : NoAsk w') (k : Soft w w') : NoAsk w := fun t ht => h t (k.mem ht)

theorem tick_idle (w : World α ε) (hi : ∀ t, w.pcs t = .idle) (hn : NoAsk (w.tick env)) :
    (w.tick env).pcs = w.pcs ∧ (w.tick env).disposed = w.disposed := by
  have key : Soft w (w.tick env) ∧ (NoAsk (w.tick env) → (w.tick env).pcs = w.pcs ∧ (w.tick env).disposed = w.disposed) := by
    refine ⟨tick_soft w, ?_⟩
    refine tick_ind (I := fun w' => NoAsk w' → w'.pcs = w.pcs ∧ w'.disposed = w.disposed) env (fun w' n h => h) ?_ w
      (fun _ => ⟨rfl, rfl⟩)
    intro w' t ih hn
    by_cases hp : w'.pcs t = .idle
    · exfalso
      refine hn t ?_
      unfold World.advance
      rw [hp]
      exact List.mem_append_right _ List.mem_cons_self
    · exfalso
      have hs : Soft w' (w'.advance t) := by
        have g : ∀ (v : World α ε) pc, Soft v (v.goto t pc) := fun v pc => soft_set _ _ rfl id
        unfold World.advance
        split
        · exact (g w' .asked).trans (Soft.say _ (.asked (some t)) rfl rfl)
        · split
          · exact (g w' .over).trans (Soft.say _ (.answered (some t)) rfl rfl)
          · exact soft_set _ _ rfl (fun _ => rfl)
        · exact ((releaseAll_rel w').soft.trans (g _ .over)).trans (Soft.say _ (.answered (some t)) rfl rfl)
        · exact Soft.refl _
      rw [(ih (hn.soft hs)).1] at hp
      exact hp (hi t)
  exact key.2 hn

theorem S.tick {w : World α ε} {u : UserSt α ε} (h : S w u) : S (w.tick env) u := by
  intro hn
  have k := tick_soft (env := env) w
  obtain ⟨h1, h2, h3⟩ := h (hn.soft k)
  obtain ⟨t1, t2⟩ := tick_idle w h1 hn
  exact ⟨by rw [t1]; exact h1, by rw [t2]; exact h2, by rw [k.shown]; exact h3⟩

theorem S.keep {w w' : World α ε} {u : UserSt α ε} (h : S w u) (k : Soft w w') (h1 : w'.pcs = w.pcs) (h2 : w'.disposed = w.disposed) :
    S w' u := by
  intro hn
  obtain ⟨a, b, c⟩ := h (hn.soft k)
  exact ⟨by rw [h1]; exact a, by rw [h2]; exact b, by rw [k.shown]; exact c⟩

theorem S.dispose {w : World α ε} {u u' : UserSt α ε} (h : S w u) (h1 : evsOf u'.log = evsOf u.log) (h2 : u'.disposed = true) :
    S (w.dispose env) u' := by
  intro hn
  have k := dispose_soft (env := env) w
  obtain ⟨a, b, c⟩ := h (hn.soft k)
  refine ⟨?_, (dispose_quiet w).2.trans h2.symm, by rw [k.shown, c, h1]⟩
  have ht : S (w.tick env) u := h.tick
  unfold World.dispose at hn ⊢
  by_cases hd : (w.tick env).disposed = true
  · rw [if_pos hd] at hn ⊢; exact (ht hn).1
  · rw [if_neg hd] at hn ⊢
    have k2 := (releaseAll_rel (World.tick env { w.tick env with disposed := true })).soft
    have hn2 := hn.soft k2
    have hn1 : NoAsk (w.tick env) :=
      hn2.soft ((soft_set (w.tick env) { w.tick env with disposed := true } rfl (fun _ => rfl)).trans (tick_soft _))
    have hi := (ht hn1).1
    have := (tick_idle { w.tick env with disposed := true } hi hn2).1
    rw [(releaseAll_rel _).pcs, this]
    exact hi

theorem callback_soft {w : World α ε} (c : Call α ε) (hn : NoAsk (callback env react c w).1) : NoAsk w :=
  fun t ht => hn t (callback_mem ht c)

theorem callback_s {w : World α ε} {u : UserSt α ε} (h : S w u) (c : Call α ε) : S (callback env react c w).1 (ucb react c u).1 := by
  intro hn
  obtain ⟨_, _, a3⟩ := h (callback_soft c hn)
  have h1 : shown ((w.tick env).say (.start c)).log = evsOf (u.log ++ [.ev c]) := by
    show shown ((w.tick env).log ++ [.start c]) = _
    rw [shown_append, (tick_quiet w).shown, evsOf_append, a3]; rfl
  have h2 : S ((w.tick env).say (.start c)) { u with log := u.log ++ [.ev c] } := by
    intro hn'
    have hn1 : NoAsk (w.tick env) := fun t ht => hn' t (List.mem_append_left _ ht)
    obtain ⟨b1, b2, _⟩ := (h.tick (env := env)) hn1
    exact ⟨b1, b2, h1⟩
  revert hn
  show S (callback env react c w).1 (ucb react c u).1
  simp only [callback, ucb, h1]
  generalize react (evsOf (u.log ++ [.ev c])) = r
  cases r.dispose with
  | false =>
    simp only [Bool.false_eq_true, if_false]
    exact (h2.tick (env := env)).keep (Soft.say _ (.finish c) rfl rfl) rfl rfl
  | true =>
    simp only [if_true]
    have h3 := h2.keep (Soft.say _ (.asked none) rfl rfl) rfl rfl
    have f := UserSt.dispose_facts ({ u with log := u.log ++ [.ev c] } : UserSt α ε)
    have h4 := h3.dispose (env := env) f.1 f.2.1
    have h5 : S ((((((w.tick env).say (.start c)).say (.asked none)).dispose env).say (.answered none)))
        ({ u with log := u.log ++ [.ev c] } : UserSt α ε).dispose := by
      intro hn'
      obtain ⟨b1, b2, b3⟩ := h4 (fun t ht => hn' t (List.mem_append_left _ ht))
      refine ⟨b1, b2, ?_⟩
      show shown (_ ++ [_]) = _
      rw [shown_append, b3]; exact List.append_nil _
    exact (h5.tick (env := env)).keep (Soft.say _ (.finish c) rfl rfl) rfl rfl

theorem terminal_s {w : World α ε} {u : UserSt α ε} (h : S w u) (c : Call α ε) (f : UserSt α ε)
    (hf : f = if u.disposed then u else (ucb react c u).1.dispose) : S (terminal env react c w) f := by
  intro hn
  have hn0 : NoAsk w := fun t ht => hn t (terminal_mem ht c)
  have h1 : S (w.tick env) u := h.tick
  revert hn
  show S (terminal env react c w) f
  unfold terminal
  by_cases hd : (w.tick env).disposed = true
  · simp only [hd, if_true]
    intro hn
    have hu : u.disposed = true := by rw [← (h1 hn).2.1]; exact hd
    rw [hf, hu]; exact h1 hn
  · simp only [hd, Bool.false_eq_true, if_false]
    have h2 := callback_s (env := env) (react := react) h1 c
    intro hn
    have hn1 : NoAsk (w.tick env) := fun t ht => hn t ((dispose_soft _).mem (callback_mem ht c))
    have hu : u.disposed = false := by rw [← (h1 hn1).2.1]; simpa using hd
    rw [hu] at hf
    simp only [Bool.false_eq_true, if_false] at hf
    have g := UserSt.dispose_facts (ucb react c u).1
    exact (h2.dispose (env := env) (u' := f) (by rw [hf]; exact g.1) (by rw [hf]; exact g.2.1)) hn

theorem user_s (ov : ε) : Sim (user env react) (userObs none ov react) World.disposed
    (fun (w : World α ε) u => R w u ∧ S w u) := by
  have hr := user_sim (env := env) (react := react) (α := α) ov
  refine ⟨?_, fun w u h => ⟨hr.chk w u h.1, h.2.tick⟩, hr.res, hr.mono, fun w u h => hr.alive w u h.1, ?_, ?_, ?_, ?_, hr.monoRan,
    hr.monoRel⟩
  · intro c w u h
    refine ⟨hr.call c w u h.1, ?_⟩
    obtain ⟨h, hs⟩ := h
    cases c with
    | error e =>
      refine terminal_s hs _ _ ?_
      show implOnError (lambdaStrategy react) (localDisp none ov) e u = _
      rw [implOnError_user]; rfl
    | completed =>
      refine terminal_s hs _ _ ?_
      simp only [Obs.call, userObs, observerImpl, localDisp, lambdaStrategy, Bool.or_false]; rfl
    | up d =>
      have e1 : evsOf ((userObs none ov react).call (.up d) u).log = evsOf u.log := by
        simp only [Obs.call, userObs, observerImpl, localDisp, lambdaStrategy, Bool.or_false]
        split
        · rw [UserSt.evs_release]
        · rfl
      have e2 : ((userObs none ov react).call (.up d) u).disposed = u.disposed := by
        simp only [Obs.call, userObs, observerImpl, localDisp, lambdaStrategy, Bool.or_false]
        split
        · rw [UserSt.release_disposed]
        · rfl
      have key : S ((user env react).setUpstream d w) u := by
        have h1 : S (w.tick env) u := hs.tick
        have h2 : S ((w.tick env).tick env) u := h1.tick
        have hand : ∀ v : World α ε, S v u → S ((v.say (.handed d)).release d) u := fun v hv =>
          hv.keep (hand_soft v d) (release_rel d _).pcs (release_rel d _).disposed
        simp only [user]
        by_cases hd : (w.tick env).disposed = true
        · rw [if_pos hd]; exact hand _ h1
        · rw [if_neg hd]
          by_cases hd2 : ((w.tick env).tick env).disposed = true
          · rw [if_pos hd2]; exact hand _ h2
          · rw [if_neg hd2]
            exact h2.keep ((Soft.say _ (.handed d) rfl rfl).trans (soft_set _ _ rfl id)) rfl rfl
      intro hn
      obtain ⟨a, b, c⟩ := key hn
      exact ⟨a, by rw [e2]; exact b, by rw [e1]; exact c⟩
    | next a =>
      have h1 := h.quiet (tick_quiet (env := env) w)
      have s1 : S (w.tick env) u := hs.tick
      by_cases hd : (w.tick env).disposed = true
      · have e1 : (user env react).call (.next a) w = w.tick env := by
          simp only [CObs.call, user]; rw [if_pos hd]
        rw [e1]
        intro hn
        obtain ⟨b1, b2, b3⟩ := s1 hn
        have hu : u.disposed = true := by rw [← b2]; exact hd
        have := run_of_disposed (cap := none) (ov := ov) (react := react) hu [.next a]
        exact ⟨b1, by rw [b2, hu]; exact this.2.1.symm, by rw [b3]; exact this.1.symm⟩
      · have hdf : (w.tick env).disposed = false := by simpa using hd
        have hu := (h1.alive hdf).1
        have h3 := (callback_e (env := env) (react := react) (h1.e hdf) (.next a) hu).2
        have h2 := callback_s (env := env) (react := react) s1 (.next a)
        rcases hx : callback env react (.next a) (w.tick env) with ⟨w2, t⟩
        rcases hy : (lambdaStrategy react).onNext a u with ⟨u2, t'⟩
        have hy' : ucb react (.next a) u = (u2, t') := hy
        have e1 : (user env react).call (.next a) w = match (w2, t) with
            | (w, none) => w
            | (w, some e) => terminal env react (.error e) w := by
          simp only [CObs.call, user]; rw [if_neg hd, hx]
          cases t <;> rfl
        have e2 : (userObs none ov react).call (.next a) u = match (u2, t') with
            | (s', none) => s'
            | (s', some e) => implOnError (lambdaStrategy react) (localDisp none ov) e s' := by
          show (if (u.disposed || false) = true then u else _) = _
          rw [hu, hy]
          cases t' <;> rfl
        rw [hx, hy'] at h2 h3
        rw [e1, e2]
        cases h3
        cases t with
        | none => exact h2
        | some e => exact terminal_s h2 _ _ (implOnError_user u2 e)
  · intro c w u h hd
    refine ⟨hr.skip c w u h.1 hd, ?_⟩
    intro hn
    obtain ⟨b1, b2, b3⟩ := h.2 hn
    have hu : u.disposed = true := by rw [← b2]; exact hd
    have := run_of_disposed (cap := none) (ov := ov) (react := react) hu [c]
    exact ⟨b1, by rw [b2, hu]; exact this.2.1.symm, by rw [b3]; exact this.1.symm⟩
  · intro w u h
    refine ⟨hr.ran w u h.1, ?_⟩
    intro hn
    obtain ⟨b1, b2, b3⟩ := (h.2.tick (env := env)) (fun t ht => hn t (List.mem_append_left _ ht))
    refine ⟨b1, b2, ?_⟩
    show shown (_ ++ [_]) = _
    rw [shown_append, b3]; exact List.append_nil _
  · intro d w u h
    exact ⟨hr.rel d w u h.1, h.2.keep (hand_soft w d) (release_rel d _).pcs (release_rel d _).disposed⟩
  · intro d w u h
    refine ⟨hr.rel' d w u h.1, ?_⟩
    intro hn
    obtain ⟨b1, b2, b3⟩ := h.2 hn
    exact ⟨b1, b2.trans (UserSt.release_disposed u d).symm, b3.trans (UserSt.evs_release u d).symm⟩

end

theorem subscription_alone {α γ ε : Type} [DecidableEq γ] [DecidableEq ε] (env : Nat → List Nat)
    (react : List (Call γ ε) → Reaction ε) (ov : ε) (p : Pipe ε α γ) (cs : List (Call α ε))
    (hn : ∀ t, Ev.asked (some t) ∉ (subscription env react p cs).log) :
    shown (subscription env react p cs).log = subscriberSees none ov react p cs := by
  have hs := user_s (env := env) (react := react) ov
  have mark : ∀ (e : Ev γ ε), e = .enter ∨ e = .leave → ∀ (w : World γ ε) (u : UserSt γ ε), R w u ∧ S w u →
      R (w.say e) u ∧ S (w.say e) u := by
    intro e he w u h
    have h1 : shown (w.say e).log = shown w.log := by
      show shown (w.log ++ [e]) = _
      rw [shown_append]
      rcases he with rfl | rfl <;> exact List.append_nil _
    refine ⟨h.1.quiet ⟨h1, id⟩, fun hn => ?_⟩
    obtain ⟨a, b, c⟩ := h.2 (fun t ht => hn t (List.mem_append_left _ ht))
    exact ⟨a, b, h1.trans c⟩
  have key : ∀ (cs : List (Call α ε)) (s : p.State (World γ ε)) (s' : p.State (UserSt γ ε)),
      PR World.disposed (fun w u => R w u ∧ S w u) p s s' →
      PR World.disposed (fun w u => R w u ∧ S w u) p (cs.foldl (notify env react p) s) ((p.lift (userObs none ov react)).run s' cs) := by
    intro cs
    induction cs with
    | nil => intro s s' h; exact h
    | cons c cs ih =>
      intro s s' h
      refine ih _ _ ?_
      refine PR.mapFinal (World.say · .leave) (mark _ (.inr rfl)) (fun _ => rfl) p _ _ ((hs.liftAll p).call c _ _ ?_)
      exact PR.mapFinal (World.say · .enter) (mark _ (.inl rfl)) (fun _ => rfl) p _ _ h
  have h0 : R ({} : World γ ε) ({} : UserSt γ ε) ∧ S ({} : World γ ε) ({} : UserSt γ ε) :=
    ⟨⟨fun _ => ⟨rfl, rfl⟩, List.prefix_refl _⟩, fun _ => ⟨fun _ => rfl, rfl, rfl⟩⟩
  exact ((PR.final p _ _ (key cs _ _ (hs.startAll _ _ h0 p))).2 hn).2.2

end Rpp.Cross
