import Verif.Core.CrossRelease
import Verif.Core.CrossSim

/-!
# Proofs about disposal from other threads: the end of a sequence, disposal in the callback, what is handed over (C94)
-/

set_option linter.unusedSectionVars false

namespace Rpp.Cross

section
variable {α ε : Type} [DecidableEq α] [DecidableEq ε] {env : Nat → List Nat} {react : List (Call α ε) → Reaction ε}

/-- `dispose()` called in the callback returns; models no code. -/
def Ev.isOwn : Ev α ε → Bool
  | .answered none => true
  | _ => false

/-- Nothing of the emitting thread's own doing is logged; models no code. -/
structure Soft (w w' : World α ε) : Prop where
  log : ∃ es : List (Ev α ε), w'.log = w.log ++ es ∧ ∀ e ∈ es, e.calm = true ∧ e.isOwn = false
  dead : w.disposed = true → w'.disposed = true

theorem Soft.refl (w : World α ε) : Soft w w := ⟨⟨[], by simp⟩, id⟩

theorem Soft.trans {w w' w'' : World α ε} (h : Soft w w') (k : Soft w' w'') : Soft w w'' := by
  obtain ⟨⟨es, h1, h2⟩, h3⟩ := h
  obtain ⟨⟨fs, k1, k2⟩, k3⟩ := k
  exact ⟨⟨es ++ fs, by rw [k1, h1, List.append_assoc], fun e he => (List.mem_append.1 he).elim (h2 e) (k2 e)⟩, fun h => k3 (h3 h)⟩

theorem Soft.say (w : World α ε) (e : Ev α ε) (h : e.calm = true) (k : e.isOwn = false) : Soft w (w.say e) :=
  ⟨⟨[e], rfl, fun x hx => by rw [List.mem_singleton.1 hx]; exact ⟨h, k⟩⟩, id⟩

theorem Rel.soft {w w' : World α ε} (h : Rel w w') : Soft w w' := by
  obtain ⟨ds, hl⟩ := h.log
  refine ⟨⟨_, hl, fun e he => ?_⟩, fun hd => by rw [h.disposed]; exact hd⟩
  obtain ⟨d, _, rfl⟩ := List.mem_map.1 he
  exact ⟨rfl, rfl⟩

theorem soft_set (w w' : World α ε) (h : w'.log = w.log) (k : w.disposed = true → w'.disposed = true) : Soft w w' :=
  ⟨⟨[], by simp [h]⟩, k⟩

theorem tick_soft (w : World α ε) : Soft w (w.tick env) := by
  refine tick_ind (I := fun w' => Soft w w') env (fun w' n h => h.trans (soft_set _ _ rfl id)) ?_ w (Soft.refl w)
  intro w' t h
  refine h.trans ?_
  have g : ∀ (v : World α ε) pc, Soft v (v.goto t pc) := fun v pc => soft_set _ _ rfl id
  unfold World.advance
  split
  · exact (g w' .asked).trans (Soft.say _ (.asked (some t)) rfl rfl)
  · split
    · exact (g w' .over).trans (Soft.say _ (.answered (some t)) rfl rfl)
    · exact soft_set _ _ rfl (fun _ => rfl)
  · exact ((releaseAll_rel w').soft.trans (g _ .over)).trans (Soft.say _ (.answered (some t)) rfl rfl)
  · exact Soft.refl _

theorem dispose_soft (w : World α ε) : Soft w (w.dispose env) := by
  have h1 := tick_soft (env := env) w
  unfold World.dispose
  by_cases hd : (w.tick env).disposed = true
  · rw [if_pos hd]; exact h1
  · rw [if_neg hd]
    exact (h1.trans (soft_set _ { w.tick env with disposed := true } rfl (fun _ => rfl))).trans
      ((tick_soft _).trans (releaseAll_rel _).soft)

theorem Soft.shown {w w' : World α ε} (h : Soft w w') : shown w'.log = shown w.log := by
  obtain ⟨⟨es, h1, h2⟩, _⟩ := h
  rw [h1, shown_append]
  have : Cross.shown es = [] := by
    clear h1
    induction es with
    | nil => rfl
    | cons e es ih =>
      rw [show e :: es = [e] ++ es from rfl, shown_append, Ev.calm_shown (h2 e List.mem_cons_self).1,
        ih (fun x hx => h2 x (List.mem_cons_of_mem _ hx))]
      rfl
  rw [this, List.append_nil]

/-- Invariant of the proofs; models no code. -/
structure Own (w : World α ε) : Prop where
  fin : ∀ c ∈ shown w.log, (c = .completed ∨ ∃ e, c = .error e) → w.disposed = true
  dead : w.log.any Ev.isOwn = true → w.disposed = true
  none : shown (after Ev.isOwn w.log) = []

theorem after_soft (es : List (Ev α ε)) (h : ∀ e ∈ es, e.calm = true ∧ e.isOwn = false) (l : List (Ev α ε)) :
    shown (after Ev.isOwn (l ++ es)) = shown (after Ev.isOwn l) ∧ (l ++ es).any Ev.isOwn = l.any Ev.isOwn := by
  induction es generalizing l with
  | nil => simp
  | cons e es ih =>
    obtain ⟨h1, h2⟩ := ih (fun x hx => h x (List.mem_cons_of_mem _ hx)) (l ++ [e])
    obtain ⟨h3, h4⟩ := h e List.mem_cons_self
    rw [List.append_assoc] at h1 h2
    refine ⟨h1.trans ?_, h2.trans (by simp [h4])⟩
    rw [after_snoc]
    split
    · rw [shown_append, Ev.calm_shown h3, List.append_nil]
    · rename_i hn
      rw [after_none _ _ (by simpa using hn)]

theorem Own.soft {w w' : World α ε} (h : Own w) (k : Soft w w') : Own w' := by
  have hs := k.shown
  obtain ⟨⟨es, k1, k2⟩, k3⟩ := k
  obtain ⟨a1, a2⟩ := after_soft es k2 w.log
  refine ⟨fun c hc ht => k3 (h.fin c (by rw [hs] at hc; exact hc) ht), fun hd => k3 (h.dead ?_), ?_⟩
  · rw [k1, a2] at hd; exact hd
  · rw [k1, a1]; exact h.none

theorem Own.ans {w : World α ε} (h : Own w) (hd : w.disposed = true) : Own (w.say (.answered Option.none)) := by
  refine ⟨fun _ _ _ => hd, fun _ => hd, ?_⟩
  show shown (after Ev.isOwn (w.log ++ [_])) = []
  rw [after_snoc]
  split
  · rw [shown_append, h.none]; rfl
  · rfl

/-- As `Own`, before the subscription is disposed of; models no code. -/
structure Pre (w : World α ε) : Prop where
  fin : ∀ c ∈ shown w.log, ¬ (c = .completed ∨ ∃ e, c = .error e)
  own : w.log.any Ev.isOwn = false

theorem Own.pre {w : World α ε} (h : Own w) (hd : w.disposed = false) : Pre w := by
  refine ⟨fun c hc ht => (by rw [h.fin c hc ht] at hd; cases hd), ?_⟩
  cases hx : w.log.any Ev.isOwn with
  | false => rfl
  | true => rw [h.dead hx] at hd; cases hd

theorem Pre.soft {w w' : World α ε} (h : Pre w) (k : Soft w w') : Pre w' := by
  have hs := k.shown
  obtain ⟨⟨es, k1, k2⟩, k3⟩ := k
  exact ⟨by rw [hs]; exact h.fin, by rw [k1, (after_soft es k2 w.log).2]; exact h.own⟩

/-- The callback of a value keeps `Own`; that of the end leaves only the flag to be set. -/
theorem callback_own {w : World α ε} (h : Own w) (hd : w.disposed = false) (c : Call α ε) :
    let w' := (callback env react c w).1
    (w'.log.any Ev.isOwn = true → w'.disposed = true) ∧ shown (after Ev.isOwn w'.log) = [] ∧
      (¬ (c = .completed ∨ ∃ e, c = .error e) → Own w') := by
  have h1 := (h.pre hd).soft (tick_soft (env := env) w)
  have e1 : shown ((w.tick env).say (.start c)).log = shown (w.tick env).log ++ [c] := by
    show shown ((w.tick env).log ++ [_]) = _
    rw [shown_append]; rfl
  have e2 : ((w.tick env).say (.start c)).log.any Ev.isOwn = false := by
    show ((w.tick env).log ++ [_]).any _ = _
    simp [h1.own, Ev.isOwn]
  have e3 : shown (after Ev.isOwn ((w.tick env).say (.start c)).log) = [] := by rw [after_none _ _ e2]; rfl
  simp only [callback]
  generalize react (shown ((w.tick env).say (.start c)).log) = r
  cases r.dispose with
  | false =>
    simp only [Bool.false_eq_true, if_false]
    have k : Soft ((w.tick env).say (.start c)) ((((w.tick env).say (.start c)).tick env).say (.finish c)) :=
      (tick_soft _).trans (Soft.say _ _ rfl rfl)
    obtain ⟨⟨es, k1, k2⟩, k3⟩ := id k
    obtain ⟨a1, a2⟩ := after_soft es k2 ((w.tick env).say (.start c)).log
    refine ⟨?_, ?_, ?_⟩
    · rw [k1, a2, e2]; exact fun h => by cases h
    · rw [k1, a1, e3]
    · intro hc
      refine Own.soft (w := (w.tick env).say (.start c)) ⟨?_, ?_, e3⟩ k
      · intro x hx ht
        rw [e1] at hx
        rcases List.mem_append.1 hx with hx | hx
        · exact absurd ht (h1.fin x hx)
        · rw [List.mem_singleton.1 hx] at ht; exact absurd ht hc
      · rw [e2]; exact fun h => by cases h
  | true =>
    simp only [if_true]
    have q := (dispose_quiet (env := env) (((w.tick env).say (.start c)).say (.asked none))).2
    have h2 : Own ((((w.tick env).say (.start c)).say (.asked none)).dispose env) := by
      have k := (Soft.say ((w.tick env).say (.start c)) (.asked none) rfl rfl).trans (dispose_soft (env := env) _)
      obtain ⟨⟨es, k1, k2⟩, k3⟩ := k
      obtain ⟨a1, a2⟩ := after_soft es k2 ((w.tick env).say (.start c)).log
      exact ⟨fun _ _ _ => q, fun _ => q, by rw [k1, a1, e3]⟩
    have h3 := h2.ans q
    have h4 := h3.soft ((tick_soft (env := env) _).trans (Soft.say _ (.finish c) rfl rfl))
    exact ⟨h4.dead, h4.none, fun _ => h4⟩

theorem terminal_own {w : World α ε} (h : Own w) (c : Call α ε) : Own (terminal env react c w) := by
  unfold terminal
  have h1 := h.soft (tick_soft (env := env) w)
  by_cases hd : (w.tick env).disposed = true
  · simp only [hd, if_true]; exact h1
  · simp only [hd, Bool.false_eq_true, if_false]
    obtain ⟨a1, a2, _⟩ := callback_own (env := env) (react := react) h1 (by simpa using hd) c
    have q := (dispose_quiet (env := env) (callback env react c (w.tick env)).1).2
    have k := dispose_soft (env := env) (callback env react c (w.tick env)).1
    obtain ⟨⟨es, k1, k2⟩, k3⟩ := k
    obtain ⟨b1, b2⟩ := after_soft es k2 (callback env react c (w.tick env)).1.log
    exact ⟨fun _ _ _ => q, fun _ => q, by rw [k1, b1, a2]⟩

theorem hand_soft (w : World α ε) (d : Nat) : Soft w ((w.say (.handed d)).release d) :=
  (Soft.say w (.handed d) rfl rfl).trans (release_rel d _).soft

theorem up_soft (w : World α ε) (d : Nat) : Soft w ((user env react).setUpstream d w) := by
  simp only [user]
  by_cases hd : (w.tick env).disposed = true
  · rw [if_pos hd]; exact (tick_soft w).trans (hand_soft _ d)
  · rw [if_neg hd]
    by_cases hd2 : ((w.tick env).tick env).disposed = true
    · rw [if_pos hd2]; exact (tick_soft w).trans ((tick_soft _).trans (hand_soft _ d))
    · rw [if_neg hd2]
      exact ((tick_soft w).trans ((tick_soft _).trans (Soft.say _ (.handed d) rfl rfl))).trans (soft_set _ _ rfl id)

theorem user_own : Keeps (user env react) id (Own (α := α) (ε := ε)) := by
  refine ⟨?_, fun e w h => terminal_own h _, fun w h => terminal_own h _, fun d w h => Own.soft h (up_soft w d),
    fun w h => Own.soft h (tick_soft w), ?_, fun d w h => Own.soft h (hand_soft w d)⟩
  · intro a w h
    have h1 : Own (w.tick env) := Own.soft h (tick_soft w)
    simp only [user, id]
    by_cases hd : (w.tick env).disposed = true
    · simp only [hd, if_true]; exact h1
    · simp only [hd, Bool.false_eq_true, if_false]
      have h2 := (callback_own (env := env) (react := react) h1 (by simpa using hd) (.next a)).2.2 (by simp)
      split <;> rename_i heq <;> rw [heq] at h2
      · exact h2
      · exact terminal_own h2 _
  · intro w h hd
    have h1 : Own (w.tick env) := Own.soft h (tick_soft w)
    have h2 := (h1.pre hd).soft (tick_soft (env := env) _)
    have e1 : shown ((((w.tick env).tick env).say .ran)).log = shown ((w.tick env).tick env).log := by
      show shown (_ ++ [_]) = _
      rw [shown_append]; exact List.append_nil _
    have e2 : ((((w.tick env).tick env).say .ran)).log.any Ev.isOwn = false := by
      show (((w.tick env).tick env).log ++ [_]).any _ = _
      simp [h2.own, Ev.isOwn]
    show Own (((w.tick env).tick env).say .ran)
    refine ⟨fun c hc ht => ?_, fun h => ?_, ?_⟩
    · rw [e1] at hc; exact absurd ht (h2.fin c hc)
    · rw [e2] at h; cases h
    · rw [after_none _ _ e2]; rfl

/-! ## What is handed over -/

theorem Soft.mem {w w' : World α ε} (h : Soft w w') {e : Ev α ε} (he : e ∈ w.log) : e ∈ w'.log := by
  obtain ⟨⟨es, h1, _⟩, _⟩ := h
  rw [h1]; exact List.mem_append_left _ he

theorem callback_mem {w : World α ε} {e : Ev α ε} (h : e ∈ w.log) (c : Call α ε) : e ∈ (callback env react c w).1.log := by
  have h3 : e ∈ ((w.tick env).say (.start c)).log := List.mem_append_left _ ((tick_soft w).mem h)
  simp only [callback]
  generalize react (shown ((w.tick env).say (.start c)).log) = r
  refine List.mem_append_left _ ((tick_soft _).mem ?_)
  split
  · exact List.mem_append_left _ ((dispose_soft _).mem (List.mem_append_left _ h3))
  · exact h3

theorem terminal_mem {w : World α ε} {e : Ev α ε} (h : e ∈ w.log) (c : Call α ε) : e ∈ (terminal env react c w).log := by
  unfold terminal
  have h1 := (tick_soft (env := env) w).mem h
  by_cases hd : (w.tick env).disposed = true
  · simp only [hd, if_true]; exact h1
  · simp only [hd, Bool.false_eq_true, if_false]
    exact (dispose_soft _).mem (callback_mem h1 c)

theorem user_mem (e : Ev α ε) : Keeps (user env react) id (fun w : World α ε => e ∈ w.log) := by
  refine ⟨?_, fun _ w h => terminal_mem h _, fun w h => terminal_mem h _, fun d w h => (up_soft w d).mem h,
    fun w h => (tick_soft w).mem h, ?_, fun d w h => (hand_soft w d).mem h⟩
  · intro a w h
    have h1 : e ∈ (w.tick env).log := (tick_soft w).mem h
    simp only [user, id]
    by_cases hd : (w.tick env).disposed = true
    · simp only [hd, if_true]; exact h1
    · simp only [hd, Bool.false_eq_true, if_false]
      have h2 := callback_mem (env := env) (react := react) h1 (.next a)
      split <;> rename_i heq <;> rw [heq] at h2
      · exact h2
      · exact terminal_mem h2 _
  · intro w h _
    exact List.mem_append_left _ ((tick_soft _).mem ((tick_soft w).mem h))

end

/-- A disposable given to the observer gets to the subscriber's; models no code. -/
structure Hands {α β ε σ : Type} (C : CObs α ε σ) (wo : σ → World β ε) : Prop where
  up : ∀ d s, Ev.handed d ∈ (wo (C.setUpstream d s)).log
  rel : ∀ d s, Ev.handed d ∈ (wo (C.release d s)).log

theorem user_hands {α ε : Type} [DecidableEq α] [DecidableEq ε] {env : Nat → List Nat} {react : List (Call α ε) → Reaction ε} :
    Hands (user env react) id := by
  have hr : ∀ d (w : World α ε), Ev.handed d ∈ ((w.say (.handed d)).release d).log := fun d w =>
    (release_rel d _).soft.mem (List.mem_append_right _ List.mem_cons_self)
  refine ⟨?_, hr⟩
  intro d w
  simp only [user, id]
  split
  · exact hr d _
  · split
    · exact hr d _
    · exact List.mem_append_right _ List.mem_cons_self

theorem Hands.lift {α β γ ε σ τ : Type} {down : CObs β ε τ} {wo : τ → World γ ε} (h : Hands down wo) (P : OpStrategy α β ε σ) :
    Hands (lift P down) (fun s => wo s.2) := by
  refine ⟨?_, fun d s => h.rel d s.2⟩
  intro d s
  have e1 : (Cross.lift P down).setUpstream d s = if (down.isDisposed s.2).1 then (s.1, down.release d (down.isDisposed s.2).2)
      else (s.1, down.setUpstream d (down.isDisposed s.2).2) := rfl
  rw [e1]
  split
  · exact h.rel d _
  · exact h.up d _

theorem Hands.liftAll {γ ε τ : Type} {C : CObs γ ε τ} {wo : τ → World γ ε} (h : Hands C wo) :
    {α : Type} → (p : Pipe ε α γ) → Hands (liftAll p C) (fun s => wo (p.final s))
  | _, .nil => h
  | _, .cons o p => (Hands.liftAll h p).lift o.strategy

theorem Hands.run {α β ε σ : Type} {C : CObs α ε σ} {wo : σ → World β ε} (h : Hands C wo)
    (hk : ∀ e, Keeps C wo (fun w => e ∈ w.log)) (cs : List (Call α ε)) :
    ∀ s d, .up d ∈ cs → Ev.handed d ∈ (wo (C.run s cs)).log := by
  induction cs with
  | nil => intro s d hd; cases hd
  | cons c cs ih =>
    intro s d hd
    rcases List.mem_cons.1 hd with rfl | hd
    · exact (hk _).run cs _ (h.up d s)
    · exact ih _ d hd

theorem finals_initOut {ε α β : Type} (o : Op ε α β) (d : Nat) (h : d ∈ o.finals) : Call.up d ∈ o.strategy.initOut := by
  cases o <;> simp only [Op.finals, List.mem_singleton, List.not_mem_nil] at h
  subst h; exact List.mem_cons_self

theorem Hands.startAll {γ ε : Type} {C : CObs γ ε (World γ ε)} (h : Hands C id)
    (hk : ∀ e, Keeps C id (fun w => e ∈ w.log)) (t : World γ ε) :
    {α : Type} → (p : Pipe ε α γ) → ∀ d ∈ p.finals, Ev.handed d ∈ (p.final (startAll p C t)).log
  | _, .nil => fun d hd => by cases hd
  | _, .cons o p => fun d hd => by
    rcases List.mem_append.1 hd with hd | hd
    · exact ((hk _).liftAll p).run o.strategy.initOut _ (Hands.startAll h hk t p d hd)
    · exact (h.liftAll p).run (fun e => (hk e).liftAll p) _ _ d (finals_initOut o d hd)

theorem subscription_handed {α γ ε : Type} [DecidableEq γ] [DecidableEq ε] (env : Nat → List Nat)
    (react : List (Call γ ε) → Reaction ε) (p : Pipe ε α γ) (cs : List (Call α ε)) (d : Nat) (hd : d ∈ p.finals ∨ .up d ∈ cs) :
    Ev.handed d ∈ (subscription env react p cs).log := by
  have hk : ∀ e, Keeps (user env react) id (fun w : World γ ε => e ∈ w.log) := fun e => user_mem e
  have hh : Hands (user (α := γ) (ε := ε) env react) id := user_hands
  have one : ∀ (s : p.State (World γ ε)) c e, e ∈ (p.final s).log → e ∈ (p.final (notify env react p s c)).log := by
    intro s c e he
    unfold notify
    rw [final_mapFinal]
    refine List.mem_append_left _ (((hk e).liftAll p).call c _ ?_)
    rw [final_mapFinal]
    exact List.mem_append_left _ he
  have all : ∀ (cs : List (Call α ε)) (s : p.State (World γ ε)) e, e ∈ (p.final s).log →
      e ∈ (p.final (cs.foldl (notify env react p) s)).log := by
    intro cs
    induction cs with
    | nil => intro s e he; exact he
    | cons c cs ih => intro s e he; exact ih _ _ (one s c e he)
  have ups : ∀ (cs : List (Call α ε)) (s : p.State (World γ ε)), .up d ∈ cs →
      Ev.handed d ∈ (p.final (cs.foldl (notify env react p) s)).log := by
    intro cs
    induction cs with
    | nil => intro s hd; cases hd
    | cons c cs ih =>
      intro s hd
      rcases List.mem_cons.1 hd with rfl | hd
      · refine all cs _ _ ?_
        unfold notify
        rw [final_mapFinal]
        exact List.mem_append_left _ ((hh.liftAll p).up d _)
      · exact ih _ hd
  rcases hd with hd | hd
  · exact all cs _ _ (hh.startAll hk {} p d hd)
  · exact ups cs _ hd

end Rpp.Cross
