import Verif.Core.CrossProofs

/-!
# Proofs about disposal from other threads: what is still shown, what is released (C94)
-/

set_option linter.unusedSectionVars false

namespace Rpp.Cross

variable {α ε : Type} [DecidableEq α] [DecidableEq ε] {env : Nat → List Nat} {react : List (Call α ε) → Reaction ε}

/-! ## What still runs -/

/-- Invariant of the proofs; models no code. -/
structure Inv (w : World α ε) : Prop where
  dead : w.log.any Ev.isAns = true → w.disposed = true
  late : (shown (after Ev.isAns w.log)).length ≤ 1
  stale : ∀ e ∈ after Ev.isEnter (after Ev.isAns w.log), e.calm = true

/-- Nothing has been shown since the first `dispose()` returned, if one has, and it is still the same call of the source; models
no code. -/
structure Gap (w : World α ε) : Prop extends Inv w where
  none : shown (after Ev.isAns w.log) = []
  same : (after Ev.isAns w.log).any Ev.isEnter = false

theorem Inv.gap {w : World α ε} (h : Inv w) (hd : w.disposed = false) : Gap w := by
  have : w.log.any Ev.isAns = false := by
    cases he : w.log.any Ev.isAns with
    | false => rfl
    | true => rw [h.dead he] at hd; cases hd
  have he := after_none _ _ this
  exact ⟨h, by rw [he]; rfl, by rw [he]; rfl⟩

theorem Inv.say {w : World α ε} (h : Inv w) (e : Ev α ε) (he : e.calm = true) (hd : e.isAns = true → w.disposed = true) :
    Inv (w.say e) := by
  refine ⟨?_, ?_, ?_⟩
  · show (w.log ++ [e]).any Ev.isAns = true → w.disposed = true
    simp only [List.any_append, List.any_cons, List.any_nil, Bool.or_false, Bool.or_eq_true]
    exact fun h' => h'.elim h.dead hd
  · show (shown (after Ev.isAns (w.log ++ [e]))).length ≤ 1
    rw [after_snoc]
    split
    · rw [shown_append, Ev.calm_shown he, List.append_nil]; exact h.late
    · simp [shown]
  · show ∀ x ∈ after Ev.isEnter (after Ev.isAns (w.log ++ [e])), x.calm = true
    rw [after_snoc]
    split
    · rw [after_snoc]
      split
      · intro x hx
        rcases List.mem_append.1 hx with hx | hx
        · exact h.stale x hx
        · simp only [List.mem_singleton] at hx; exact hx ▸ he
      · simp
    · simp [after]

theorem Gap.say {w : World α ε} (h : Gap w) (e : Ev α ε) (he : e.calm = true) (hd : e.isAns = true → w.disposed = true)
    (hen : e.isEnter = false) : Gap (w.say e) := by
  refine ⟨h.toInv.say e he hd, ?_, ?_⟩
  · show shown (after Ev.isAns (w.log ++ [e])) = []
    rw [after_snoc]
    split
    · rw [shown_append, Ev.calm_shown he, h.none]; rfl
    · rfl
  · show (after Ev.isAns (w.log ++ [e])).any Ev.isEnter = false
    rw [after_snoc]
    split
    · simp only [List.any_append, List.any_cons, List.any_nil, Bool.or_false, h.same, hen]
    · rfl

/-- In the gap anything may be run once. -/
theorem Gap.speak {w : World α ε} (h : Gap w) (e : Ev α ε) (hd : e.isAns = false) : Inv (w.say e) := by
  refine ⟨?_, ?_, ?_⟩
  · show (w.log ++ [e]).any Ev.isAns = true → w.disposed = true
    simp only [List.any_append, List.any_cons, List.any_nil, Bool.or_false, hd]
    exact h.dead
  · show (shown (after Ev.isAns (w.log ++ [e]))).length ≤ 1
    rw [after_snoc]
    split
    · rw [shown_append, h.none]
      cases e <;> simp [shown]
    · simp [shown]
  · show ∀ x ∈ after Ev.isEnter (after Ev.isAns (w.log ++ [e])), x.calm = true
    rw [after_snoc]
    split
    · rw [after_snoc, h.same]; simp
    · simp [after]

/-- What the other threads and the releases do to a property of log and flag; models no code. -/
structure Env (I : World α ε → Prop) : Prop where
  say : ∀ w e, e.calm = true → e.isEnter = false → (e.isAns = true → w.disposed = true) → I w → I (w.say e)
  rest : ∀ w w', w'.log = w.log → w'.disposed = w.disposed → I w → I w'
  kill : ∀ w, I w → I { w with disposed := true }

theorem inv_env : Env (Inv (α := α) (ε := ε)) where
  say _ e h1 _ h3 h := h.say e h1 h3
  rest w w' h1 h2 h := ⟨by rw [h1, h2]; exact h.dead, by rw [h1]; exact h.late, by rw [h1]; exact h.stale⟩
  kill w h := ⟨fun _ => rfl, h.late, h.stale⟩

theorem gap_env : Env (Gap (α := α) (ε := ε)) where
  say _ e h1 h2 h3 h := h.say e h1 h3 h2
  rest w w' h1 h2 h := ⟨inv_env.rest w w' h1 h2 h.toInv, by rw [h1]; exact h.none, by rw [h1]; exact h.same⟩
  kill w h := ⟨inv_env.kill w h.toInv, h.none, h.same⟩

theorem Env.release {I : World α ε → Prop} (h : Env I) (d : Nat) (w : World α ε) (hw : I w) : I (w.release d) := by
  unfold World.release
  split
  · exact hw
  · exact h.say _ _ rfl rfl (fun h => by cases h) hw

theorem Env.releaseAll {I : World α ε → Prop} (h : Env I) (w : World α ε) (hw : I w) : I w.releaseAll := by
  have : ∀ (ds : List Nat) (w : World α ε), I w → I (ds.foldl (fun w d => w.release d) w) := by
    intro ds
    induction ds with
    | nil => intro w hw; exact hw
    | cons d ds ih => intro w hw; exact ih _ (h.release d w hw)
  exact h.rest (w.ups.foldl (fun w d => w.release d) w) w.releaseAll rfl rfl (this w.ups w hw)

theorem Env.advance {I : World α ε → Prop} (h : Env I) (w : World α ε) (t : Nat) (hd : w.pcs t = .won → w.disposed = true)
    (hw : I w) : I (w.advance t) := by
  unfold World.advance
  split
  · exact h.say _ _ rfl rfl (fun h => by cases h) (h.rest w _ rfl rfl hw)
  · split
    · rename_i hd
      exact h.say _ _ rfl rfl (fun _ => hd) (h.rest w _ rfl rfl hw)
    · exact h.kill _ (h.rest w (w.goto t .won) rfl rfl hw)
  · rename_i hpc
    refine h.say _ _ rfl rfl (fun _ => ?_) (h.rest w.releaseAll _ rfl rfl (h.releaseAll w hw))
    show w.releaseAll.disposed = true
    rw [(releaseAll_rel w).disposed]; exact hd hpc
  · exact hw

/-- Who has won has disposed; models no code. -/
def Won (w : World α ε) : Prop := ∀ t, w.pcs t = .won → w.disposed = true

theorem Won.advance {w : World α ε} (h : Won w) (t : Nat) : Won (w.advance t) := by
  unfold World.advance
  split
  · intro u hu
    by_cases hut : u = t
    · simp [World.say, World.goto, hut] at hu
    · simp only [World.say, World.goto, hut, if_false] at hu; exact h u hu
  · split
    · intro u hu
      by_cases hut : u = t
      · simp [World.say, World.goto, hut] at hu
      · simp only [World.say, World.goto, hut, if_false] at hu; exact h u hu
    · intro u hu; rfl
  · intro u hu
    by_cases hut : u = t
    · simp [World.say, World.goto, hut] at hu
    · simp only [World.say, World.goto, hut, if_false] at hu
      rw [(releaseAll_rel w).pcs] at hu
      show w.releaseAll.disposed = true
      rw [(releaseAll_rel w).disposed]; exact h u hu
  · exact h

/-- `I` together with `Won` is kept by everything but the callbacks; models no code. -/
theorem Env.tick {I : World α ε → Prop} (h : Env I) (w : World α ε) (hw : I w ∧ Won w) : I (w.tick env) ∧ Won (w.tick env) := by
  refine tick_ind (I := fun w => I w ∧ Won w) env ?_ ?_ w hw
  · intro w n h'; exact ⟨h.rest w _ rfl rfl h'.1, h'.2⟩
  · intro w t h'; exact ⟨h.advance w t (h'.2 t) h'.1, h'.2.advance t⟩

theorem Won.releaseAll {w : World α ε} (h : Won w) : Won w.releaseAll := by
  intro u hu
  rw [(releaseAll_rel w).pcs] at hu
  rw [(releaseAll_rel w).disposed]; exact h u hu

theorem Won.release {w : World α ε} (h : Won w) (d : Nat) : Won (w.release d) := by
  intro u hu
  rw [(release_rel d w).pcs] at hu
  rw [(release_rel d w).disposed]; exact h u hu

theorem Won.say {w : World α ε} (h : Won w) (e : Ev α ε) : Won (w.say e) := h

theorem Env.dispose {I : World α ε → Prop} (h : Env I) (w : World α ε) (hw : I w ∧ Won w) :
    I (w.dispose env) ∧ Won (w.dispose env) ∧ (w.dispose env).disposed = true := by
  have h1 := h.tick (env := env) w hw
  unfold World.dispose
  by_cases hd : (w.tick env).disposed = true
  · rw [if_pos hd]; exact ⟨h1.1, h1.2, hd⟩
  · simp only [hd, Bool.false_eq_true, if_false]
    have h2 := h.tick (env := env) { w.tick env with disposed := true } ⟨h.kill _ h1.1, fun _ _ => rfl⟩
    refine ⟨h.releaseAll _ h2.1, h2.2.releaseAll, ?_⟩
    rw [(releaseAll_rel _).disposed]
    exact tick_ind (I := fun w : World α ε => w.disposed = true) env (fun _ _ h => h)
      (fun w t h => by unfold World.advance; split <;> first | exact h | (split <;> first | exact h | rfl) | (show w.releaseAll.disposed = true; rw [(releaseAll_rel w).disposed]; exact h)) _ rfl

/-- What the emitting thread may rely on between its accesses; models no code. -/
def Good (w : World α ε) : Prop := Inv w ∧ Won w

theorem Good.tick {w : World α ε} (h : Good w) : Good (w.tick env) := inv_env.tick w h

theorem Good.dispose {w : World α ε} (h : Good w) : Good (w.dispose env) ∧ (w.dispose env).disposed = true :=
  have h := inv_env.dispose (env := env) w h
  ⟨⟨h.1, h.2.1⟩, h.2.2⟩

theorem Good.say {w : World α ε} (h : Good w) (e : Ev α ε) (he : e.calm = true) (hd : e.isAns = true → w.disposed = true) :
    Good (w.say e) := ⟨h.1.say e he hd, h.2⟩

theorem Good.gap {w : World α ε} (h : Good w) (hd : w.disposed = false) : Gap (w.tick env) ∧ Won (w.tick env) :=
  gap_env.tick w ⟨h.1.gap hd, h.2⟩

theorem callback_good {w : World α ε} (h : Good w) (hd : w.disposed = false) (c : Call α ε) :
    Good (callback env react c w).1 := by
  obtain ⟨h1, h2⟩ := h.gap (env := env) hd
  have h3 : Good ((w.tick env).say (.start c)) := ⟨h1.speak _ rfl, h2⟩
  simp only [callback]
  generalize react (shown ((w.tick env).say (.start c)).log) = r
  cases r.dispose with
  | false =>
    simp only [Bool.false_eq_true, if_false]
    exact Good.say h3.tick _ rfl (fun h => by cases h)
  | true =>
    simp only [if_true]
    have h4 := (h3.say (.asked none) rfl (fun h => by cases h)).dispose (env := env)
    have h5 := h4.1.say (.answered none) rfl (fun _ => h4.2)
    exact Good.say h5.tick _ rfl (fun h => by cases h)

theorem terminal_good {w : World α ε} (h : Good w) (c : Call α ε) : Good (terminal env react c w) := by
  unfold terminal
  have h1 := h.tick (env := env)
  by_cases hd : (w.tick env).disposed = true
  · simp only [hd, if_true]; exact h1
  · simp only [hd, Bool.false_eq_true, if_false]
    exact (callback_good h1 (by simpa using hd) c).dispose.1

theorem user_good : Keeps (user env react) id (Good (α := α) (ε := ε)) := by
  refine ⟨?_, fun e w h => terminal_good h _, fun w h => terminal_good h _, ?_, fun w h => h.tick, ?_, ?_⟩
  · intro a w h
    have h1 : Good (w.tick env) := Good.tick h
    simp only [user, id]
    by_cases hd : (w.tick env).disposed = true
    · simp only [hd, if_true]; exact h1
    · simp only [hd, Bool.false_eq_true, if_false]
      have h2 := callback_good (env := env) (react := react) h1 (by simpa using hd) (.next a)
      split <;> rename_i heq <;> rw [heq] at h2
      · exact h2
      · exact terminal_good h2 _
  · intro d w h
    simp only [user, id]
    have h1 : Good (w.tick env) := Good.tick h
    have key : ∀ w : World α ε, Good w → Good ((w.say (.handed d)).release d) := fun w h =>
      have h := h.say (.handed d) rfl (fun h => by cases h)
      ⟨inv_env.release _ _ h.1, h.2.release d⟩
    by_cases hd : (w.tick env).disposed = true
    · simp only [hd, if_true]; exact key _ h1
    · simp only [hd, Bool.false_eq_true, if_false]
      have h2 := h1.tick (env := env)
      by_cases hd2 : ((w.tick env).tick env).disposed = true
      · simp only [hd2, if_true]; exact key _ h2
      · rw [if_neg hd2]
        have h3 := h2.say (.handed d) rfl (fun h => by cases h)
        exact ⟨inv_env.rest (((w.tick env).tick env).say (.handed d)) _ rfl rfl h3.1, h3.2⟩
  · intro w h hd
    have h1 := (h.tick (env := env)).gap (env := env) hd
    exact ⟨h1.1.speak _ rfl, h1.2⟩
  · intro d w h
    have h1 := h.say (.handed d) rfl (fun h => by cases h)
    exact ⟨inv_env.release _ _ h1.1, h1.2.release d⟩

end Rpp.Cross
