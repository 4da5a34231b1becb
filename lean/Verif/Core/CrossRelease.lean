import Verif.Core.CrossInv

/-!
# Proofs about disposal from other threads: release (C94)
-/

set_option linter.unusedSectionVars false

namespace Rpp.Cross

variable {α ε : Type} [DecidableEq α] [DecidableEq ε] {env : Nat → List Nat} {react : List (Call α ε) → Reaction ε}

/-- Invariant of the proofs; `m`: the emitting thread is disposing. Models no code. -/
structure RInv (m : Bool) (w : World α ε) : Prop where
  kept : ∀ d, Ev.handed d ∈ w.log → d ∈ w.ups ∨ Ev.released d ∈ w.log
  once : ∀ d, w.log.count (.released d) ≤ 1
  live : w.disposed = true → w.ups = [] ∨ m = true ∨ ∃ t, w.pcs t = .won
  won : ∀ t, w.pcs t = .won → w.disposed = true ∧ Ev.asked (some t) ∈ w.log
  not : ∀ t, w.pcs t ≠ .over → Ev.answered (some t) ∉ w.log

theorem RInv.say {m : Bool} {w : World α ε} (h : RInv m w) (e : Ev α ε) (h1 : ∀ d, e ≠ .handed d) (h2 : ∀ d, e ≠ .released d)
    (h3 : ∀ t, e ≠ .answered (some t)) : RInv m (w.say e) := by
  refine ⟨?_, ?_, h.live, ?_, ?_⟩
  · intro d hd
    rcases List.mem_append.1 hd with hd | hd
    · exact (h.kept d hd).imp id (fun hr => List.mem_append_left _ hr)
    · exact absurd (List.mem_singleton.1 hd).symm (h1 d)
  · intro d
    show (w.log ++ [e]).count _ ≤ 1
    rw [List.count_append, List.count_eq_zero (l := [e]) |>.2 (by simpa using fun h => h2 d h.symm)]
    exact h.once d
  · intro t ht; exact ⟨(h.won t ht).1, List.mem_append_left _ (h.won t ht).2⟩
  · intro t ht hm
    rcases List.mem_append.1 hm with hm | hm
    · exact h.not t ht hm
    · exact h3 t (List.mem_singleton.1 hm).symm

theorem release_mem (d : Nat) (w : World α ε) : Ev.released d ∈ (w.release d).log := by
  unfold World.release
  split
  · assumption
  · simp [World.say]

theorem RInv.release {m : Bool} {w : World α ε} (h : RInv m w) (d : Nat) : RInv m (w.release d) := by
  unfold World.release
  split
  · exact h
  · rename_i hn
    refine ⟨?_, ?_, h.live, ?_, ?_⟩
    · intro d' hd
      rcases List.mem_append.1 hd with hd | hd
      · exact (h.kept d' hd).imp id (fun hr => List.mem_append_left _ hr)
      · cases List.mem_singleton.1 hd
    · intro d'
      show (w.log ++ [_]).count _ ≤ 1
      rw [List.count_append]
      by_cases hdd : d' = d
      · subst hdd
        rw [List.count_eq_zero.2 hn]; simp
      · rw [List.count_eq_zero (l := [Ev.released d]) |>.2 (by simpa using hdd)]
        exact h.once d'
    · intro t ht; exact ⟨(h.won t ht).1, List.mem_append_left _ (h.won t ht).2⟩
    · intro t ht hm
      rcases List.mem_append.1 hm with hm | hm
      · exact h.not t ht hm
      · cases List.mem_singleton.1 hm

theorem RInv.fold {m : Bool} (ds : List Nat) : ∀ {w : World α ε}, RInv m w → RInv m (ds.foldl (fun w d => w.release d) w) := by
  induction ds with
  | nil => intro w h; exact h
  | cons d ds ih => intro w h; exact ih (h.release d)

theorem fold_mono (ds : List Nat) (w : World α ε) (e : Ev α ε) (h : e ∈ w.log) :
    e ∈ (ds.foldl (fun w d => w.release d) w).log := by
  obtain ⟨es, he⟩ := (fold_rel ds w).log
  rw [he]; exact List.mem_append_left _ h

theorem fold_mem (ds : List Nat) : ∀ (w : World α ε), ∀ d ∈ ds, Ev.released d ∈ (ds.foldl (fun w d => w.release d) w).log := by
  induction ds with
  | nil => intro w d hd; cases hd
  | cons x ds ih =>
    intro w d hd
    rcases List.mem_cons.1 hd with rfl | hd
    · exact fold_mono ds _ _ (release_mem d w)
    · exact ih _ d hd

theorem fold_ups (ds : List Nat) : ∀ (w : World α ε), (ds.foldl (fun w d => w.release d) w).ups = w.ups := by
  induction ds with
  | nil => intro w; rfl
  | cons x ds ih =>
    intro w
    rw [List.foldl_cons, ih]
    unfold World.release
    split <;> rfl

theorem RInv.releaseAll {m : Bool} {w : World α ε} (h : RInv m w) : RInv false w.releaseAll := by
  have h1 := h.fold w.ups
  refine ⟨?_, h1.once, fun _ => .inl rfl, h1.won, h1.not⟩
  intro d hd
  right
  rcases h1.kept d hd with hu | hr
  · rw [fold_ups] at hu; exact fold_mem w.ups w d hu
  · exact hr

theorem RInv.goto {m : Bool} {w : World α ε} (h : RInv m w) (t : Nat) (pc : Pc) (h1 : w.pcs t ≠ .won ∨ w.ups = [])
    (h2 : pc ≠ .won) (h3 : w.pcs t ≠ .over) : RInv m (w.goto t pc) := by
  refine ⟨h.kept, h.once, ?_, ?_, ?_⟩
  · intro hd
    rcases h.live hd with hl | hl | ⟨u, hu⟩
    · exact .inl hl
    · exact .inr (.inl hl)
    · rcases h1 with h1 | h1
      · refine .inr (.inr ⟨u, ?_⟩)
        have : u ≠ t := fun e => h1 (e ▸ hu)
        simp [World.goto, this, hu]
      · exact .inl h1
  · intro u hu
    by_cases hut : u = t
    · simp [World.goto, hut] at hu; exact absurd hu h2
    · simp only [World.goto, hut, if_false] at hu; exact h.won u hu
  · intro u hu
    by_cases hut : u = t
    · subst hut; exact h.not u h3
    · simp only [World.goto, hut, if_false] at hu; exact h.not u hu

theorem RInv.answer {m : Bool} {w : World α ε} (h : RInv m w) (t : Nat) (ht : w.pcs t = .over) :
    RInv m (w.say (.answered (some t))) := by
  refine ⟨?_, ?_, h.live, ?_, ?_⟩
  · intro d hd
    rcases List.mem_append.1 hd with hd | hd
    · exact (h.kept d hd).imp id (fun hr => List.mem_append_left _ hr)
    · cases List.mem_singleton.1 hd
  · intro d
    show (w.log ++ [_]).count _ ≤ 1
    rw [List.count_append, List.count_eq_zero (l := [_]) |>.2 (by simp)]
    exact h.once d
  · intro u hu; exact ⟨(h.won u hu).1, List.mem_append_left _ (h.won u hu).2⟩
  · intro u hu hm
    rcases List.mem_append.1 hm with hm | hm
    · exact h.not u hu hm
    · simp only [List.mem_singleton, Ev.answered.injEq, Option.some.injEq] at hm
      subst hm; exact hu ht

/-- The thread has said that it calls `dispose()`; models no code. -/
def Asked (w : World α ε) : Prop := ∀ t, w.pcs t = .asked → Ev.asked (some t) ∈ w.log

theorem RInv.advance {m : Bool} {w : World α ε} (h : RInv m w ∧ Asked w) (t : Nat) : RInv m (w.advance t) ∧ Asked (w.advance t) := by
  obtain ⟨h, ha⟩ := h
  unfold World.advance
  split
  · rename_i hpc
    refine ⟨(h.goto t .asked (.inl (by rw [hpc]; exact fun h => by cases h)) (fun h => by cases h) (by rw [hpc]; exact fun h => by cases h)).say _
      (fun _ h => by cases h) (fun _ h => by cases h) (fun _ h => by cases h), ?_⟩
    intro u hu
    by_cases hut : u = t
    · subst hut; simp [World.say, World.goto]
    · simp only [World.say, World.goto, hut, if_false] at hu
      exact List.mem_append_left _ (ha u hu)
  · rename_i hpc
    split
    · refine ⟨(h.goto t .over (.inl (by rw [hpc]; exact fun h => by cases h)) (fun h => by cases h) (by rw [hpc]; exact fun h => by cases h)).answer t
        (by simp [World.goto]), ?_⟩
      intro u hu
      by_cases hut : u = t
      · simp [World.say, World.goto, hut] at hu
      · simp only [World.say, World.goto, hut, if_false] at hu
        exact List.mem_append_left _ (ha u hu)
    · refine ⟨⟨h.kept, h.once, fun _ => .inr (.inr ⟨t, by simp [World.goto]⟩), ?_, ?_⟩, ?_⟩
      · intro u hu
        by_cases hut : u = t
        · exact ⟨rfl, hut ▸ ha t hpc⟩
        · simp only [World.goto, hut, if_false] at hu
          exact ⟨rfl, (h.won u hu).2⟩
      · intro u hu
        by_cases hut : u = t
        · subst hut; exact h.not u (by rw [hpc]; exact fun h => by cases h)
        · simp only [World.goto, hut, if_false] at hu; exact h.not u hu
      · intro u hu
        by_cases hut : u = t
        · simp [World.goto, hut] at hu
        · simp only [World.goto, hut, if_false] at hu; exact ha u hu
  · rename_i hpc
    have h1 := h.releaseAll
    have hp := (releaseAll_rel w).pcs
    have h2 := h1.goto t .over (.inr rfl) (fun h => by cases h) (by rw [hp, hpc]; exact fun h => by cases h)
    have h3 := h2.answer t (by simp [World.goto])
    refine ⟨⟨h3.kept, h3.once, fun _ => .inl rfl, h3.won, h3.not⟩, ?_⟩
    intro u hu
    by_cases hut : u = t
    · simp [World.say, World.goto, hut] at hu
    · simp only [World.say, World.goto, hut, if_false] at hu
      rw [hp] at hu
      exact List.mem_append_left _ (fold_mono _ _ _ (ha u hu))
  · exact ⟨h, ha⟩

/-- The invariant; models no code. -/
def RGood (m : Bool) (w : World α ε) : Prop := RInv m w ∧ Asked w

theorem RGood.tick {m : Bool} {w : World α ε} (h : RGood m w) : RGood m (w.tick env) :=
  tick_ind (I := RGood m) env (fun _ _ h => ⟨⟨h.1.kept, h.1.once, h.1.live, h.1.won, h.1.not⟩, h.2⟩) (fun _ t h => RInv.advance h t) w h

theorem RGood.say {m : Bool} {w : World α ε} (h : RGood m w) (e : Ev α ε) (h1 : ∀ d, e ≠ .handed d) (h2 : ∀ d, e ≠ .released d)
    (h3 : ∀ t, e ≠ .answered (some t)) : RGood m (w.say e) :=
  ⟨h.1.say e h1 h2 h3, fun t ht => List.mem_append_left _ (h.2 t ht)⟩

theorem RGood.dispose {w : World α ε} (h : RGood false w) : RGood false (w.dispose env) := by
  have h1 := h.tick (env := env)
  unfold World.dispose
  by_cases hd : (w.tick env).disposed = true
  · simp only [hd, if_true]; exact h1
  · simp only [hd, Bool.false_eq_true, if_false]
    have h2 : RGood true { w.tick env with disposed := true } :=
      ⟨⟨h1.1.kept, h1.1.once, fun _ => .inr (.inl rfl), fun t ht => ⟨rfl, (h1.1.won t ht).2⟩, h1.1.not⟩, h1.2⟩
    have h3 := h2.tick (env := env)
    refine ⟨h3.1.releaseAll, ?_⟩
    intro t ht
    rw [(releaseAll_rel _).pcs] at ht
    exact fold_mono _ _ _ (h3.2 t ht)

theorem RGood.hand {w : World α ε} (h : RGood false w) (d : Nat) : RGood false ((w.say (.handed d)).release d) := by
  have hm := release_mem d (w.say (.handed d))
  obtain ⟨es, hes⟩ := (release_rel d (w.say (.handed d))).log
  have hr := (release_rel d (w.say (.handed d)))
  have hups : ((w.say (.handed d)).release d).ups = w.ups := by unfold World.release; split <;> rfl
  have hmono : ∀ e ∈ w.log, e ∈ ((w.say (.handed d)).release d).log := by
    intro e he; rw [hes]; exact List.mem_append_left _ (List.mem_append_left _ he)
  have hback : ∀ e, e ∈ ((w.say (.handed d)).release d).log → (∀ x, e ≠ .released x) → e ∈ w.log ∨ e = .handed d := by
    intro e he hx
    rw [hes] at he
    rcases List.mem_append.1 he with he | he
    · rcases List.mem_append.1 he with he | he
      · exact .inl he
      · exact .inr (List.mem_singleton.1 he)
    · obtain ⟨x, _, rfl⟩ := List.mem_map.1 he; exact absurd rfl (hx x)
  refine ⟨⟨?_, ?_, ?_, ?_, ?_⟩, ?_⟩
  · intro d' hd
    rcases hback _ hd (fun _ h => by cases h) with hd | hd
    · rw [hups]; exact (h.1.kept d' hd).imp id (hmono _)
    · cases hd; exact .inr hm
  · intro d'
    unfold World.release
    split
    · show (w.log ++ [_]).count _ ≤ 1
      rw [List.count_append, List.count_eq_zero (l := [_]) |>.2 (by simp)]
      exact h.1.once d'
    · rename_i hn
      show ((w.log ++ [_]) ++ [_]).count _ ≤ 1
      rw [List.count_append, List.count_append, List.count_eq_zero (l := [Ev.handed d]) |>.2 (by simp)]
      by_cases hdd : d' = d
      · subst hdd
        have : Ev.released d' ∉ w.log := fun h' => hn (List.mem_append_left _ h')
        rw [List.count_eq_zero.2 this]; simp
      · rw [List.count_eq_zero (l := [Ev.released d]) |>.2 (by simpa using hdd)]
        exact h.1.once d'
  · rw [hups, hr.disposed, hr.pcs]; exact h.1.live
  · intro t ht
    rw [hr.pcs] at ht; rw [hr.disposed]
    exact ⟨(h.1.won t ht).1, hmono _ (h.1.won t ht).2⟩
  · intro t ht hmem
    rw [hr.pcs] at ht
    rcases hback _ hmem (fun _ h => by cases h) with hd | hd
    · exact h.1.not t ht hd
    · cases hd
  · intro t ht
    rw [hr.pcs] at ht
    exact hmono _ (h.2 t ht)

theorem callback_rgood {w : World α ε} (h : RGood false w) (c : Call α ε) : RGood false (callback env react c w).1 := by
  have h3 : RGood false ((w.tick env).say (.start c)) :=
    h.tick.say _ (fun _ h => by cases h) (fun _ h => by cases h) (fun _ h => by cases h)
  simp only [callback]
  generalize react (shown ((w.tick env).say (.start c)).log) = r
  cases r.dispose with
  | false =>
    simp only [Bool.false_eq_true, if_false]
    exact RGood.say h3.tick _ (fun _ h => by cases h) (fun _ h => by cases h) (fun _ h => by cases h)
  | true =>
    simp only [if_true]
    have h4 := (h3.say (.asked none) (fun _ h => by cases h) (fun _ h => by cases h) (fun _ h => by cases h)).dispose (env := env)
    have h5 := h4.say (.answered none) (fun _ h => by cases h) (fun _ h => by cases h) (fun _ h => by cases h)
    exact RGood.say h5.tick _ (fun _ h => by cases h) (fun _ h => by cases h) (fun _ h => by cases h)

theorem terminal_rgood {w : World α ε} (h : RGood false w) (c : Call α ε) : RGood false (terminal env react c w) := by
  unfold terminal
  have h1 := h.tick (env := env)
  by_cases hd : (w.tick env).disposed = true
  · simp only [hd, if_true]; exact h1
  · simp only [hd, Bool.false_eq_true, if_false]
    exact (callback_rgood h1 c).dispose

theorem user_rgood : Keeps (user env react) id (RGood (α := α) (ε := ε) false) := by
  refine ⟨?_, fun e w h => terminal_rgood h _, fun w h => terminal_rgood h _, ?_, fun w h => RGood.tick h, ?_, ?_⟩
  · intro a w h
    have h1 : RGood false (w.tick env) := RGood.tick h
    simp only [user, id]
    by_cases hd : (w.tick env).disposed = true
    · simp only [hd, if_true]; exact h1
    · simp only [hd, Bool.false_eq_true, if_false]
      have h2 := callback_rgood (env := env) (react := react) h1 (.next a)
      split <;> rename_i heq <;> rw [heq] at h2
      · exact h2
      · exact terminal_rgood h2 _
  · intro d w h
    simp only [user, id]
    have h1 : RGood false (w.tick env) := RGood.tick h
    by_cases hd : (w.tick env).disposed = true
    · simp only [hd, if_true]; exact h1.hand d
    · simp only [hd, Bool.false_eq_true, if_false]
      have h2 := h1.tick (env := env)
      by_cases hd2 : ((w.tick env).tick env).disposed = true
      · simp only [hd2, if_true]; exact h2.hand d
      · rw [if_neg hd2]
        refine ⟨⟨?_, ?_, fun h => absurd h hd2, ?_, ?_⟩, ?_⟩
        · intro d' hd'
          rcases List.mem_append.1 hd' with hd' | hd'
          · exact (h2.1.kept d' hd').imp (List.mem_append_left _) (List.mem_append_left _)
          · cases List.mem_singleton.1 hd'; exact .inl (List.mem_append_right _ (by simp))
        · intro d'
          show (((w.tick env).tick env).log ++ [_]).count _ ≤ 1
          rw [List.count_append, List.count_eq_zero (l := [_]) |>.2 (by simp)]
          exact h2.1.once d'
        · intro t ht; exact ⟨(h2.1.won t ht).1, List.mem_append_left _ (h2.1.won t ht).2⟩
        · intro t ht hm
          rcases List.mem_append.1 hm with hm | hm
          · exact h2.1.not t ht hm
          · cases List.mem_singleton.1 hm
        · intro t ht; exact List.mem_append_left _ (h2.2 t ht)
  · intro w h _
    have h1 : RGood false ((w.tick env).tick env) := RGood.tick (RGood.tick h)
    exact h1.say _ (fun _ h => by cases h) (fun _ h => by cases h) (fun _ h => by cases h)
  · intro d w h; exact RGood.hand h d

end Rpp.Cross
