import Verif.Subject.RefCountProofs

/-! # C48: ref_count connects on the first subscriber and disconnects on the last -/

namespace Rpp.RefCount

/-- A subscription makes a new connection its business exactly when there is no current subscriber; otherwise it joins
the generation of the current ones. -/
theorem C48_connects_on_first (ls : List Lbl) (pre post : List Ev) (k g : Nat) (b : Bool)
    (h : (exec ls).log = pre ++ .sub k g b :: post) : b = true ↔ ∀ j, ¬ Live pre j := by
  have := (inv ls).legal pre _ post h
  obtain ⟨_, _, h3⟩ := this
  cases b
  · rw [if_neg (by simp)] at h3
    obtain ⟨⟨j, hj⟩, _⟩ := h3
    exact ⟨fun e => (by cases e), fun e => absurd hj (e j)⟩
  · rw [if_pos rfl] at h3
    exact ⟨fun _ => h3.1, fun _ => rfl⟩

/-- The source is subscribed at most once per generation, only for a generation that a first subscriber created, that is
still wanted, and only after every earlier connection is gone: never two connections at once. -/
theorem C48_one_connection (ls : List Lbl) (pre post : List Ev) (g : Nat) (h : (exec ls).log = pre ++ .conn g :: post) :
    (∃ k, .sub k g true ∈ pre) ∧ .down g ∉ pre ∧ .conn g ∉ pre ∧ ∀ g', .conn g' ∈ pre → .down g' ∈ pre :=
  (inv ls).legal pre _ post h

/-- The source subscription is disposed only when no subscriber is left. -/
theorem C48_disconnects_only_when_unused (ls : List Lbl) (pre post : List Ev) (g : Nat)
    (h : (exec ls).log = pre ++ .down g :: post) : ∀ j, ¬ Live pre j :=
  ((inv ls).legal pre _ post h).2.1

/-- As soon as no call is under way: without subscribers nothing is connected. -/
theorem C48_disconnected_when_unused (ls : List Lbl) (hq : Quiet (exec ls)) (hn : ∀ j, ¬ Live (exec ls).log j) (g : Nat)
    (hg : .conn g ∈ (exec ls).log) : .down g ∈ (exec ls).log := by
  have h := inv ls
  obtain ⟨pre, post, e⟩ := List.append_of_mem hg
  obtain ⟨⟨k, hk⟩, _⟩ := h.legal pre _ post e
  have hgn : g < (exec ls).next := h.bound k g true (by rw [e]; exact List.mem_append_left _ hk)
  have hm : (exec ls).mem g = [] := by
    apply List.eq_nil_iff_forall_not_mem.2
    exact fun j hj => hn j (Live.of_mem h hj)
  exact (h.down g).1 (hq.2 g ((h.dead g).2 ⟨hgn, hm⟩))

/-- As soon as no call is under way: with a subscriber, and unless the source has terminated, the generation the
subscriber belongs to is connected, and it is the only one that is. -/
theorem C48_connected_when_used (ls : List Lbl) (hq : Quiet (exec ls)) (k : Nat) (hk : Live (exec ls).log k)
    (ht : .closed ∉ (exec ls).log) : ∃ g, (∃ b, .sub k g b ∈ (exec ls).log) ∧ .conn g ∈ (exec ls).log ∧
      .down g ∉ (exec ls).log ∧ ∀ g', .conn g' ∈ (exec ls).log → g' = g ∨ .down g' ∈ (exec ls).log := by
  have h := inv ls
  obtain ⟨g, hc, hm, hd⟩ := h.inCur hk
  obtain ⟨j, _, h2⟩ := h.creator g (h.cur g hc)
  have hup : ((exec ls).calls j).up = none := by
    rcases hq.1 j with e | e <;> rw [e] <;> rfl
  rw [hup] at h2
  have hcg : .conn g ∈ (exec ls).log := by
    rcases h2 with h2 | h2 | h2 | h2
    · cases h2
    · rw [hd] at h2; cases h2
    · exact absurd (h.closedL.1 h2) ht
    · exact h2
  refine ⟨g, ((h.memL k g).1 hm).1, hcg, fun hh => (by rw [(h.down g).2 hh] at hd; cases hd), fun g' hg' => ?_⟩
  obtain ⟨pre, post, e⟩ := List.append_of_mem hg'
  obtain ⟨⟨i, hi⟩, _⟩ := h.legal pre _ post e
  have hb := h.bound i g' true (by rw [e]; exact List.mem_append_left _ hi)
  rcases h.old g' hb with h1 | h1
  · rw [hc] at h1; cases h1; exact .inl rfl
  · exact .inr ((h.down g').1 h1)

/-- Once the subject is disposed (the source has terminated) a subscription that starts makes no connection: whatever
connects afterwards belongs to a call that had already passed the check. -/
theorem C48_no_reconnect_after_end (ls ls' : List Lbl) (hq : Quiet (exec ls)) (ht : .closed ∈ (exec ls).log) (g : Nat)
    (hg : .conn g ∈ (exec (ls ++ ls')).log) : .conn g ∈ (exec ls).log := by
  have hex : exec (ls ++ ls') = ls'.foldl step (exec ls) := by simp [exec, List.foldl_append]
  rw [hex] at hg
  have key : ∀ (l : Lbl) (s : St), (s.closed = true ∧ (∀ k x, s.calls k ≠ .src x) ∧ ∀ g, .conn g ∈ s.log → .conn g ∈ (exec ls).log) →
      ((step s l).closed = true ∧ (∀ k x, (step s l).calls k ≠ .src x) ∧ ∀ g, .conn g ∈ (step s l).log → .conn g ∈ (exec ls).log) := by
      intro l s ⟨h1, h2, h3⟩
      have hrel : ∀ (s : St) k x, (s.release k x).closed = s.closed ∧ (s.release k x).calls = s.calls ∧
          ∀ g, Ev.conn g ∈ (s.release k x).log ↔ Ev.conn g ∈ s.log := by
        intro s k x; unfold St.release St.emit; split <;> simp
      have hkill : ∀ (s : St) k, (s.kill k).closed = s.closed ∧ (s.kill k).calls = s.calls ∧
          ∀ g, Ev.conn g ∈ (s.kill k).log ↔ Ev.conn g ∈ s.log := by
        intro s k; unfold St.kill; split
        · exact ⟨(hrel _ _ _).1, (hrel _ _ _).2.1, (hrel _ _ _).2.2⟩
        · simp
      cases l with
      | sub k =>
        simp only [step, St.onSubscribe]
        split
        · split
          · split
            · split
              · refine ⟨h1, ?_, ?_⟩ <;> simp [St.goto, St.emit]
                · intro j x; split <;> simp [h2]
                · exact h3
              · refine ⟨h1, ?_, ?_⟩ <;> simp [St.goto, St.emit]
                · intro j x; split <;> simp [h2]
                · exact h3
            · refine ⟨h1, ?_, ?_⟩ <;> simp [St.goto, St.emit]
              · intro j x; split <;> simp [h2]
              · exact h3
          · refine ⟨h1, ?_, ?_⟩ <;> simp [St.goto, St.emit]
            · intro j x; split <;> simp [h2]
            · exact h3
        · exact ⟨h1, h2, h3⟩
      | gone k =>
        simp only [step]; split
        · exact ⟨h1, h2, h3⟩
        · exact ⟨by rw [(hkill s k).1]; exact h1, by rw [(hkill s k).2.1]; exact h2, fun g hg => h3 g (((hkill s k).2.2 g).1 hg)⟩
      | fall x =>
        simp only [step]; split
        · exact ⟨h1, h2, by simpa [St.emit] using h3⟩
        · exact ⟨h1, h2, h3⟩
      | endSubj => exact ⟨h1, h2, h3⟩
      | close => simp only [step, h1, if_true]; exact ⟨trivial, h2, h3⟩
      | srcEnd x =>
        simp only [step]; split
        · exact ⟨h1, h2, by simpa [St.emit] using h3⟩
        · exact ⟨h1, h2, h3⟩
      | run k =>
        have hgo : ∀ (s1 : St) (p : Pc), (∀ x, p ≠ .src x) → s1.closed = true → s1.calls = s.calls →
            (∀ g, Ev.conn g ∈ s1.log → Ev.conn g ∈ s.log) → ((s1.goto k p).closed = true ∧ (∀ j x, (s1.goto k p).calls j ≠ .src x) ∧
              ∀ g, Ev.conn g ∈ (s1.goto k p).log → Ev.conn g ∈ (exec ls).log) := by
          intro s1 p hp h1' h2' h3'
          refine ⟨h1', ?_, fun g hg => h3 g (h3' g hg)⟩
          intro j x; simp only [St.goto]; split
          · exact hp x
          · rw [h2']; exact h2 j x
        simp only [step]; split
        · exact ⟨h1, h2, h3⟩
        · exact ⟨h1, h2, h3⟩
        · split
          · split
            · next up _ x _ _ =>
              have := hgo s (.subj up) (by simp) h1 rfl (fun _ h => h)
              refine ⟨by rw [(hrel _ _ _).1]; exact this.1, by rw [(hrel _ _ _).2.1]; exact this.2.1, fun g hg => this.2.2 g (((hrel _ _ _).2.2 g).1 hg)⟩
            · exact hgo _ _ (by simp) h1 rfl (fun _ h => h)
          · exact hgo s _ (by simp) h1 rfl (fun _ h => h)
        · next up hc =>
          have e1 : ∀ s1 : St, s1.closed = true → s1.calls = s.calls → (∀ g, Ev.conn g ∈ s1.log → Ev.conn g ∈ s.log) →
              (s1.proceed k up).closed = true ∧ (∀ j x, (s1.proceed k up).calls j ≠ .src x) ∧
                ∀ g, Ev.conn g ∈ (s1.proceed k up).log → Ev.conn g ∈ (exec ls).log := by
            intro s1 a b c
            cases up with
            | some g => exact hgo s1 _ (by simp) a b c
            | none => exact hgo s1 _ (by simp) a b c
          split
          · exact e1 _ (by rw [(hkill s k).1]; exact h1) (hkill s k).2.1 (fun g hg => ((hkill s k).2.2 g).1 hg)
          · exact e1 _ h1 rfl (fun _ h => h)
        · split
          · exact hgo s _ (by simp) h1 rfl (fun _ h => h)
          · exact hgo s _ (by simp) h1 rfl (fun _ h => h)
        · rw [if_pos h1]; exact hgo s _ (by simp) h1 rfl (fun _ h => h)
        · next x hc => exact absurd hc (h2 k x)
  have all : ∀ (ls' : List Lbl) (s : St), (s.closed = true ∧ (∀ k x, s.calls k ≠ .src x) ∧ ∀ g, .conn g ∈ s.log → .conn g ∈ (exec ls).log) →
      ∀ g, .conn g ∈ (ls'.foldl step s).log → .conn g ∈ (exec ls).log := by
    intro ls'
    induction ls' with
    | nil => exact fun s h => h.2.2
    | cons l ls' ih => exact fun s h => ih _ (key l s h)
  exact all ls' (exec ls) ⟨(inv ls).closedL.2 ht, fun k x e => (by rcases hq.1 k with h | h <;> rw [h] at e <;> cases e), fun _ h => h⟩ g hg

/-- Two subscribers, both leave, a third one comes: two connections, one after the other. -/
def story : List Lbl :=
  [.sub 0, .run 0, .run 0, .run 0, .run 0, .run 0, .sub 1, .run 1, .run 1, .gone 0, .gone 1, .fall 0,
   .sub 2, .run 2, .run 2, .run 2, .run 2, .run 2]

example : (exec story).log = [.sub 0 0 true, .conn 0, .sub 1 0 false, .rel 0, .rel 1, .down 0, .sub 2 1 true, .conn 1] := by decide

example : Quiet (exec story) ∧ Live (exec story).log 2 ∧ .closed ∉ (exec story).log := by
  refine ⟨⟨fun k => ?_, fun g => ?_⟩, ⟨⟨1, true, by decide, by decide⟩, by decide⟩, by decide⟩
  · by_cases h0 : k = 0
    · subst h0; decide
    · by_cases h1 : k = 1
      · subst h1; decide
      · by_cases h2 : k = 2
        · subst h2; decide
        · left; simp [story, exec, step, St.onSubscribe, St.goto, St.emit, St.kill, St.release, St.isDown, St.proceed, h0, h1, h2]
  · by_cases h0 : g = 0
    · subst h0; decide
    · by_cases h1 : g = 1
      · subst h1; decide
      · simp [story, exec, step, St.onSubscribe, St.goto, St.emit, St.kill, St.release, St.isDown, St.proceed, h0, h1]

/-- And when the source has ended, the next subscriber does not reconnect. -/
example : (exec ([.sub 0, .run 0, .run 0, .run 0, .run 0, .run 0, .endSubj, .gone 0, .fall 0, .close, .sub 1, .run 1, .run 1,
    .fall 1, .run 1, .run 1, .run 1])).log = [.sub 0 0 true, .conn 0, .rel 0, .down 0, .closed, .sub 1 1 true, .rel 1, .down 1] := by decide

/-- A race on the real code (`is_disposed()` in `on_subscribe` against the CAS of `release`): the last subscriber is leaving in
another thread, its counter is already spent but `dispose()` has not run.  The new subscriber joins that generation, gets an empty
disposable and no connection: everything is quiet, subscriber 1 is not disposed, and nothing is connected for it. -/
theorem C48_race_refutes : ∃ ls, Ev.lost 1 ∈ (exec ls).log ∧ 1 ∉ (exec ls).gone ∧ (exec ls).calls 1 = .fin ∧
    (∀ g, .conn g ∈ (exec ls).log → .down g ∈ (exec ls).log) ∧ .closed ∉ (exec ls).log := by
  refine ⟨[.sub 0, .run 0, .run 0, .run 0, .run 0, .run 0, .gone 0, .sub 1, .fall 0, .run 1, .run 1], by decide, by decide, by decide, ?_, by decide⟩
  intro g hg
  have e : (exec [.sub 0, .run 0, .run 0, .run 0, .run 0, .run 0, .gone 0, .sub 1, .fall 0, .run 1, .run 1]).log =
    [.sub 0 0 true, .conn 0, .rel 0, .lost 1, .down 0] := by decide
  rw [e] at hg ⊢
  simp at hg; subst hg; simp

/-- The only way to be left out is that race: a subscription gets a reference unless it starts between the last `release` and the
`dispose()` that follows it.  In particular nobody is left out in a single thread, where nothing runs in between. -/
theorem C48_nobody_left_out_partial (ls : List Lbl) (k : Nat) (hi : (exec ls).calls k = .idle)
    (hw : ∀ g, (exec ls).dead g = true → (exec ls).down g = true) :
    ∃ g b, (exec (ls ++ [.sub k])).log = (exec ls).log ++ [.sub k g b] := by
  have hs : exec (ls ++ [.sub k]) = step (exec ls) (.sub k) := by simp [exec, List.foldl_append]
  rw [hs]
  simp only [step, if_pos hi, St.onSubscribe]
  split
  · next g hc =>
    split
    · next hd =>
      split
      · next hdd => rw [hw g hdd] at hd; cases hd
      · exact ⟨_, _, rfl⟩
    · exact ⟨_, _, rfl⟩
  · exact ⟨_, _, rfl⟩

end Rpp.RefCount
