import Verif.Disposable.Refcount

/-!
# C51: `refcount_disposable`

Every statement is about an arbitrary execution: any number of threads, any interleaving of the atomic steps
of `add_ref`, `dispose()` of references and `dispose()` of the refcount_disposable. The only assumption is that
fewer than 2^64 - 1 references were issued (more do not fit in memory).
-/

namespace Rpp.Refcount

/-- All issued references have been disposed. -/
def AllDisposed (s : St) : Prop := ∀ r, r < s.next → r ∈ s.dead

theorem reachable (ls : List Lbl) (hb : (exec sizeMax {} ls).next < sizeMax) :
    ∃ own, Inv sizeMax (exec sizeMax {} ls) own :=
  Inv.exec ls (Inv.init (by unfold sizeMax; omega)) hb

/-- C51, never earlier: if nobody disposed the refcount_disposable directly, it is disposed only when every
reference ever issued is disposed - disposing one reference any number of times does not count for another. -/
theorem C51_never_early (ls : List Lbl) (hb : (exec sizeMax {} ls).next < sizeMax)
    (hdirect : ∀ t, Lbl.dispose t ∉ ls) (hdisp : (exec sizeMax {} ls).disposed = true) :
    AllDisposed (exec sizeMax {} ls) := by
  obtain ⟨own, h⟩ := reachable ls hb
  have hd : ∀ (ls : List Lbl) (s : St), s.direct = false → (∀ t, Lbl.dispose t ∉ ls) →
      (exec sizeMax s ls).direct = false := by
    intro ls
    induction ls with
    | nil => intro s h _; exact h
    | cons l ls ih =>
      intro s h hl
      refine ih _ ?_ (fun t ht => hl t (by simp [ht]))
      cases l with
      | addRef t => simp only [step]; split <;> simp [h]
      | disposeRef t r => simp only [step]; split <;> (try split) <;> simp [h]
      | dispose t => exact absurd (List.mem_cons_self ..) (hl t)
      | run t =>
        simp only [step]
        split
        · exact h
        · rename_i f rest hs
          cases f <;> simp only [runFrame] <;> (repeat' split) <;> simp [h]
  have hd := hd ls {} rfl hdirect
  exact fun r hr => h.c8 hd (h.c8a hd hdisp) r hr

/-- C51, never later: when at least one reference was issued, all issued references are disposed and all calls
have returned, the refcount_disposable is disposed. -/
theorem C51_not_late (ls : List Lbl) (hb : (exec sizeMax {} ls).next < sizeMax)
    (hsome : 0 < (exec sizeMax {} ls).next) (hall : AllDisposed (exec sizeMax {} ls))
    (hq : Quiet (exec sizeMax {} ls)) : (exec sizeMax {} ls).disposed = true := by
  obtain ⟨own, h⟩ := reachable ls hb
  generalize exec sizeMax {} ls = s at *
  have hown : ∀ r, own r = none := by
    intro r
    cases e : own r with
    | none => rfl
    | some t => have := h.c1 r t; rw [hq t, e] at this; simp at this
  by_cases hc : s.cnt = sizeMax
  · rcases h.c6 hc with h1 | ⟨t, h1⟩
    · exact h1
    · rw [hq t] at h1; simp at h1
  · obtain ⟨h1, h2⟩ := h.c5 hc
    have hsub : ∀ r ∈ List.range s.next, r ∈ s.released := by
      intro r hr
      rcases h.c10 r (hall r (List.mem_range.1 hr)) with h3 | h3 | h3
      · exact h3
      · exact absurd (hown r) h3
      · exact absurd h3 hc
    have hlen : s.next ≤ s.released.length := by
      have := (List.nodup_range (n := s.next)).length_le_of_subset (l₂ := s.released) hsub
      simpa using this
    omega

/-- C51: the refcount_disposable is disposed exactly when the last outstanding reference is (as long as nobody
disposes it directly). -/
theorem C51_exactly_when_last (ls : List Lbl) (hb : (exec sizeMax {} ls).next < sizeMax)
    (hdirect : ∀ t, Lbl.dispose t ∉ ls) (hsome : 0 < (exec sizeMax {} ls).next)
    (hq : Quiet (exec sizeMax {} ls)) :
    (exec sizeMax {} ls).disposed = true ↔ AllDisposed (exec sizeMax {} ls) :=
  ⟨C51_never_early ls hb hdirect, fun h => C51_not_late ls hb hsome h hq⟩

/-- C51: the number of references the counter still holds is the number of references not yet disposed
(disposing one twice releases once), as long as the refcount_disposable is alive and calls have returned. -/
theorem C51_counter (ls : List Lbl) (hb : (exec sizeMax {} ls).next < sizeMax)
    (halive : (exec sizeMax {} ls).disposed = false) (hq : Quiet (exec sizeMax {} ls)) :
    (exec sizeMax {} ls).cnt =
      ((List.range (exec sizeMax {} ls).next).filter (fun r => r ∉ (exec sizeMax {} ls).dead)).length := by
  obtain ⟨own, h⟩ := reachable ls hb
  generalize exec sizeMax {} ls = s at *
  have hc : s.cnt ≠ sizeMax := by
    intro hc
    rcases h.c6 hc with h1 | ⟨t, h1⟩
    · rw [halive] at h1; cases h1
    · rw [hq t] at h1; simp at h1
  have hown : ∀ r, own r = none := by
    intro r
    cases e : own r with
    | none => rfl
    | some t => have := h.c1 r t; rw [hq t, e] at this; simp at this
  have hdead : ∀ r, r ∈ s.dead ↔ r ∈ s.released := by
    intro r
    refine ⟨fun hr => ?_, h.c3 r⟩
    rcases h.c10 r hr with h3 | h3 | h3
    · exact h3
    · exact absurd (hown r) h3
    · exact absurd h3 hc
  have hsplit : ((List.range s.next).filter (fun r => r ∉ s.dead)).length +
      ((List.range s.next).filter (fun r => r ∈ s.dead)).length = s.next := by
    have : ∀ l : List Nat, (l.filter (fun r => r ∉ s.dead)).length + (l.filter (fun r => r ∈ s.dead)).length =
        l.length := by
      intro l
      induction l with
      | nil => rfl
      | cons x l ih => by_cases e : x ∈ s.dead <;> simp [e] at ih ⊢ <;> omega
    simpa using this (List.range s.next)
  have hrel : ((List.range s.next).filter (fun r => r ∈ s.dead)).length = s.released.length := by
    apply Nat.le_antisymm
    · refine List.Nodup.length_le_of_subset (List.Pairwise.filter _ List.nodup_range) ?_
      intro r hr; simp at hr; exact (hdead r).1 hr.2
    · refine h.c4.length_le_of_subset ?_
      intro r hr
      have := (hdead r).2 hr
      simp [this, h.c3' r this]
  have := (h.c5 hc).1
  omega

/-- Disposing the refcount_disposable disposes every reference: once it is disposed and all calls have
returned, no reference is left alive. -/
theorem C51_disposes_refs (ls : List Lbl) (hb : (exec sizeMax {} ls).next < sizeMax)
    (hdisp : (exec sizeMax {} ls).disposed = true) (hq : Quiet (exec sizeMax {} ls)) :
    AllDisposed (exec sizeMax {} ls) := by
  obtain ⟨own, h⟩ := reachable ls hb
  intro r hr
  rcases h.c9 r hr with h1 | h1 | ⟨t, h1⟩
  · exact h1
  · rcases h.c12 hdisp with h2 | ⟨t, h2⟩
    · rw [h2] at h1; simp at h1
    · rw [hq t] at h2; simp at h2
  · rw [hq t] at h1; simp at h1

/-- After that, `add_ref` issues no further references (it returns an empty disposable). -/
theorem C51_no_ref_after (before after : List Lbl)
    (hb : (exec sizeMax {} (before ++ after)).next < sizeMax)
    (hdisp : (exec sizeMax {} before).disposed = true) (hq : Quiet (exec sizeMax {} before)) :
    (exec sizeMax {} (before ++ after)).next = (exec sizeMax {} before).next := by
  have happ : exec sizeMax {} (before ++ after) = exec sizeMax (exec sizeMax {} before) after := by
    simp [exec, List.foldl_append]
  rw [happ] at hb ⊢
  obtain ⟨own, h⟩ := reachable before (Nat.lt_of_le_of_lt (exec_next_mono sizeMax after _) hb)
  have hc : (exec sizeMax {} before).cnt = sizeMax := by
    rcases h.c7 hdisp with h1 | ⟨t, h1⟩
    · exact h1
    · rw [hq t] at h1; simp at h1
  generalize exec sizeMax {} before = s at *
  clear hdisp hq happ
  induction after generalizing s own with
  | nil => rfl
  | cons l ls ih =>
    have hstep : (step sizeMax s l).cnt = sizeMax ∧ (step sizeMax s l).next = s.next := by
      cases l with
      | addRef t => simp only [step]; split <;> simp [hc]
      | disposeRef t r => simp only [step]; split <;> (try split) <;> simp [hc]
      | dispose t => simp only [step]; split <;> simp [hc]
      | run t =>
        simp only [step]
        split
        · exact ⟨hc, rfl⟩
        · rename_i f rest hs
          cases f <;> simp only [runFrame] <;> (repeat' split) <;> simp_all
    obtain ⟨own', h'⟩ := h.step l (Nat.lt_of_le_of_lt (exec_next_mono sizeMax ls _) hb)
    have := ih own' (step sizeMax s l) hb h' hstep.1
    rw [← hstep.2]; exact this

/-! Non-vacuity: two references, the first disposed twice, then the second. -/

/-- An example. -/
def demo : List Lbl :=
  [.addRef 1, .addRef 2] ++ List.replicate 4 (.run 1) ++ List.replicate 4 (.run 2) ++ [.disposeRef 1 0] ++
    List.replicate 5 (.run 1) ++ [.disposeRef 2 0] ++ List.replicate 5 (.run 2)

example : (exec sizeMax {} demo).next = 2 ∧ (exec sizeMax {} demo).disposed = false ∧
    (exec sizeMax {} demo).dead = [0] ∧ (exec sizeMax {} demo).cnt = 1 ∧
    (exec sizeMax {} demo).th 1 = [] ∧ (exec sizeMax {} demo).th 2 = [] := by decide

example : (exec sizeMax {} (demo ++ [.disposeRef 1 1] ++ List.replicate 10 (.run 1))).disposed = true ∧
    (exec sizeMax {} (demo ++ [.disposeRef 1 1] ++ List.replicate 10 (.run 1))).th 1 = [] := by decide

end Rpp.Refcount
