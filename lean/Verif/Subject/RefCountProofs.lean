import Verif.Subject.RefCount

/-! Proof of the `ref_count` invariant. -/

namespace Rpp.RefCount

/-- A call moves on; its generation stays its business, or the matter is settled. -/
theorem Inv.goto {s : St} (h : Inv s) {k : Nat} {p : Pc} (hne : s.calls k ≠ .idle) (hp : p ≠ .idle)
    (hr : (s.calls k).ref = none) (hpr : p.ref = none)
    (hu : ∀ g, p.up = some g → (s.calls k).up = some g)
    (hd : ∀ g, (s.calls k).up = some g → p.up = some g ∨ s.down g = true ∨ s.closed = true ∨ .conn g ∈ s.log)
    (hl : ∀ g, (p = .chk g ∨ p = .link g) → s.conn ≠ some g)
    (hl' : ∀ g, p.up = some g → s.conn = some g → p = .src g)
    (hs : ∀ g, p = .src g → s.conn = some g ∨ s.down g = true) : Inv (s.goto k p) := by
  have hc : ∀ j, j ≠ k → (s.goto k p).calls j = s.calls j := by intro j hj; simp [St.goto, hj]
  have hk : (s.goto k p).calls k = p := by simp [St.goto]
  refine ⟨?_, h.cur, h.old, h.down, h.dead, h.ddead, h.memL, h.uniq, ?_, ?_, h.heldM, h.cut, h.closedL, h.bound, ?_, h.one, ?_, h.connB, h.connL, ?_, ?_, ?_, h.legal, ?_⟩
  · intro j hj
    by_cases e : j = k
    · subst e; rw [hk] at hj; exact absurd hj hp
    · rw [hc j e] at hj; exact h.fresh j hj
  · intro g j hj
    rcases h.memU g j hj with h1 | h1
    · by_cases e : j = k
      · subst e; rw [hr] at h1; cases h1
      · rw [hc j e]; exact .inl h1
    · exact .inr h1
  · intro j g hj
    by_cases e : j = k
    · subst e; rw [hk, hpr] at hj; cases hj
    · rw [hc j e] at hj; exact h.refM j g hj
  · intro g hg
    obtain ⟨j, h1, h2⟩ := h.creator g hg
    refine ⟨j, h1, ?_⟩
    by_cases e : j = k
    · subst e; rw [hk]
      rcases h2 with h2 | h2
      · exact hd g h2
      · exact .inr h2
    · rw [hc j e]; exact h2
  · intro j g hj
    by_cases e : j = k
    · subst e; rw [hk] at hj; exact h.upS j g (hu g hj)
    · rw [hc j e] at hj; exact h.upS j g hj
  · intro j g hj
    by_cases e : j = k
    · subst e; rw [hk] at hj; exact hl g hj
    · rw [hc j e] at hj; exact h.linked j g hj
  · intro j g hj hcn
    by_cases e : j = k
    · subst e; rw [hk] at hj ⊢; exact hl' g hj hcn
    · rw [hc j e] at hj ⊢; exact h.linked' j g hj hcn
  · intro j g hj
    by_cases e : j = k
    · subst e; rw [hk] at hj; exact hs g hj
    · rw [hc j e] at hj; exact h.srcC j g hj
  · intro j hj
    by_cases e : j = k
    · subst e; rw [hk] at hj; exact absurd hj hp
    · rw [hc j e] at hj; exact h.idleHeld j hj

theorem Inv.release {s : St} (h : Inv s) {k g : Nat} (hk : s.held k = some g) : Inv (s.release k g) := by
  obtain ⟨hm, hg⟩ := h.heldM k g hk
  unfold St.release
  split
  case isTrue hd =>
    have hnm : k ∉ s.mem g := by rw [((h.dead g).1 hd).2]; simp
    have hother : ∀ x, k ∉ s.mem x := by
      intro x hx
      rcases h.memU x k hx with h1 | h1
      · have := (h.refM k x h1).2.1; rw [hk] at this; cases this
      · rw [hk] at h1; cases h1; exact hnm hx
    refine ⟨h.fresh, h.cur, h.old, h.down, h.dead, h.ddead, h.memL, h.uniq, ?_, ?_, ?_, h.cut, h.closedL, h.bound, h.creator, h.one, h.upS, h.connB, h.connL, h.linked, h.linked', h.srcC, h.legal, fun j hj x => by dsimp only; split; simp; exact h.idleHeld j hj x⟩
    · intro x j hj
      have : j ≠ k := fun e => hother x (e ▸ hj)
      simpa [this] using h.memU x j hj
    · intro j x hj
      have := h.refM j x hj
      refine ⟨this.1, ?_, this.2.2⟩
      dsimp only; split
      · rfl
      · exact this.2.1
    · intro j x hj
      dsimp only at hj; split at hj
      · cases hj
      · exact h.heldM j x hj
  case isFalse hd =>
    have hdf : s.dead g = false := by simpa using hd
    have hkm : k ∈ s.mem g := by rcases hm with h1 | h1; exact h1; exact absurd h1 hd
    have hL : Live s.log k := Live.of_mem h hkm
    obtain ⟨⟨b0, hb0⟩, hc0, hr0⟩ := (h.memL k g).1 hkm
    have honly : ∀ x, k ∈ s.mem x → x = g := by
      intro x hx
      obtain ⟨⟨b1, hb1⟩, _⟩ := (h.memL k x).1 hx
      exact (h.uniq k x b1 g b0 hb1 hb0).1
    have hsub : ∀ j x b, Ev.sub j x b ∈ s.log ++ [Ev.rel k] ↔ Ev.sub j x b ∈ s.log := by simp
    have hcn : ∀ x, Ev.conn x ∈ s.log ++ [Ev.rel k] ↔ Ev.conn x ∈ s.log := by simp
    have hdn : ∀ x, Ev.down x ∈ s.log ++ [Ev.rel k] ↔ Ev.down x ∈ s.log := by simp
    have hct : ∀ x, Ev.cut x ∈ s.log ++ [Ev.rel k] ↔ Ev.cut x ∈ s.log := by simp
    have hcl : Ev.closed ∈ s.log ++ [Ev.rel k] ↔ Ev.closed ∈ s.log := by simp
    have hmem : ∀ j x, j ∈ (if x = g then (s.mem g).filter (· ≠ k) else s.mem x) ↔ j ∈ s.mem x ∧ j ≠ k := by
      intro j x
      by_cases e : x = g
      · subst e; simp
      · rw [if_neg e]
        exact ⟨fun hj => ⟨hj, fun e' => e (honly x (e' ▸ hj))⟩, fun hj => hj.1⟩
    have hdead : ∀ x, (if x = g then decide ((s.mem g).filter (· ≠ k) = []) else s.dead x) = true ↔
        x < s.next ∧ (if x = g then (s.mem g).filter (· ≠ k) else s.mem x) = [] := by
      intro x
      by_cases e : x = g
      · subst e; simp only [if_true, decide_eq_true_eq]; exact ⟨fun hh => ⟨hg, hh⟩, fun hh => hh.2⟩
      · rw [if_neg e, if_neg e]; exact h.dead x
    have hdmono : ∀ x, s.dead x = true → (if x = g then decide ((s.mem g).filter (· ≠ k) = []) else s.dead x) = true := by
      intro x hx
      by_cases e : x = g
      · subst e; exact absurd hx hd
      · rw [if_neg e]; exact hx
    refine ⟨?_, h.cur, h.old, ?_, hdead, ?_, ?_, ?_, ?_, ?_, ?_, ?_, ?_, ?_, ?_, ?_, ?_, h.connB, ?_, h.linked, h.linked', h.srcC, ?_, ?_⟩
    · intro j hj x b; exact fun hh => h.fresh j hj x b ((hsub _ _ _).1 hh)
    · intro x; exact (h.down x).trans (hdn x).symm
    · intro x hx; exact hdmono x (h.ddead x hx)
    · intro j x
      refine (hmem j x).trans ?_
      show _ ↔ (∃ b, Ev.sub j x b ∈ s.log ++ [Ev.rel k]) ∧ Ev.cut x ∉ s.log ++ [Ev.rel k] ∧ Ev.rel j ∉ s.log ++ [Ev.rel k]
      have := h.memL j x
      simp only [hsub, hct, List.mem_append, List.mem_singleton, Ev.rel.injEq, not_or]
      rw [this]; constructor
      · rintro ⟨⟨a, b, c⟩, d⟩; exact ⟨a, b, c, d⟩
      · rintro ⟨a, b, c, d⟩; exact ⟨⟨a, b, c⟩, d⟩
    · intro j x b x' b' h1 h2; exact h.uniq j x b x' b' ((hsub _ _ _).1 h1) ((hsub _ _ _).1 h2)
    · intro x j hj
      have := (hmem j x).1 hj
      show _ ∨ (if j = k then none else s.held j) = some x
      rw [if_neg this.2]
      exact h.memU x j this.1
    · intro j x hj
      have h1 := h.refM j x hj
      have hjk : j ≠ k := fun e => by subst e; rw [hk] at h1; cases h1.2.1
      refine ⟨?_, ?_, h1.2.2⟩
      · rcases h1.1 with h2 | h2
        · exact .inl ((hmem j x).2 ⟨h2, hjk⟩)
        · exact .inr (hdmono x h2)
      · show (if j = k then none else s.held j) = none
        rw [if_neg hjk]; exact h1.2.1
    · intro j x hj
      change (if j = k then none else s.held j) = some x at hj
      by_cases hjk : j = k
      · rw [if_pos hjk] at hj; cases hj
      · rw [if_neg hjk] at hj
        have h1 := h.heldM j x hj
        refine ⟨?_, h1.2⟩
        rcases h1.1 with h2 | h2
        · exact .inl ((hmem j x).2 ⟨h2, hjk⟩)
        · exact .inr (hdmono x h2)
    · intro x hx; exact hdmono x (h.cut x ((hct x).1 hx))
    · exact h.closedL.trans hcl.symm
    · intro j x b hh; exact h.bound j x b ((hsub _ _ _).1 hh)
    · intro x hx
      obtain ⟨j, h1, h2⟩ := h.creator x hx
      refine ⟨j, (hsub _ _ _).2 h1, ?_⟩
      rcases h2 with h2 | h2 | h2 | h2
      · exact .inl h2
      · exact .inr (.inl h2)
      · exact .inr (.inr (.inl h2))
      · exact .inr (.inr (.inr ((hcn x).2 h2)))
    · intro j j' x h1 h2; exact h.one j j' x ((hsub _ _ _).1 h1) ((hsub _ _ _).1 h2)
    · intro j x hj
      have := h.upS j x hj
      exact ⟨(hsub _ _ _).2 this.1, fun hh => this.2 ((hcn x).1 hh)⟩
    · intro x hx; exact h.connL x ((hcn x).1 hx)
    · exact h.legal.snoc hL
    · intro j hj x
      show (if j = k then none else s.held j) ≠ some x
      split
      · simp
      · exact h.idleHeld j hj x

theorem Inv.kill {s : St} (h : Inv s) (k : Nat) : Inv (s.kill k) := by
  have h1 : Inv { s with gone := k :: s.gone } :=
    ⟨h.fresh, h.cur, h.old, h.down, h.dead, h.ddead, h.memL, h.uniq, h.memU, h.refM, h.heldM, h.cut, h.closedL, h.bound,
      h.creator, h.one, h.upS, h.connB, h.connL, h.linked, h.linked', h.srcC, h.legal, h.idleHeld⟩
  unfold St.kill
  cases e : s.held k with
  | none => exact h1
  | some g => exact Inv.release h1 e

/-- The reference is attached to the observer (line 45). -/
theorem Inv.attach {s : St} (h : Inv s) {k g : Nat} {up : Option Nat} (hc : s.calls k = .att (some g) up) :
    Inv ({ s with held := fun j => if j = k then some g else s.held j }.goto k (.subj up)) := by
  have hk := h.refM k g (by rw [hc]; rfl)
  have hcj : ∀ j, j ≠ k → (if j = k then Pc.subj up else s.calls j) = s.calls j := fun j e => by rw [if_neg e]
  refine ⟨?_, h.cur, h.old, h.down, h.dead, h.ddead, h.memL, h.uniq, ?_, ?_, ?_, h.cut, h.closedL, h.bound, ?_, h.one, ?_, h.connB, h.connL, ?_, ?_, ?_, h.legal, ?_⟩
  · intro j hj
    by_cases e : j = k
    · subst e; simp [St.goto] at hj
    · simp only [St.goto, hcj j e] at hj; exact h.fresh j hj
  · intro x j hj
    by_cases e : j = k
    · subst e
      rcases h.memU x j hj with h1 | h1
      · rw [hc] at h1; cases h1; right; simp [St.goto]
      · rw [hk.2.1] at h1; cases h1
    · simp only [St.goto, if_neg e]; exact h.memU x j hj
  · intro j x hj
    by_cases e : j = k
    · subst e; simp [St.goto, Pc.ref] at hj
    · simp only [St.goto, if_neg e] at hj ⊢; exact h.refM j x hj
  · intro j x hj
    by_cases e : j = k
    · subst e; simp [St.goto] at hj; subst hj; exact ⟨hk.1, hk.2.2⟩
    · simp only [St.goto, if_neg e] at hj ⊢; exact h.heldM j x hj
  · intro x hx
    obtain ⟨j, h1, h2⟩ := h.creator x hx
    refine ⟨j, h1, ?_⟩
    by_cases e : j = k
    · subst e; simp only [St.goto, if_true]; rw [hc] at h2; exact h2
    · simp only [St.goto, if_neg e]; exact h2
  · intro j x hj
    by_cases e : j = k
    · subst e; simp only [St.goto, if_true] at hj; exact h.upS j x (by rw [hc]; exact hj)
    · simp only [St.goto, if_neg e] at hj; exact h.upS j x hj
  · intro j x hj
    by_cases e : j = k
    · subst e; simp [St.goto] at hj
    · simp only [St.goto, if_neg e] at hj; exact h.linked j x hj
  · intro j x hj hcn
    by_cases e : j = k
    · subst e; simp only [St.goto, if_true] at hj
      have := h.linked' j x (by rw [hc]; exact hj) hcn
      rw [hc] at this; cases this
    · simp only [St.goto, if_neg e] at hj ⊢; exact h.linked' j x hj hcn
  · intro j x hj
    by_cases e : j = k
    · subst e; simp [St.goto] at hj
    · simp only [St.goto, if_neg e] at hj; exact h.srcC j x hj
  · intro j hj
    by_cases e : j = k
    · subst e; simp [St.goto] at hj
    · simp only [St.goto, if_neg e] at hj ⊢; exact h.idleHeld j hj

/-- Who holds a reference holds one to the current generation. -/
theorem Inv.inCur {s : St} (h : Inv s) {j : Nat} (hj : Live s.log j) : ∃ x, s.cur = some x ∧ j ∈ s.mem x ∧ s.down x = false := by
  obtain ⟨x, hx, hm⟩ := hj.mem h
  have hnd : s.down x = false := by
    cases e : s.down x
    · rfl
    · have := ((h.dead x).1 (h.ddead x e)).2
      rw [this] at hm; cases hm
  rcases h.old x hx with h1 | h1
  · exact ⟨x, h1, hm, hnd⟩
  · rw [hnd] at h1; cases h1

/-- Events that say nothing about references, connections or the end keep everything. -/
theorem Inv.lost {s : St} (h : Inv s) {k : Nat} (hi : s.calls k = .idle) (hl : ∀ j, ¬ Live s.log j) :
    Inv ((s.goto k (.att none none)).emit (.lost k)) := by
  have hsub : ∀ j x b, Ev.sub j x b ∈ s.log ++ [Ev.lost k] ↔ Ev.sub j x b ∈ s.log := by simp
  have hcn : ∀ x, Ev.conn x ∈ s.log ++ [Ev.lost k] ↔ Ev.conn x ∈ s.log := by simp
  have hdn : ∀ x, Ev.down x ∈ s.log ++ [Ev.lost k] ↔ Ev.down x ∈ s.log := by simp
  have hct : ∀ x, Ev.cut x ∈ s.log ++ [Ev.lost k] ↔ Ev.cut x ∈ s.log := by simp
  have hrl : ∀ x, Ev.rel x ∈ s.log ++ [Ev.lost k] ↔ Ev.rel x ∈ s.log := by simp
  have hcl : Ev.closed ∈ s.log ++ [Ev.lost k] ↔ Ev.closed ∈ s.log := by simp
  refine ⟨?_, h.cur, h.old, ?_, h.dead, h.ddead, ?_, ?_, ?_, ?_, h.heldM, ?_, ?_, ?_, ?_, ?_, ?_, h.connB, ?_, ?_, ?_, ?_, h.legal.snoc hl, ?_⟩ <;>
    simp only [St.emit, St.goto, hsub, hcn, hdn, hct, hrl, hcl]
  · intro j hj
    split at hj
    · cases hj
    · exact h.fresh j hj
  · exact h.down
  · exact h.memL
  · exact h.uniq
  · intro x j hj
    rcases h.memU x j hj with h1 | h1
    · split
      · next e => subst e; rw [hi] at h1; cases h1
      · exact .inl h1
    · exact .inr h1
  · intro j x hj
    split at hj
    · cases hj
    · exact h.refM j x hj
  · exact h.cut
  · exact h.closedL
  · exact h.bound
  · intro x hx
    obtain ⟨j, h1, h2⟩ := h.creator x hx
    refine ⟨j, h1, ?_⟩
    split
    · next e => subst e; rw [hi] at h2; rcases h2 with h2 | h2
                · cases h2
                · exact .inr h2
    · exact h2
  · exact h.one
  · intro j x hj
    split at hj
    · cases hj
    · exact h.upS j x hj
  · exact h.connL
  · intro j x hj
    split at hj
    · rcases hj with hj | hj <;> cases hj
    · exact h.linked j x hj
  · intro j x hj hc
    split at hj
    · cases hj
    · next e => rw [if_neg e]; exact h.linked' j x hj hc
  · intro j x hj
    split at hj
    · cases hj
    · exact h.srcC j x hj
  · intro j hj
    split at hj
    · cases hj
    · exact h.idleHeld j hj

theorem Inv.join {s : St} (h : Inv s) {k g : Nat} (hi : s.calls k = .idle) (hc : s.cur = some g) (hd : s.down g = false)
    (hdd : s.dead g = false) :
    Inv ({ s with mem := fun x => if x = g then k :: s.mem g else s.mem x }.goto k (.att (some g) none) |>.emit (.sub k g false)) := by
  have hg := h.cur g hc
  have hfr := h.fresh k hi
  have hne : s.mem g ≠ [] := fun e => by have := (h.dead g).2 ⟨hg, e⟩; rw [hdd] at this; cases this
  have hknm : ∀ x, k ∉ s.mem x := fun x hx => by
    obtain ⟨⟨b, hb⟩, _⟩ := (h.memL k x).1 hx; exact hfr x b hb
  have hheld : s.held k = none := by
    cases e : s.held k with
    | none => rfl
    | some x =>
      exfalso
      rcases (h.heldM k x e).1 with h1 | h1
      · exact hknm x h1
      · exact h.idleHeld k hi x e
  have hrk : Ev.rel k ∉ s.log := by
    intro hr
    obtain ⟨pre, post, e⟩ := List.append_of_mem hr
    have := h.legal pre _ post e
    obtain ⟨⟨x, b, hb, _⟩, _⟩ := this
    exact hfr x b (by rw [e]; exact List.mem_append_left _ hb)
  have hcg : Ev.cut g ∉ s.log := fun hh => by have := h.cut g hh; rw [hdd] at this; cases this
  have hok : Ok s.log (.sub k g false) := by
    refine ⟨hfr, fun hh => (by rw [(h.down g).2 hh] at hd; cases hd), ?_⟩
    rw [if_neg (by simp)]
    refine ⟨?_, ?_, ?_⟩
    · obtain ⟨j, hj⟩ := List.exists_mem_of_ne_nil _ hne
      exact ⟨j, Live.of_mem h hj⟩
    · obtain ⟨j, h1, _⟩ := h.creator g hg; exact ⟨j, h1⟩
    · intro j x b hb hl
      obtain ⟨y, hy, hm, _⟩ := h.inCur hl
      rw [hc] at hy; cases hy
      obtain ⟨⟨b', hb'⟩, _⟩ := (h.memL j g).1 hm
      exact (h.uniq j x b g b' hb hb').1
  have hcn : ∀ x, Ev.conn x ∈ s.log ++ [Ev.sub k g false] ↔ Ev.conn x ∈ s.log := by simp
  have hdn : ∀ x, Ev.down x ∈ s.log ++ [Ev.sub k g false] ↔ Ev.down x ∈ s.log := by simp
  have hct : ∀ x, Ev.cut x ∈ s.log ++ [Ev.sub k g false] ↔ Ev.cut x ∈ s.log := by simp
  have hrl : ∀ x, Ev.rel x ∈ s.log ++ [Ev.sub k g false] ↔ Ev.rel x ∈ s.log := by simp
  have hcl : Ev.closed ∈ s.log ++ [Ev.sub k g false] ↔ Ev.closed ∈ s.log := by simp
  have hst : ∀ j x, Ev.sub j x true ∈ s.log ++ [Ev.sub k g false] ↔ Ev.sub j x true ∈ s.log := by simp
  have hsub : ∀ j x b, Ev.sub j x b ∈ s.log ++ [Ev.sub k g false] ↔ Ev.sub j x b ∈ s.log ∨ (j = k ∧ x = g ∧ b = false) := by simp
  have hmem : ∀ j x, j ∈ (if x = g then k :: s.mem g else s.mem x) ↔ j ∈ s.mem x ∨ (j = k ∧ x = g) := by
    intro j x; split
    · next e => subst e; simp [or_comm]
    · next e => simp [e]
  refine ⟨?_, h.cur, h.old, ?_, ?_, h.ddead, ?_, ?_, ?_, ?_, ?_, ?_, ?_, ?_, ?_, ?_, ?_, h.connB, ?_, ?_, ?_, ?_, h.legal.snoc hok, ?_⟩ <;>
    simp only [St.emit, St.goto, hst, hsub, hcn, hdn, hct, hrl, hcl, hmem]
  · intro j hj x b
    split at hj
    · cases hj
    · next e => rintro (hh | hh); exact h.fresh j hj x b hh; exact e hh.1
  · exact h.down
  · intro x
    by_cases e : x = g
    · subst e; simp [hdd]
    · simp only [if_neg e]; exact h.dead x
  · intro j x
    rw [h.memL j x]
    constructor
    · rintro (⟨⟨b, hb⟩, h2⟩ | ⟨rfl, rfl⟩)
      · exact ⟨⟨b, .inl hb⟩, h2⟩
      · exact ⟨⟨false, .inr ⟨rfl, rfl, rfl⟩⟩, hcg, hrk⟩
    · rintro ⟨⟨b, hb | ⟨rfl, rfl, _⟩⟩, h2⟩
      · exact .inl ⟨⟨b, hb⟩, h2⟩
      · exact .inr ⟨rfl, rfl⟩
  · intro j x b x' b' h1 h2
    rcases h1 with h1 | ⟨e1, e2, e3⟩ <;> rcases h2 with h2 | ⟨f1, f2, f3⟩
    · exact h.uniq j x b x' b' h1 h2
    · exact absurd (f1 ▸ h1) (hfr _ _)
    · exact absurd (e1 ▸ h2) (hfr _ _)
    · exact ⟨e2.trans f2.symm, e3.trans f3.symm⟩
  · intro x j hj
    rcases hj with hj | ⟨rfl, rfl⟩
    · rw [if_neg (fun (e : j = k) => hknm x (e ▸ hj))]; exact h.memU x j hj
    · left; rw [if_pos rfl]; rfl
  · intro j x hj
    split at hj
    · next e => subst e; cases hj; exact ⟨.inl (.inr ⟨rfl, rfl⟩), hheld, hg⟩
    · next e =>
      have := h.refM j x hj
      exact ⟨this.1.imp .inl id, this.2⟩
  · intro j x hj
    have := h.heldM j x hj
    exact ⟨this.1.imp .inl id, this.2⟩
  · exact h.cut
  · exact h.closedL
  · rintro j x b (hb | ⟨_, rfl, _⟩)
    · exact h.bound j x b hb
    · exact hg
  · intro x hx
    obtain ⟨j, h1, h2⟩ := h.creator x hx
    refine ⟨j, h1, ?_⟩
    rw [if_neg (fun (e : j = k) => hfr x true (e ▸ h1))]; exact h2
  · exact h.one
  · intro j x hj
    split at hj
    · cases hj
    · exact h.upS j x hj
  · exact h.connL
  · intro j x hj
    split at hj
    · rcases hj with hj | hj <;> cases hj
    · exact h.linked j x hj
  · intro j x hj hc
    split at hj
    · cases hj
    · next e => rw [if_neg e]; exact h.linked' j x hj hc
  · intro j x hj
    split at hj
    · cases hj
    · exact h.srcC j x hj
  · intro j hj
    split at hj
    · cases hj
    · exact h.idleHeld j hj

theorem Inv.create {s : St} (h : Inv s) {k : Nat} (hi : s.calls k = .idle) (hall : ∀ g, g < s.next → s.down g = true) :
    Inv ({ s with cur := some s.next, next := s.next + 1, mem := fun x => if x = s.next then [k] else s.mem x }.goto k
        (.att (some s.next) (some s.next)) |>.emit (.sub k s.next true)) := by
  have hfr := h.fresh k hi
  have hnl : ∀ j, ¬ Live s.log j := fun j hj => by
    obtain ⟨x, hx, _, hd⟩ := h.inCur hj
    rw [hall x (h.cur x hx)] at hd; cases hd
  have hnm : ∀ j x, j ∉ s.mem x := fun j x hx => hnl j (Live.of_mem h hx)
  have hnd : s.down s.next ≠ true := fun e => by have := ((h.dead _).1 (h.ddead _ e)).1; omega
  have hndd : s.dead s.next ≠ true := fun e => by have := ((h.dead _).1 e).1; omega
  have hcg : Ev.cut s.next ∉ s.log := fun hh => hndd (h.cut _ hh)
  have hsn : ∀ j b, Ev.sub j s.next b ∉ s.log := fun j b hb => by have := h.bound _ _ _ hb; omega
  have hcnn : Ev.conn s.next ∉ s.log := by
    intro hh
    obtain ⟨pre, post, e⟩ := List.append_of_mem hh
    obtain ⟨⟨j, hj⟩, _⟩ := h.legal pre _ post e
    exact hsn j true (by rw [e]; exact List.mem_append_left _ hj)
  have hrk : Ev.rel k ∉ s.log := by
    intro hr
    obtain ⟨pre, post, e⟩ := List.append_of_mem hr
    have := h.legal pre _ post e
    obtain ⟨⟨x, b, hb, _⟩, _⟩ := this
    exact hfr x b (by rw [e]; exact List.mem_append_left _ hb)
  have hheld : s.held k = none := by
    cases e : s.held k with
    | none => rfl
    | some x => exact absurd e (h.idleHeld k hi x)
  have hok : Ok s.log (.sub k s.next true) := by
    refine ⟨hfr, fun hh => hnd ((h.down _).2 hh), ?_⟩
    rw [if_pos rfl]
    exact ⟨hnl, hsn⟩
  have hcn : ∀ x, Ev.conn x ∈ s.log ++ [Ev.sub k s.next true] ↔ Ev.conn x ∈ s.log := by simp
  have hdn : ∀ x, Ev.down x ∈ s.log ++ [Ev.sub k s.next true] ↔ Ev.down x ∈ s.log := by simp
  have hct : ∀ x, Ev.cut x ∈ s.log ++ [Ev.sub k s.next true] ↔ Ev.cut x ∈ s.log := by simp
  have hrl : ∀ x, Ev.rel x ∈ s.log ++ [Ev.sub k s.next true] ↔ Ev.rel x ∈ s.log := by simp
  have hcl : Ev.closed ∈ s.log ++ [Ev.sub k s.next true] ↔ Ev.closed ∈ s.log := by simp
  have hsub : ∀ j x b, Ev.sub j x b ∈ s.log ++ [Ev.sub k s.next true] ↔ Ev.sub j x b ∈ s.log ∨ (j = k ∧ x = s.next ∧ b = true) := by simp
  have hmem : ∀ j x, j ∈ (if x = s.next then [k] else s.mem x) ↔ (j = k ∧ x = s.next) := by
    intro j x; split
    · next e => subst e; simp
    · next e => simp [e, hnm]
  refine ⟨?_, ?_, ?_, ?_, ?_, h.ddead, ?_, ?_, ?_, ?_, ?_, ?_, ?_, ?_, ?_, ?_, ?_, ?_, ?_, ?_, ?_, ?_, h.legal.snoc hok, ?_⟩ <;>
    simp only [St.emit, St.goto, hsub, hcn, hdn, hct, hrl, hcl, hmem]
  · intro j hj x b
    split at hj
    · cases hj
    · next e => rintro (hh | hh); exact h.fresh j hj x b hh; exact e hh.1
  · intro g hg; cases hg; omega
  · intro g hg
    by_cases e : g = s.next
    · exact .inl (by rw [e])
    · exact .inr (hall g (by omega))
  · exact h.down
  · intro x
    by_cases e : x = s.next
    · subst e; simpa using hndd
    · simp only [if_neg e]; rw [h.dead x]
      exact ⟨fun hh => ⟨by omega, hh.2⟩, fun hh => ⟨by omega, hh.2⟩⟩
  · intro j x
    constructor
    · rintro ⟨rfl, rfl⟩; exact ⟨⟨true, .inr ⟨rfl, rfl, rfl⟩⟩, hcg, hrk⟩
    · rintro ⟨⟨b, hb | ⟨rfl, rfl, _⟩⟩, h2⟩
      · exact absurd ((h.memL j x).2 ⟨⟨b, hb⟩, h2⟩) (hnm j x)
      · exact ⟨rfl, rfl⟩
  · intro j x b x' b' h1 h2
    rcases h1 with h1 | ⟨e1, e2, e3⟩ <;> rcases h2 with h2 | ⟨f1, f2, f3⟩
    · exact h.uniq j x b x' b' h1 h2
    · exact absurd (f1 ▸ h1) (hfr _ _)
    · exact absurd (e1 ▸ h2) (hfr _ _)
    · exact ⟨e2.trans f2.symm, e3.trans f3.symm⟩
  · rintro x j ⟨rfl, rfl⟩
    left; rw [if_pos rfl]; rfl
  · intro j x hj
    split at hj
    · next e => subst e; cases hj; exact ⟨.inl ⟨rfl, rfl⟩, hheld, by omega⟩
    · next e =>
      have := h.refM j x hj
      rcases this.1 with h1 | h1
      · exact absurd h1 (hnm j x)
      · exact ⟨.inr h1, this.2.1, by omega⟩
  · intro j x hj
    have := h.heldM j x hj
    rcases this.1 with h1 | h1
    · exact absurd h1 (hnm j x)
    · exact ⟨.inr h1, by omega⟩
  · exact h.cut
  · exact h.closedL
  · rintro j x b (hb | ⟨_, rfl, _⟩)
    · have := h.bound j x b hb; omega
    · omega
  · intro x hx
    by_cases e : x = s.next
    · subst e; exact ⟨k, .inr ⟨rfl, rfl, trivial⟩, by rw [if_pos rfl]; exact .inl rfl⟩
    · obtain ⟨j, h1, h2⟩ := h.creator x (by omega)
      refine ⟨j, .inl h1, ?_⟩
      rw [if_neg (fun (e : j = k) => hfr x true (e ▸ h1))]; exact h2
  · intro j j' x h1 h2
    rcases h1 with h1 | ⟨e1, e2, e3⟩ <;> rcases h2 with h2 | ⟨f1, f2, f3⟩
    · exact h.one j j' x h1 h2
    · exact absurd (f2 ▸ h1) (hsn _ _)
    · exact absurd (e2 ▸ h2) (hsn _ _)
    · exact e1.trans f1.symm
  · intro j x hj
    split at hj
    · next e => cases hj; exact ⟨.inr ⟨e, rfl, trivial⟩, hcnn⟩
    · have := h.upS j x hj; exact ⟨.inl this.1, this.2⟩
  · intro g hg; have := h.connB g hg; omega
  · exact h.connL
  · intro j x hj
    split at hj
    · rcases hj with hj | hj <;> cases hj
    · exact h.linked j x hj
  · intro j x hj hc
    split at hj
    · cases hj; have := h.connB _ hc; omega
    · next e => rw [if_neg e]; exact h.linked' j x hj hc
  · intro j x hj
    split at hj
    · cases hj
    · exact h.srcC j x hj
  · intro j hj
    split at hj
    · cases hj
    · exact h.idleHeld j hj

theorem Inv.onSubscribe {s : St} (h : Inv s) {k : Nat} (hi : s.calls k = .idle) : Inv (s.onSubscribe k) := by
  unfold St.onSubscribe
  split
  · next g hc =>
    split
    · next hd =>
      split
      · next hdd =>
        refine h.lost hi fun j hj => ?_
        obtain ⟨x, hx, hm, _⟩ := h.inCur hj
        rw [hc] at hx; cases hx
        rw [((h.dead g).1 hdd).2] at hm; cases hm
      · next hdd => exact h.join hi hc hd (by simpa using hdd)
    · next hd =>
      refine h.create hi fun x hx => ?_
      rcases h.old x hx with h1 | h1
      · rw [hc] at h1; cases h1; simpa using hd
      · exact h1
  · next hc =>
    refine h.create hi fun x hx => ?_
    rcases h.old x hx with h1 | h1
    · rw [hc] at h1; cases h1
    · exact h1

theorem Inv.fall {s : St} (h : Inv s) {g : Nat} (hd : s.dead g = true) (hn : s.down g = false) :
    Inv ({ s with down := fun x => if x = g then true else s.down x }.emit (.down g)) := by
  obtain ⟨hg, hm⟩ := (h.dead g).1 hd
  have hcur : s.cur = some g := by
    rcases h.old g hg with h1 | h1
    · exact h1
    · rw [hn] at h1; cases h1
  have hnl : ∀ j, ¬ Live s.log j := fun j hj => by
    obtain ⟨x, hx, hxm, _⟩ := h.inCur hj
    rw [hcur] at hx; cases hx; rw [hm] at hxm; cases hxm
  have hok : Ok s.log (.down g) := by
    obtain ⟨k, hk, _⟩ := h.creator g hg
    exact ⟨⟨k, hk⟩, hnl, fun hh => by rw [(h.down g).2 hh] at hn; cases hn⟩
  have hsub : ∀ j x b, Ev.sub j x b ∈ s.log ++ [Ev.down g] ↔ Ev.sub j x b ∈ s.log := by simp
  have hcn : ∀ x, Ev.conn x ∈ s.log ++ [Ev.down g] ↔ Ev.conn x ∈ s.log := by simp
  have hdn : ∀ x, Ev.down x ∈ s.log ++ [Ev.down g] ↔ Ev.down x ∈ s.log ∨ x = g := by simp
  have hct : ∀ x, Ev.cut x ∈ s.log ++ [Ev.down g] ↔ Ev.cut x ∈ s.log := by simp
  have hrl : ∀ x, Ev.rel x ∈ s.log ++ [Ev.down g] ↔ Ev.rel x ∈ s.log := by simp
  have hcl : Ev.closed ∈ s.log ++ [Ev.down g] ↔ Ev.closed ∈ s.log := by simp
  have hdw : ∀ x, (if x = g then true else s.down x) = true ↔ s.down x = true ∨ x = g := by
    intro x; split <;> simp [*]
  refine ⟨?_, h.cur, ?_, ?_, h.dead, ?_, ?_, ?_, h.memU, h.refM, h.heldM, ?_, ?_, ?_, ?_, ?_, ?_, h.connB, ?_, h.linked, h.linked', ?_, h.legal.snoc hok, h.idleHeld⟩ <;>
    simp only [St.emit, hsub, hcn, hdn, hct, hrl, hcl, hdw]
  · exact h.fresh
  · intro x hx; exact (h.old x hx).imp id .inl
  · intro x; rw [h.down x]
  · rintro x (hx | rfl)
    · exact h.ddead x hx
    · exact hd
  · exact h.memL
  · exact h.uniq
  · exact h.cut
  · exact h.closedL
  · exact h.bound
  · intro x hx
    obtain ⟨j, h1, h2⟩ := h.creator x hx
    exact ⟨j, h1, h2.imp id (.imp .inl id)⟩
  · exact h.one
  · exact h.upS
  · intro x hx; exact (h.connL x hx).imp id .inl
  · intro j x hj; exact (h.srcC j x hj).imp id .inl

theorem Inv.close {s : St} (h : Inv s) : Inv ({ s with ended := true, closed := true }.emit .closed) := by
  have hsub : ∀ j x b, Ev.sub j x b ∈ s.log ++ [Ev.closed] ↔ Ev.sub j x b ∈ s.log := by simp
  have hcn : ∀ x, Ev.conn x ∈ s.log ++ [Ev.closed] ↔ Ev.conn x ∈ s.log := by simp
  have hdn : ∀ x, Ev.down x ∈ s.log ++ [Ev.closed] ↔ Ev.down x ∈ s.log := by simp
  have hct : ∀ x, Ev.cut x ∈ s.log ++ [Ev.closed] ↔ Ev.cut x ∈ s.log := by simp
  have hrl : ∀ x, Ev.rel x ∈ s.log ++ [Ev.closed] ↔ Ev.rel x ∈ s.log := by simp
  refine ⟨?_, h.cur, h.old, ?_, h.dead, h.ddead, ?_, ?_, h.memU, h.refM, h.heldM, ?_, ?_, ?_, ?_, ?_, ?_, h.connB, ?_, h.linked, h.linked', h.srcC, h.legal.snoc trivial, h.idleHeld⟩ <;>
    simp only [St.emit, hsub, hcn, hdn, hct, hrl]
  · exact h.fresh
  · exact h.down
  · exact h.memL
  · exact h.uniq
  · exact h.cut
  · simp
  · exact h.bound
  · intro x hx
    obtain ⟨j, h1, _⟩ := h.creator x hx
    exact ⟨j, h1, .inr (.inr (.inl trivial))⟩
  · exact h.one
  · exact h.upS
  · exact h.connL

theorem Inv.cutting {s : St} (h : Inv s) {g : Nat} (hc : s.closed = true) (hl : Ev.conn g ∈ s.log) (hnd : s.dead g = false) :
    Inv ({ s with mem := fun x => if x = g then [] else s.mem x, dead := fun x => if x = g then true else s.dead x }.emit (.cut g)) := by
  have hg : g < s.next := by
    obtain ⟨pre, post, e⟩ := List.append_of_mem hl
    obtain ⟨⟨j, hj⟩, _⟩ := h.legal pre _ post e
    exact h.bound j g true (by rw [e]; exact List.mem_append_left _ hj)
  have hok : Ok s.log (.cut g) := ⟨h.closedL.1 hc, hl⟩
  have hsub : ∀ j x b, Ev.sub j x b ∈ s.log ++ [Ev.cut g] ↔ Ev.sub j x b ∈ s.log := by simp
  have hcn : ∀ x, Ev.conn x ∈ s.log ++ [Ev.cut g] ↔ Ev.conn x ∈ s.log := by simp
  have hdn : ∀ x, Ev.down x ∈ s.log ++ [Ev.cut g] ↔ Ev.down x ∈ s.log := by simp
  have hct : ∀ x, Ev.cut x ∈ s.log ++ [Ev.cut g] ↔ Ev.cut x ∈ s.log ∨ x = g := by simp
  have hrl : ∀ x, Ev.rel x ∈ s.log ++ [Ev.cut g] ↔ Ev.rel x ∈ s.log := by simp
  have hcl : Ev.closed ∈ s.log ++ [Ev.cut g] ↔ Ev.closed ∈ s.log := by simp
  have hmem : ∀ j x, j ∈ (if x = g then [] else s.mem x) ↔ j ∈ s.mem x ∧ x ≠ g := by
    intro j x; split <;> simp [*]
  have hdd : ∀ x, (if x = g then true else s.dead x) = true ↔ s.dead x = true ∨ x = g := by
    intro x; split <;> simp [*]
  refine ⟨?_, h.cur, h.old, ?_, ?_, ?_, ?_, ?_, ?_, ?_, ?_, ?_, ?_, ?_, ?_, ?_, ?_, h.connB, ?_, h.linked, h.linked', h.srcC, h.legal.snoc hok, h.idleHeld⟩ <;>
    simp only [St.emit, hsub, hcn, hdn, hct, hrl, hcl, hmem, hdd]
  · exact h.fresh
  · exact h.down
  · intro x
    by_cases e : x = g
    · subst e; simp [hg]
    · simp only [if_neg e, e, or_false]; exact h.dead x
  · intro x hx; exact .inl (h.ddead x hx)
  · intro j x; rw [h.memL j x, not_or]
    constructor
    · rintro ⟨⟨a, b, c⟩, d⟩; exact ⟨a, ⟨b, d⟩, c⟩
    · rintro ⟨a, ⟨b, d⟩, c⟩; exact ⟨⟨a, b, c⟩, d⟩
  · exact h.uniq
  · intro x j hj; exact h.memU x j hj.1
  · intro j x hj
    have := h.refM j x hj
    refine ⟨?_, this.2⟩
    by_cases e : x = g
    · exact .inr (.inr e)
    · exact this.1.imp (fun hh => ⟨hh, e⟩) .inl
  · intro j x hj
    have := h.heldM j x hj
    refine ⟨?_, this.2⟩
    by_cases e : x = g
    · exact .inr (.inr e)
    · exact this.1.imp (fun hh => ⟨hh, e⟩) .inl
  · intro x hx; exact hx.imp (h.cut x) id
  · exact h.closedL
  · exact h.bound
  · exact h.creator
  · exact h.one
  · exact h.upS
  · exact h.connL

/-- `connect` takes over the connection (lines 107-110). -/
theorem Inv.link {s : St} (h : Inv s) {k g : Nat} (hc : s.calls k = .link g) (hd : s.isDown s.conn = true) :
    Inv ({ s with conn := some g }.goto k (.src g)) := by
  have hup := h.upS k g (by rw [hc]; rfl)
  have hcd : ∀ x, s.conn = some x → s.down x = true := by
    intro x hx; rw [hx] at hd; exact hd
  refine ⟨?_, h.cur, h.old, h.down, h.dead, h.ddead, h.memL, h.uniq, ?_, ?_, h.heldM, h.cut, h.closedL, h.bound, ?_, h.one, ?_, ?_, ?_, ?_, ?_, ?_, h.legal, ?_⟩ <;>
    simp only [St.goto]
  · intro j hj
    split at hj
    · cases hj
    · exact h.fresh j hj
  · intro x j hj
    rcases h.memU x j hj with h1 | h1
    · split
      · next e => subst e; rw [hc] at h1; cases h1
      · exact .inl h1
    · exact .inr h1
  · intro j x hj
    split at hj
    · cases hj
    · exact h.refM j x hj
  · intro x hx
    obtain ⟨j, h1, h2⟩ := h.creator x hx
    refine ⟨j, h1, ?_⟩
    split
    · next e => subst e; rw [hc] at h2; exact h2
    · exact h2
  · intro j x hj
    split at hj
    · next e => cases hj; subst e; exact hup
    · exact h.upS j x hj
  · intro x hx; cases hx; exact h.bound k g true hup.1
  · intro x hx
    rcases h.connL x hx with h1 | h1
    · exact .inr (hcd x h1)
    · exact .inr h1
  · intro j x hj
    split at hj
    · rcases hj with hj | hj <;> cases hj
    · next e =>
      intro hx; cases hx
      have : (s.calls j).up = some g := by rcases hj with hj | hj <;> rw [hj] <;> rfl
      exact e (h.one j k g (h.upS j g this).1 hup.1)
  · intro j x hj hx
    cases hx
    split at hj
    · next e => rw [if_pos e]
    · next e => exact absurd (h.one j k g (h.upS j g hj).1 hup.1) e
  · intro j x hj
    split at hj
    · cases hj; exact .inl rfl
    · rcases h.srcC j x hj with h1 | h1
      · exact .inr (hcd x h1)
      · exact .inr h1
  · intro j hj
    split at hj
    · cases hj
    · exact h.idleHeld j hj

/-- The source is subscribed (line 113). -/
theorem Inv.src {s : St} (h : Inv s) {k g : Nat} (hc : s.calls k = .src g) (hd : s.down g = false) :
    Inv ((s.goto k .fin).emit (.conn g)) := by
  have hup := h.upS k g (by rw [hc]; rfl)
  have hcg : s.conn = some g := by
    rcases h.srcC k g hc with h1 | h1
    · exact h1
    · rw [hd] at h1; cases h1
  have hok : Ok s.log (.conn g) := by
    refine ⟨⟨k, hup.1⟩, fun hh => (by rw [(h.down g).2 hh] at hd; cases hd), hup.2, fun x hx => ?_⟩
    rcases h.connL x hx with h1 | h1
    · rw [hcg] at h1; cases h1; exact absurd hx hup.2
    · exact (h.down x).1 h1
  have hsub : ∀ j x b, Ev.sub j x b ∈ s.log ++ [Ev.conn g] ↔ Ev.sub j x b ∈ s.log := by simp
  have hcn : ∀ x, Ev.conn x ∈ s.log ++ [Ev.conn g] ↔ Ev.conn x ∈ s.log ∨ x = g := by simp
  have hdn : ∀ x, Ev.down x ∈ s.log ++ [Ev.conn g] ↔ Ev.down x ∈ s.log := by simp
  have hct : ∀ x, Ev.cut x ∈ s.log ++ [Ev.conn g] ↔ Ev.cut x ∈ s.log := by simp
  have hrl : ∀ x, Ev.rel x ∈ s.log ++ [Ev.conn g] ↔ Ev.rel x ∈ s.log := by simp
  have hcl : Ev.closed ∈ s.log ++ [Ev.conn g] ↔ Ev.closed ∈ s.log := by simp
  refine ⟨?_, h.cur, h.old, ?_, h.dead, h.ddead, ?_, ?_, ?_, ?_, h.heldM, ?_, ?_, ?_, ?_, ?_, ?_, h.connB, ?_, ?_, ?_, ?_, h.legal.snoc hok, ?_⟩ <;>
    simp only [St.emit, St.goto, hsub, hcn, hdn, hct, hrl, hcl]
  · intro j hj
    split at hj
    · cases hj
    · exact h.fresh j hj
  · exact h.down
  · exact h.memL
  · exact h.uniq
  · intro x j hj
    rcases h.memU x j hj with h1 | h1
    · split
      · next e => subst e; rw [hc] at h1; cases h1
      · exact .inl h1
    · exact .inr h1
  · intro j x hj
    split at hj
    · cases hj
    · exact h.refM j x hj
  · exact h.cut
  · exact h.closedL
  · exact h.bound
  · intro x hx
    obtain ⟨j, h1, h2⟩ := h.creator x hx
    refine ⟨j, h1, ?_⟩
    split
    · next e =>
      subst e; rw [hc] at h2
      rcases h2 with h2 | h2 | h2 | h2
      · cases h2; exact .inr (.inr (.inr (.inr rfl)))
      · exact .inr (.inl h2)
      · exact .inr (.inr (.inl h2))
      · exact .inr (.inr (.inr (.inl h2)))
    · exact h2.imp id (.imp id (.imp id .inl))
  · exact h.one
  · intro j x hj
    split at hj
    · cases hj
    · next e =>
      have h1 := h.upS j x hj
      refine ⟨h1.1, ?_⟩
      rintro (hh | rfl)
      · exact h1.2 hh
      · exact e (h.one j k x h1.1 hup.1)
  · rintro x (hx | rfl)
    · exact h.connL x hx
    · exact .inl hcg
  · intro j x hj
    split at hj
    · rcases hj with hj | hj <;> cases hj
    · exact h.linked j x hj
  · intro j x hj hx
    split at hj
    · cases hj
    · next e => rw [if_neg e]; exact h.linked' j x hj hx
  · intro j x hj
    split at hj
    · cases hj
    · exact h.srcC j x hj
  · intro j hj
    split at hj
    · cases hj
    · exact h.idleHeld j hj

theorem kill_calls (s : St) (k : Nat) : (s.kill k).calls = s.calls := by
  unfold St.kill St.release St.emit; split
  · dsimp only; split <;> rfl
  · rfl

theorem Inv.step {s : St} (h : Inv s) (l : Lbl) : Inv (step s l) := by
  cases l with
  | sub k =>
    simp only [RefCount.step]; split
    · next hi => exact h.onSubscribe hi
    · exact h
  | gone k =>
    simp only [RefCount.step]; split
    · exact h
    · exact h.kill k
  | fall g =>
    simp only [RefCount.step]; split
    · next hc =>
      simp only [Bool.and_eq_true, Bool.not_eq_true'] at hc
      exact h.fall hc.1 hc.2
    · exact h
  | endSubj =>
    exact ⟨h.fresh, h.cur, h.old, h.down, h.dead, h.ddead, h.memL, h.uniq, h.memU, h.refM, h.heldM, h.cut, h.closedL, h.bound,
      h.creator, h.one, h.upS, h.connB, h.connL, h.linked, h.linked', h.srcC, h.legal, h.idleHeld⟩
  | close =>
    simp only [RefCount.step]; split
    · exact h
    · exact h.close
  | srcEnd g =>
    simp only [RefCount.step]; split
    · next hc =>
      simp only [Bool.and_eq_true, Bool.not_eq_true', decide_eq_true_eq] at hc
      exact h.cutting hc.1.1 hc.1.2 hc.2
    · exact h
  | run k =>
    simp only [RefCount.step]
    split
    · exact h
    · exact h
    · next r up hc =>
      split
      · next g =>
        split
        · have := Inv.release (h.attach hc) (k := k) (g := g) (by simp [St.goto])
          refine (congrArg Inv ?_).mp this
          simp only [St.release, St.goto, St.emit]
          have e : (fun j => if j = k then none else if j = k then some g else s.held j) = (fun j => if j = k then none else s.held j) := by
            funext j; split <;> rfl
          rw [e]; rfl
        · exact h.attach hc
      · refine h.goto (by rw [hc]; simp) (by simp) (by rw [hc]; rfl) rfl (fun g hg => by rw [hc]; exact hg)
          (fun g hg => .inl (by rw [hc] at hg; exact hg)) (fun g hg => by rcases hg with hg | hg <;> cases hg) ?_ (fun g hg => by cases hg)
        intro g hg hcn
        have := h.linked' k g (by rw [hc]; exact hg) hcn
        rw [hc] at this; cases this
    · next up hc =>
      have key : ∀ s1 : St, Inv s1 → s1.calls k = .subj up → Inv (s1.proceed k up) := by
        intro s1 h1 hc1
        cases up with
        | some g =>
          have hcn : s1.conn ≠ some g := fun e => by
            have := h1.linked' k g (by rw [hc1]; rfl) e
            rw [hc1] at this; cases this
          refine h1.goto (by rw [hc1]; simp) (by simp) (by rw [hc1]; rfl) rfl (fun x hx => by rw [hc1]; exact hx)
            (fun x hx => .inl (by rw [hc1] at hx; exact hx)) ?_ ?_ (fun x hx => by cases hx)
          · intro x hx
            rcases hx with hx | hx <;> cases hx
            exact hcn
          · intro x hx e; cases hx; exact absurd e hcn
        | none =>
          refine h1.goto (by rw [hc1]; simp) (by simp) (by rw [hc1]; rfl) rfl (fun x hx => by cases hx)
            (fun x hx => by rw [hc1] at hx; cases hx) ?_ (fun x hx => by cases hx) (fun x hx => by cases hx)
          intro x hx
          rcases hx with hx | hx <;> cases hx
      split
      · exact key _ (h.kill k) (by rw [kill_calls]; exact hc)
      · exact key _ h hc
    · next g hc =>
      split
      · next hd =>
        exact h.goto (by rw [hc]; simp) (by simp) (by rw [hc]; rfl) rfl (fun x hx => by cases hx)
          (fun x hx => by rw [hc] at hx; cases hx; exact .inr (.inl hd)) (fun x hx => by rcases hx with hx | hx <;> cases hx)
          (fun x hx => by cases hx) (fun x hx => by cases hx)
      · have hcn := h.linked k g (.inl hc)
        exact h.goto (by rw [hc]; simp) (by simp) (by rw [hc]; rfl) rfl (fun x hx => by rw [hc]; exact hx)
          (fun x hx => by rw [hc] at hx; exact .inl hx) (fun x hx => by rcases hx with hx | hx <;> cases hx; exact hcn)
          (fun x hx e => by cases hx; exact absurd e hcn) (fun x hx => by cases hx)
    · next g hc =>
      split
      · next hcl =>
        exact h.goto (by rw [hc]; simp) (by simp) (by rw [hc]; rfl) rfl (fun x hx => by cases hx)
          (fun x hx => .inr (.inr (.inl hcl))) (fun x hx => by rcases hx with hx | hx <;> cases hx)
          (fun x hx => by cases hx) (fun x hx => by cases hx)
      · split
        · next hd =>
          -- the previous connection is still up, so this generation is an old one
          refine h.goto (by rw [hc]; simp) (by simp) (by rw [hc]; rfl) rfl (fun x hx => by cases hx)
            ?_ (fun x hx => by rcases hx with hx | hx <;> cases hx)
            (fun x hx => by cases hx) (fun x hx => by cases hx)
          intro x hx
          rw [hc] at hx; cases hx
          have hcn := h.linked k g (.inr hc)
          cases e : s.conn with
          | none => rw [e] at hd; cases hd
          | some y =>
            rw [e] at hd hcn
            have hy := h.connB y e
            have hyc : s.cur = some y := by
              rcases h.old y hy with h1 | h1
              · exact h1
              · simp only [St.isDown] at hd; rw [hd] at h1; cases h1
            have hg : g < s.next := h.bound k g true (h.upS k g (by rw [hc]; rfl)).1
            rcases h.old g hg with h1 | h1
            · rw [hyc] at h1; exact absurd h1 hcn
            · exact .inr (.inl h1)
        · next hd => exact h.link hc (by simpa using hd)
    · next g hc =>
      split
      · next hd =>
        exact h.goto (by rw [hc]; simp) (by simp) (by rw [hc]; rfl) rfl (fun x hx => by cases hx)
          (fun x hx => by rw [hc] at hx; cases hx; exact .inr (.inl hd)) (fun x hx => by rcases hx with hx | hx <;> cases hx)
          (fun x hx => by cases hx) (fun x hx => by cases hx)
      · next hd => exact h.src hc (by simpa using hd)

theorem inv (ls : List Lbl) : Inv (exec ls) := by
  unfold exec
  have : ∀ (ls : List Lbl) (s : St), Inv s → Inv (ls.foldl RefCount.step s) := by
    intro ls
    induction ls with
    | nil => exact fun s h => h
    | cons l ls ih => exact fun s h => ih _ (h.step l)
  exact this ls _ Inv.init

end Rpp.RefCount
