import Verif.Disposable.Owner
import Verif.Scheduler.CurrentThreadProofs

/-!
# Who keeps a disposable alive: C88

`exec ls` is any history of making, copying, weakening, converting, dropping, adding, removing, clearing and disposing wrappers.
-/

namespace Rpp.Owner

theorem split_snoc {γ : Type} {l l1 l2 : List γ} {e x : γ} (h : l ++ [e] = l1 ++ x :: l2) :
    (l2 = [] ∧ x = e ∧ l1 = l) ∨ ∃ l2', l2 = l2' ++ [e] ∧ l = l1 ++ x :: l2' := by
  rcases List.eq_nil_or_concat l2 with rfl | ⟨l2', y, rfl⟩
  · have h2 := List.append_inj' h rfl
    simp at h2
    exact .inl ⟨rfl, h2.2.symm, h2.1.symm⟩
  · have h' : l ++ [e] = (l1 ++ x :: l2') ++ [y] := by simpa using h
    have h2 := List.append_inj' h' rfl
    simp at h2
    exact .inr ⟨l2', by simp [h2.2], h2.1⟩

/-- Somebody disposed `d`: by a wrapper of it, or by way of a composite it was put into. -/
def Called (d : Nat) (pre : List Ev) : Prop :=
  .asked d ∈ pre ∨ ∃ p, .put p d ∈ pre ∧ (.ran p ∈ pre ∨ .cleared p ∈ pre)

theorem Called.mono {d : Nat} {l : List Ev} {e : Ev} (h : Called d l) : Called d (l ++ [e]) := by
  rcases h with h | ⟨p, h1, h2⟩
  · exact .inl (by simp [h])
  · exact .inr ⟨p, by simp [h1], by rcases h2 with h | h <;> simp [h]⟩

/-- What the logs satisfy (for the proofs); models no code. -/
def Ok (pre : List Ev) : Ev → Prop
  | .ran d => .ran d ∉ pre ∧ (Called d pre ∨ .gone d ∈ pre)
  | .gone d => .gone d ∉ pre
  | .put p d => p ≠ d ∧ .ran p ∉ pre ∧ .ran d ∉ pre
  | _ => True

/-- What the logs satisfy (for the proofs); models no code. -/
def AllOk (log : List Ev) : Prop := ∀ pre e post, log = pre ++ e :: post → Ok pre e

theorem AllOk.snoc {log : List Ev} {e : Ev} (h : AllOk log) (he : Ok log e) : AllOk (log ++ [e]) := by
  intro pre x post hx
  rcases split_snoc hx with ⟨_, rfl, rfl⟩ | ⟨l2', _, h2⟩
  · exact he
  · exact h _ _ _ h2

/-- Used in the statements and proofs of this file; models no code. -/
def Ref.of : Ref → Option Nat
  | .empty => none
  | .strong d | .weak d => some d

/-- Invariant of the proofs; models no code. -/
structure Inv (s : St) : Prop where
  fresh : ∀ d, s.next ≤ d → s.alive d = false ∧ s.disp d = false ∧ s.kids d = [] ∧ .gone d ∉ s.log
  vstr : ∀ d, .strong d ∈ s.vars → s.alive d = true
  kstr : ∀ p d, .strong d ∈ s.kids p → s.alive d = true
  tstr : ∀ d, .strong d ∈ s.todo → s.alive d = true
  dispk : ∀ d, s.disp d = true → s.kids d = []
  ran : ∀ d, s.disp d = true ↔ .ran d ∈ s.log
  gone : ∀ d, d < s.next → (s.alive d = false ↔ .gone d ∈ s.log)
  dead : ∀ d, .gone d ∈ s.log → s.disp d = true
  kput : ∀ p r d, r ∈ s.kids p → r.of = some d → .put p d ∈ s.log
  why : ∀ r d, r ∈ s.todo → r.of = some d → Called d s.log
  ok : AllOk s.log

theorem inv0 : Inv {} := by
  constructor <;> (try simp)
  intro pre e post h; simp at h

theorem held_iff {s : St} (h : Inv s) (d : Nat) :
    held s d = true ↔ .strong d ∈ s.vars ∨ (∃ p, .strong d ∈ s.kids p) ∨ .strong d ∈ s.todo := by
  simp only [held, Bool.or_eq_true, List.any_eq_true, List.contains_iff_mem, List.mem_range]
  constructor
  · rintro ((h | ⟨p, _, h⟩) | h)
    · exact .inl h
    · exact .inr (.inl ⟨p, h⟩)
    · exact .inr (.inr h)
  · rintro (h' | ⟨p, h'⟩ | h')
    · exact .inl (.inl h')
    · refine .inl (.inr ⟨p, ?_, h'⟩)
      apply Classical.byContradiction
      intro hp
      rw [(h.fresh p (by omega)).2.2.1] at h'
      cases h'
    · exact .inr h'

theorem lock_of {s : St} {r : Ref} {d : Nat} (h : s.lock r = some d) : r.of = some d := by
  cases r with
  | empty => simp [St.lock] at h
  | strong x => simpa [St.lock, Ref.of] using h
  | weak x =>
    simp only [St.lock] at h
    split at h
    · simpa [Ref.of] using h
    · cases h

theorem lock_alive {s : St} {r : Ref} {d : Nat} (h : s.lock r = some d) (hr : ∀ x, r = .strong x → s.alive x = true) :
    s.alive d = true := by
  cases r with
  | empty => simp [St.lock] at h
  | strong x => simp [St.lock] at h; subst h; exact hr x rfl
  | weak x =>
    simp only [St.lock] at h
    split at h
    · cases h; assumption
    · cases h

theorem var_mem {s : St} {v d : Nat} (h : s.var v = .strong d) : Ref.strong d ∈ s.vars := by
  unfold St.var at h
  cases hv : s.vars[v]? with
  | none => rw [hv] at h; cases h
  | some r => rw [hv] at h; simp at h; exact h ▸ List.mem_of_getElem? hv

/-- Only the variables change, and only to what is there already. -/
theorem Inv.vars {s : St} (h : Inv s) {vs : List Ref} (hv : ∀ d, .strong d ∈ vs → s.alive d = true) : Inv { s with vars := vs } :=
  ⟨h.fresh, hv, h.kstr, h.tstr, h.dispk, h.ran, h.gone, h.dead, h.kput, h.why, h.ok⟩

/-- The log grows by an event that is not a disposal nor a destruction. -/
theorem Inv.quiet {s : St} (h : Inv s) {e : Ev} (he : (∀ d, e ≠ .ran d) ∧ ∀ d, e ≠ .gone d)
    (hput : ∀ p d, e = .put p d → p ≠ d ∧ .ran p ∉ s.log ∧ .ran d ∉ s.log := by intro _ _ h; cases h) : Inv (s.say e) := by
  obtain ⟨h1, h2, h3, h4, h5, h6, h7, h8, h9, h10, h11⟩ := h
  have er : ∀ d, Ev.ran d ∈ s.log ++ [e] ↔ Ev.ran d ∈ s.log := fun d => by simp [Ne.symm (he.1 d)]
  have eg : ∀ d, Ev.gone d ∈ s.log ++ [e] ↔ Ev.gone d ∈ s.log := fun d => by simp [Ne.symm (he.2 d)]
  constructor <;> simp only [St.say, er, eg] <;> first | assumption | skip
  · intro p r d hr hd; simp [h9 p r d hr hd]
  · intro r d hr hd; exact (h10 r d hr hd).mono
  · refine h11.snoc ?_
    cases e with
    | ran d => exact absurd rfl (he.1 d)
    | gone d => exact absurd rfl (he.2 d)
    | put p d => exact hput p d rfl
    | _ => trivial

theorem Inv.ask {s : St} (h : Inv s) {r : Ref} (hr : ∀ d, r = .strong d → s.alive d = true) : Inv (askDispose s r) := by
  unfold askDispose
  split
  · rename_i d hd
    have hq : Inv (s.say (.asked d)) := h.quiet ⟨by simp, by simp⟩
    obtain ⟨h1, h2, h3, h4, h5, h6, h7, h8, h9, h10, h11⟩ := hq
    refine ⟨h1, h2, h3, ?_, h5, h6, h7, h8, h9, ?_, h11⟩
    · intro x hx
      simp only [St.say, List.mem_append, List.mem_singleton] at hx
      rcases hx with hx | hx
      · exact h4 x hx
      · cases hx; exact lock_alive hd hr
    · intro q x hq hx
      simp only [St.say, List.mem_append, List.mem_singleton] at hq
      rcases hq with hq | rfl
      · exact h10 q x hq hx
      · simp only [Ref.of] at hx
        cases hx
        exact .inl (by simp [St.say])
  · exact h

theorem Inv.obj {s : St} (h : Inv s) {d : Nat} (hd : d < s.next) (hw : Called d s.log ∨ .gone d ∈ s.log) :
    Inv (disposeObj s d) := by
  unfold disposeObj
  split
  · exact h
  · rename_i hdisp
    obtain ⟨h1, h2, h3, h4, h5, h6, h7, h8, h9, h10, h11⟩ := h
    have eg : ∀ x, Ev.gone x ∈ s.log ++ [.ran d] ↔ Ev.gone x ∈ s.log := fun x => by simp
    have hk : ∀ p r, r ∈ set s.kids d [] p → r ∈ s.kids p := by
      intro p r hr
      simp only [set] at hr
      split at hr
      · cases hr
      · exact hr
    constructor <;> simp only [St.say, eg] <;> first | assumption | skip
    · intro x hx
      obtain ⟨a, b, c, e⟩ := h1 x hx
      have : x ≠ d := by omega
      exact ⟨a, by simp [set, this, b], by simp [set, this, c], e⟩
    · exact fun p x hx => h3 p x (hk p _ hx)
    · intro x hx
      simp only [List.mem_append] at hx
      rcases hx with hx | hx
      · exact h4 x hx
      · exact h3 d x hx
    · intro x hx
      simp only [set] at hx ⊢
      split
      · rfl
      · rename_i hne; rw [if_neg hne] at hx; exact h5 x hx
    · intro x
      by_cases hx : x = d
      · subst hx; simp [set]
      · simp [set, hx, h6 x]
    · intro x hx
      simp only [set]
      split
      · rfl
      · exact h8 x hx
    · intro p r x hr hx
      simp [h9 p r x (hk p r hr) hx]
    · intro r x hr hx
      simp only [List.mem_append] at hr
      rcases hr with hr | hr
      · exact (h10 r x hr hx).mono
      · exact .inr ⟨d, by simp [h9 d r x hr hx], .inl (by simp)⟩
    · exact h11.snoc ⟨fun hc => hdisp ((h6 d).2 hc), hw⟩

theorem step_inv {s : St} (h : Inv s) (l : Lbl) : Inv (step s l) := by
  cases l with
  | make c =>
    have hq : Inv (s.say (.made s.next)) := h.quiet ⟨by simp, by simp⟩
    obtain ⟨h1, h2, h3, h4, h5, h6, h7, h8, h9, h10, h11⟩ := hq
    have hal : ∀ d, s.alive d = true → set s.alive s.next true d = true := by
      intro d hd; simp only [set]; split <;> simp [hd]
    simp only [step]
    refine ⟨?_, ?_, fun p d hd => hal d (h3 p d hd), fun d hd => hal d (h4 d hd), h5, h6, ?_, h8, h9, h10, h11⟩
    · intro d hd
      simp only [St.say] at hd ⊢
      obtain ⟨a, b, c', e⟩ := h1 d (by simp only [St.say]; omega)
      have : d ≠ s.next := by omega
      exact ⟨by simp only [set, if_neg this]; exact a, b, c', e⟩
    · intro d hd
      simp only [St.say, List.mem_append, List.mem_singleton] at hd
      rcases hd with hd | hd
      · exact hal d (h2 d hd)
      · cases hd; simp [St.say, set]
    · intro d hd
      simp only [St.say] at hd ⊢
      by_cases e : d = s.next
      · subst e
        have := (h.fresh s.next (Nat.le_refl _)).2.2.2
        simp [set, this]
      · simp only [set, if_neg e]
        exact h7 d (by simp only [St.say]; omega)
  | copy u =>
    refine h.vars fun d hd => ?_
    simp only [List.mem_append, List.mem_singleton] at hd
    rcases hd with hd | hd
    · exact h.vstr d hd
    · exact h.vstr d (var_mem hd.symm)
  | weaken u =>
    refine h.vars fun d hd => ?_
    simp only [List.mem_append, List.mem_singleton] at hd
    rcases hd with hd | hd
    · exact h.vstr d hd
    · cases hu : s.var u <;> rw [hu] at hd <;> simp [Ref.asWeak] at hd
  | conv u =>
    refine h.vars fun d hd => ?_
    simp only [List.mem_append, List.mem_singleton] at hd
    rcases hd with hd | hd
    · exact h.vstr d hd
    · simp only [St.convert] at hd
      split at hd
      · cases hd
      · exact h.vstr d (var_mem hd.symm)
  | assign v u =>
    refine h.vars fun d hd => ?_
    rcases List.mem_or_eq_of_mem_set hd with hd | hd
    · exact h.vstr d hd
    · exact h.vstr d (var_mem hd.symm)
  | drop v =>
    refine h.vars fun d hd => ?_
    rcases List.mem_or_eq_of_mem_set hd with hd | hd
    · exact h.vstr d hd
    · cases hd
  | dispose v => exact h.ask fun d hd => h.vstr d (var_mem hd)
  | add v u =>
    have hask := h.ask (r := s.var u) fun d hd => h.vstr d (var_mem hd)
    simp only [step]
    split
    · exact hask
    · rename_i p hp
      split
      · split
        · exact h
        · rename_i hsame
          split
          · exact hask
          · rename_i hdp
            split
            · rename_i d hd
              have hq : Inv (s.say (.put p d)) := h.quiet ⟨by simp, by simp⟩ (by
                intro p' d' he
                cases he
                simp only [St.isDisposed, hd, Bool.or_eq_true, not_or, beq_iff_eq, Option.some.injEq] at hsame
                exact ⟨fun e => hsame.2 e.symm, fun hc => hdp ((h.ran p).2 hc), fun hc => hsame.1 ((h.ran d).2 hc)⟩)
              have hpn : p < s.next := by
                apply Classical.byContradiction
                intro hc
                have := lock_alive hp fun x hx => h.vstr x (var_mem hx)
                rw [(h.fresh p (by omega)).1] at this
                cases this
              obtain ⟨h1, h2, h3, h4, h5, h6, h7, h8, h9, h10, h11⟩ := hq
              have hk : ∀ q r, r ∈ set s.kids p (s.kids p ++ [s.var u]) q → r ∈ s.kids q ∨ (q = p ∧ r = s.var u) := by
                intro q r hr
                simp only [set] at hr
                split at hr
                · rename_i e
                  subst e
                  simp at hr
                  rcases hr with hr | hr
                  · exact .inl hr
                  · exact .inr ⟨rfl, hr⟩
                · exact .inl hr
              refine ⟨?_, h2, ?_, h4, ?_, h6, h7, h8, ?_, h10, h11⟩
              · intro x hx
                obtain ⟨a, b, c, e⟩ := h1 x hx
                have : x ≠ p := by simp only [St.say] at hx; omega
                exact ⟨a, b, by simp only [St.say, set, if_neg this]; exact c, e⟩
              · intro q x hx
                rcases hk q _ hx with hx | ⟨_, hx⟩
                · exact h3 q x hx
                · exact h.vstr x (var_mem hx.symm)
              · intro x hx
                have : x ≠ p := fun e => hdp (e ▸ hx)
                simp only [St.say, set, if_neg this]
                exact h5 x hx
              · intro q r x hr hx
                rcases hk q _ hr with hr | ⟨rfl, rfl⟩
                · exact h9 q r x hr hx
                · have := lock_of hd
                  rw [hx] at this
                  cases this
                  simp [St.say]
            · exact h
      · exact h
  | remove v u =>
    simp only [step]
    split
    · rename_i p hp
      split
      · exact h
      · rename_i hdp
        have h' : Inv { s with kids := set s.kids p ((s.kids p).filter fun r => s.lock r != s.lock (s.var u)) } := by
          obtain ⟨h1, h2, h3, h4, h5, h6, h7, h8, h9, h10, h11⟩ := h
          have hk : ∀ q r, r ∈ set s.kids p ((s.kids p).filter fun r => s.lock r != s.lock (s.var u)) q → r ∈ s.kids q := by
            intro q r hr
            simp only [set] at hr
            split at hr
            · rename_i e; subst e; exact (List.mem_filter.1 hr).1
            · exact hr
          refine ⟨?_, h2, fun q d hd => h3 q d (hk q _ hd), h4, ?_, h6, h7, h8, fun q r d hr => h9 q r d (hk q r hr), h10, h11⟩
          · intro x hx
            obtain ⟨a, b, c, e⟩ := h1 x hx
            refine ⟨a, b, ?_, e⟩
            simp only [set]
            split
            · rename_i e; subst e; rw [c]; rfl
            · exact c
          · intro x hx
            have : x ≠ p := fun e => hdp (e ▸ hx)
            simp only [set, if_neg this]
            exact h5 x hx
        split
        · exact h'.quiet ⟨by simp, by simp⟩
        · exact h'
    · exact h
  | clear v =>
    simp only [step]
    split
    · rename_i p hp
      split
      · exact h
      · rename_i hdp
        have hq : Inv (s.say (.cleared p)) := h.quiet ⟨by simp, by simp⟩
        obtain ⟨h1, h2, h3, h4, h5, h6, h7, h8, h9, h10, h11⟩ := hq
        have hk : ∀ q r, r ∈ set s.kids p [] q → r ∈ s.kids q := by
          intro q r hr
          simp only [set] at hr
          split at hr
          · cases hr
          · exact hr
        refine ⟨?_, h2, fun q d hd => h3 q d (hk q _ hd), ?_, ?_, h6, h7, h8, fun q r d hr => h9 q r d (hk q r hr), ?_, h11⟩
        · intro x hx
          obtain ⟨a, b, c, e⟩ := h1 x hx
          refine ⟨a, b, ?_, e⟩
          simp only [St.say, set]
          split
          · rfl
          · exact c
        · intro x hx
          simp only [St.say, List.mem_append] at hx
          rcases hx with hx | hx
          · exact h4 x hx
          · exact h3 p x hx
        · intro x hx
          have : x ≠ p := fun e => hdp (e ▸ hx)
          simp only [St.say, set, if_neg this]
          exact h5 x hx
        · intro r x hr hx
          simp only [St.say, List.mem_append] at hr
          rcases hr with hr | hr
          · exact h10 r x hr hx
          · exact .inr ⟨p, h9 p r x hr hx, .inr (by simp [St.say])⟩
    · exact h
  | work i =>
    simp only [step]
    split
    · rename_i r hr
      have hm := List.mem_of_getElem? hr
      have h' : Inv { s with todo := s.todo.eraseIdx i } :=
        ⟨h.fresh, h.vstr, h.kstr, fun d hd => h.tstr d (List.mem_of_mem_eraseIdx hd), h.dispk, h.ran, h.gone, h.dead, h.kput,
          fun q d hq => h.why q d (List.mem_of_mem_eraseIdx hq), h.ok⟩
      split
      · rename_i d hd
        refine h'.obj ?_ (.inl (h.why r d hm (lock_of hd)))
        apply Classical.byContradiction
        intro hc
        have := lock_alive hd fun x hx => h.tstr x (hx ▸ hm)
        rw [(h.fresh d (by simp only at hc; omega)).1] at this
        cases this
      · exact h'
    · exact h
  | destroy d =>
    simp only [step]
    split
    · rename_i hc
      simp only [Bool.and_eq_true, Bool.not_eq_true'] at hc
      obtain ⟨hal, hheld⟩ := hc
      have hno : ¬ (.strong d ∈ s.vars ∨ (∃ p, .strong d ∈ s.kids p) ∨ .strong d ∈ s.todo) := by
        rw [← held_iff h]; simp [hheld]
      have hdn : d < s.next := by
        apply Classical.byContradiction
        intro hc
        rw [(h.fresh d (by omega)).1] at hal
        cases hal
      have hng : Ev.gone d ∉ s.log := by
        intro hg
        rw [(h.gone d hdn).2 hg] at hal
        cases hal
      -- the object is disposed as a part of this step: consider that first
      have key : ∀ x, x ≠ d → s.alive x = true → set s.alive d false x = true := by
        intro x hx ha; simp [set, hx, ha]
      have hx1 : ∀ x, Ref.strong x ∈ s.vars → x ≠ d := fun x hx e => hno (.inl (e ▸ hx))
      have hx2 : ∀ p x, Ref.strong x ∈ s.kids p → x ≠ d := fun p x hx e => hno (.inr (.inl ⟨p, e ▸ hx⟩))
      have hx3 : ∀ x, Ref.strong x ∈ s.todo → x ≠ d := fun x hx e => hno (.inr (.inr (e ▸ hx)))
      obtain ⟨h1, h2, h3, h4, h5, h6, h7, h8, h9, h10, h11⟩ := h
      unfold disposeObj
      by_cases hdisp : s.disp d = true
      · simp only [St.say, hdisp, if_true]
        have eg : ∀ x, Ev.gone x ∈ s.log ++ [.gone d] ↔ Ev.gone x ∈ s.log ∨ x = d := fun x => by simp
        have er : ∀ x, Ev.ran x ∈ s.log ++ [.gone d] ↔ Ev.ran x ∈ s.log := fun x => by simp
        constructor <;> simp only [eg, er] <;> first | assumption | skip
        · intro x hx
          obtain ⟨a, b, c, e⟩ := h1 x hx
          have : x ≠ d := by omega
          exact ⟨by simp [set, a], b, c, by simp [e, this]⟩
        · exact fun x hx => key x (hx1 x hx) (h2 x hx)
        · exact fun p x hx => key x (hx2 p x hx) (h3 p x hx)
        · exact fun x hx => key x (hx3 x hx) (h4 x hx)
        · intro x hx
          simp only [set]
          by_cases e : x = d
          · simp [e]
          · simp only [if_neg e, e, or_false]; exact h7 x hx
        · rintro x (hx | rfl)
          · exact h8 x hx
          · exact hdisp
        · intro p r x hr hx; simp [h9 p r x hr hx]
        · intro r x hr hx; exact (h10 r x hr hx).mono
        · exact h11.snoc (e := .gone d) hng
      · simp only [St.say, hdisp, Bool.false_eq_true, if_false]
        have eg : ∀ x, Ev.gone x ∈ s.log ++ [.gone d] ++ [.ran d] ↔ Ev.gone x ∈ s.log ∨ x = d := fun x => by simp
        have er : ∀ x, Ev.ran x ∈ s.log ++ [.gone d] ++ [.ran d] ↔ Ev.ran x ∈ s.log ∨ x = d := fun x => by simp
        have hk : ∀ p r, r ∈ set s.kids d [] p → r ∈ s.kids p := by
          intro p r hr
          simp only [set] at hr
          split at hr
          · cases hr
          · exact hr
        constructor <;> simp only [eg, er] <;> first | assumption | skip
        · intro x hx
          obtain ⟨a, b, c, e⟩ := h1 x hx
          have : x ≠ d := by omega
          exact ⟨by simp [set, a], by simp [set, this, b], by simp [set, c], by simp [e, this]⟩
        · exact fun x hx => key x (hx1 x hx) (h2 x hx)
        · exact fun p x hx => key x (hx2 p x (hk p _ hx)) (h3 p x (hk p _ hx))
        · intro x hx
          simp only [List.mem_append] at hx
          rcases hx with hx | hx
          · exact key x (hx3 x hx) (h4 x hx)
          · exact key x (hx2 d x hx) (h3 d x hx)
        · intro x hx
          simp only [set] at hx ⊢
          split
          · rfl
          · rename_i hne; rw [if_neg hne] at hx; exact h5 x hx
        · intro x
          by_cases hx : x = d
          · subst hx; simp [set]
          · simp [set, hx, h6 x]
        · intro x hx
          simp only [set]
          by_cases e : x = d
          · simp [e]
          · simp only [if_neg e, e, or_false]; exact h7 x hx
        · rintro x (hx | rfl)
          · simp only [set]
            split
            · rfl
            · exact h8 x hx
          · simp [set]
        · intro p r x hr hx; simp [h9 p r x (hk p r hr) hx]
        · intro r x hr hx
          simp only [List.mem_append] at hr
          rcases hr with hr | hr
          · exact ((h10 r x hr hx).mono).mono
          · exact .inr ⟨d, by simp [h9 d r x hr hx], .inl (by simp)⟩
        · refine (h11.snoc (e := .gone d) hng).snoc ⟨?_, .inr (by simp)⟩
          intro hc
          simp at hc
          exact hdisp ((h6 d).2 hc)
    · exact h

/-! ## Nothing is forgotten -/

/-- `d` is disposed, or a call of its `dispose()` is under way. -/
def Pend (s : St) (d : Nat) : Prop := s.disp d = true ∨ ∃ r ∈ s.todo, r.of = some d

/-- Used in the statements and proofs of this file; models no code. -/
def InSt (s : St) (r : Ref) : Prop := r ∈ s.vars ∨ (∃ p, r ∈ s.kids p) ∨ r ∈ s.todo

/-- Invariant of the proofs; models no code. -/
structure Inv2 (s : St) : Prop where
  lt : ∀ r d, InSt s r → r.of = some d → d < s.next
  askd : ∀ d, .asked d ∈ s.log → Pend s d
  putd : ∀ p d, .put p d ∈ s.log → .removed p d ∈ s.log ∨ (∃ r ∈ s.kids p, r.of = some d) ∨ Pend s d
  clrd : ∀ pre post p d, s.log = pre ++ .cleared p :: post → .put p d ∈ pre → .removed p d ∈ pre ∨ Pend s d

theorem inv20 : Inv2 {} := by
  constructor <;> simp [InSt]

theorem asWeak_of (r : Ref) : r.asWeak.of = r.of := by cases r <;> rfl

theorem convert_of {s : St} {r : Ref} {d : Nat} (h : (s.convert r).of = some d) : r.of = some d := by
  simp only [St.convert] at h
  split at h
  · cases h
  · exact h

theorem var_lt {s : St} (h2 : Inv2 s) {v d : Nat} (h : (s.var v).of = some d) : d < s.next := by
  unfold St.var at h
  cases hv : s.vars[v]? with
  | none => rw [hv] at h; cases h
  | some r => rw [hv] at h; exact h2.lt r d (.inl (List.mem_of_getElem? hv)) h

theorem Inv2.vars {s : St} (h : Inv2 s) {vs : List Ref} (hv : ∀ r d, r ∈ vs → r.of = some d → d < s.next) : Inv2 { s with vars := vs } :=
  ⟨fun r d hr hd => by
    rcases hr with hr | hr | hr
    · exact hv r d hr hd
    · exact h.lt r d (.inr (.inl hr)) hd
    · exact h.lt r d (.inr (.inr hr)) hd, h.askd, h.putd, h.clrd⟩

/-- An event that is no `asked`, `put` or `cleared`. -/
theorem Inv2.say {s : St} (h : Inv2 s) {e : Ev} (he : (∀ d, e ≠ .asked d) ∧ (∀ p d, e ≠ .put p d) ∧ ∀ p, e ≠ .cleared p) :
    Inv2 (s.say e) := by
  obtain ⟨h1, h2, h3, h4⟩ := h
  refine ⟨h1, ?_, ?_, ?_⟩
  · intro d hd
    simp only [St.say, List.mem_append, List.mem_singleton, Ne.symm (he.1 d), or_false] at hd
    exact h2 d hd
  · intro p d hd
    simp only [St.say, List.mem_append, List.mem_singleton, Ne.symm (he.2.1 p d), or_false] at hd
    rcases h3 p d hd with h | h
    · exact .inl (by simp [St.say, h])
    · exact .inr h
  · intro pre post p d hl hp
    rcases split_snoc hl with ⟨_, hx, _⟩ | ⟨l2, _, hl⟩
    · exact absurd hx.symm (he.2.2 p)
    · exact h4 pre l2 p d hl hp

theorem Inv2.ask {s : St} (h : Inv2 s) {r : Ref} (hr : ∀ d, r.of = some d → d < s.next) : Inv2 (askDispose s r) := by
  unfold askDispose
  split
  · rename_i d hd
    obtain ⟨h1, h2, h3, h4⟩ := h
    have hP : ∀ x, Pend s x → Pend (St.say { s with todo := s.todo ++ [Ref.strong d] } (.asked d)) x := by
      rintro x (hx | ⟨q, hq, hx⟩)
      · exact .inl hx
      · exact .inr ⟨q, by simp [St.say, hq], hx⟩
    refine ⟨?_, ?_, ?_, ?_⟩
    · rintro q x (hq | hq | hq) hx
      · exact h1 q x (.inl hq) hx
      · exact h1 q x (.inr (.inl hq)) hx
      · simp only [St.say, List.mem_append, List.mem_singleton] at hq
        rcases hq with hq | rfl
        · exact h1 q x (.inr (.inr hq)) hx
        · cases hx; exact hr d (lock_of hd)
    · intro x hx
      simp only [St.say, List.mem_append, List.mem_singleton, Ev.asked.injEq] at hx
      rcases hx with hx | rfl
      · exact hP x (h2 x hx)
      · exact .inr ⟨.strong x, by simp [St.say], rfl⟩
    · intro p x hx
      simp only [St.say, List.mem_append, List.mem_singleton, reduceCtorEq, or_false] at hx ⊢
      rcases h3 p x hx with h | h | h
      · exact .inl h
      · exact .inr (.inl h)
      · exact .inr (.inr (hP x h))
    · intro pre post p x hl hp
      rcases split_snoc hl with ⟨_, hx, _⟩ | ⟨l2, _, hl⟩
      · cases hx
      · exact (h4 pre l2 p x hl hp).imp_right (hP x)
  · exact h

theorem Inv2.obj {s : St} (h : Inv2 s) (d : Nat) :
    Inv2 (disposeObj s d) ∧ (∀ x, Pend s x → Pend (disposeObj s d) x) ∧ (disposeObj s d).disp d = true := by
  unfold disposeObj
  split
  · rename_i hd
    exact ⟨h, fun _ h => h, hd⟩
  · obtain ⟨h1, h2, h3, h4⟩ := h
    have hP : ∀ x, Pend s x → Pend (St.say { s with disp := set s.disp d true, todo := s.todo ++ s.kids d, kids := set s.kids d [] } (.ran d)) x := by
      rintro x (hx | ⟨q, hq, hx⟩)
      · refine .inl ?_
        simp only [St.say, set]
        split
        · rfl
        · exact hx
      · exact .inr ⟨q, by simp [St.say, hq], hx⟩
    refine ⟨⟨?_, ?_, ?_, ?_⟩, hP, by simp [St.say, set]⟩
    · rintro q x (hq | ⟨p, hq⟩ | hq) hx
      · exact h1 q x (.inl hq) hx
      · simp only [St.say, set] at hq
        split at hq
        · cases hq
        · exact h1 q x (.inr (.inl ⟨p, hq⟩)) hx
      · simp only [St.say, List.mem_append] at hq
        rcases hq with hq | hq
        · exact h1 q x (.inr (.inr hq)) hx
        · exact h1 q x (.inr (.inl ⟨d, hq⟩)) hx
    · intro x hx
      simp only [St.say, List.mem_append, List.mem_singleton, reduceCtorEq, or_false] at hx
      exact hP x (h2 x hx)
    · intro p x hx
      simp only [St.say, List.mem_append, List.mem_singleton, reduceCtorEq, or_false] at hx ⊢
      rcases h3 p x hx with h | ⟨r, hr, hrx⟩ | h
      · exact .inl h
      · by_cases e : p = d
        · subst e
          exact .inr (.inr (.inr ⟨r, by simp [hr], hrx⟩))
        · exact .inr (.inl ⟨r, by simp only [set, if_neg e]; exact hr, hrx⟩)
      · exact .inr (.inr (hP x h))
    · intro pre post p x hl hp
      rcases split_snoc hl with ⟨_, hx, _⟩ | ⟨l2, _, hl⟩
      · cases hx
      · exact (h4 pre l2 p x hl hp).imp_right (hP x)

/-- A reference to an object that is gone. -/
theorem lost {s : St} (i : Inv s) (h2 : Inv2 s) {r : Ref} {d : Nat} (hr : InSt s r) (hd : r.of = some d) (hl : s.lock r ≠ some d) :
    s.disp d = true := by
  have hn := h2.lt r d hr hd
  cases r with
  | empty => cases hd
  | strong x => cases hd; exact absurd rfl hl
  | weak x =>
    cases hd
    simp only [St.lock] at hl
    split at hl
    · exact absurd rfl hl
    · rename_i ha
      simp only [Bool.not_eq_true] at ha
      exact i.dead d ((i.gone d hn).1 ha)

theorem Inv2.erase {s : St} (h : Inv2 s) {n : Nat} {r : Ref} (hr : s.todo[n]? = some r) (hd : ∀ x, r.of = some x → s.disp x = true) :
    Inv2 { s with todo := s.todo.eraseIdx n } := by
  have hP : ∀ x, Pend s x → Pend { s with todo := s.todo.eraseIdx n } x := by
    rintro x (hx | ⟨q, hq, hx⟩)
    · exact .inl hx
    · obtain ⟨j, hj, rfl⟩ := List.mem_iff_getElem.1 hq
      by_cases e : j = n
      · subst e
        rw [List.getElem?_eq_getElem hj] at hr
        cases hr
        exact .inl (hd x hx)
      · exact .inr ⟨_, List.mem_eraseIdx_iff_getElem.2 ⟨j, hj, e, rfl⟩, hx⟩
  obtain ⟨h1, h2, h3, h4⟩ := h
  refine ⟨?_, fun x hx => hP x (h2 x hx), fun p x hx => ?_, fun pre post p x hl hp => (h4 pre post p x hl hp).imp_right (hP x)⟩
  · rintro q x (hq | hq | hq) hx
    · exact h1 q x (.inl hq) hx
    · exact h1 q x (.inr (.inl hq)) hx
    · exact h1 q x (.inr (.inr (List.mem_of_mem_eraseIdx hq))) hx
  · rcases h3 p x hx with h | h | h
    · exact .inl h
    · exact .inr (.inl h)
    · exact .inr (.inr (hP x h))

theorem step_inv2 {s : St} (i : Inv s) (h : Inv2 s) (l : Lbl) : Inv2 (step s l) := by
  cases l with
  | make c =>
    have hq : Inv2 (s.say (.made s.next)) := h.say ⟨by simp, by simp, by simp⟩
    obtain ⟨h1, h2, h3, h4⟩ := hq
    refine ⟨?_, h2, h3, h4⟩
    rintro r d (hr | hr | hr) hd
    · simp only [step, St.say, List.mem_append, List.mem_singleton] at hr ⊢
      rcases hr with hr | rfl
      · have := h.lt r d (.inl hr) hd; omega
      · cases hd; omega
    · have := h.lt r d (.inr (.inl hr)) hd
      simp only [step, St.say]; omega
    · have := h.lt r d (.inr (.inr hr)) hd
      simp only [step, St.say]; omega
  | copy u =>
    refine h.vars fun r d hr hd => ?_
    simp only [List.mem_append, List.mem_singleton] at hr
    rcases hr with hr | rfl
    · exact h.lt r d (.inl hr) hd
    · exact var_lt h hd
  | weaken u =>
    refine h.vars fun r d hr hd => ?_
    simp only [List.mem_append, List.mem_singleton] at hr
    rcases hr with hr | rfl
    · exact h.lt r d (.inl hr) hd
    · exact var_lt h (asWeak_of _ ▸ hd)
  | conv u =>
    refine h.vars fun r d hr hd => ?_
    simp only [List.mem_append, List.mem_singleton] at hr
    rcases hr with hr | rfl
    · exact h.lt r d (.inl hr) hd
    · exact var_lt h (convert_of hd)
  | assign v u =>
    refine h.vars fun r d hr hd => ?_
    rcases List.mem_or_eq_of_mem_set hr with hr | rfl
    · exact h.lt r d (.inl hr) hd
    · exact var_lt h hd
  | drop v =>
    refine h.vars fun r d hr hd => ?_
    rcases List.mem_or_eq_of_mem_set hr with hr | rfl
    · exact h.lt r d (.inl hr) hd
    · cases hd
  | dispose v => exact h.ask fun d hd => var_lt h hd
  | add v u =>
    have hask := h.ask (r := s.var u) fun d hd => var_lt h hd
    simp only [step]
    split
    · exact hask
    · rename_i p hp
      split
      · split
        · exact h
        · split
          · exact hask
          · split
            · rename_i d hd
              obtain ⟨h1, h2, h3, h4⟩ := h
              have hd' := lock_of hd
              have hup : s.var u ∈ set s.kids p (s.kids p ++ [s.var u]) p := by simp [set]
              have hk : ∀ q r, r ∈ set s.kids p (s.kids p ++ [s.var u]) q → r ∈ s.kids q ∨ (q = p ∧ r = s.var u) := by
                intro q r hr
                simp only [set] at hr
                split at hr
                · rename_i e
                  subst e
                  simp at hr
                  rcases hr with hr | hr
                  · exact .inl hr
                  · exact .inr ⟨rfl, hr⟩
                · exact .inl hr
              have hk' : ∀ q r, r ∈ s.kids q → r ∈ set s.kids p (s.kids p ++ [s.var u]) q := by
                intro q r hr
                simp only [set]
                split
                · rename_i e; subst e; simp [hr]
                · exact hr
              refine ⟨?_, ?_, ?_, ?_⟩
              · rintro r x (hr | ⟨q, hr⟩ | hr) hx
                · exact h1 r x (.inl hr) hx
                · rcases hk q r hr with hr | ⟨_, rfl⟩
                  · exact h1 r x (.inr (.inl ⟨q, hr⟩)) hx
                  · exact var_lt ⟨h1, h2, h3, h4⟩ hx
                · exact h1 r x (.inr (.inr hr)) hx
              · intro x hx
                simp only [St.say, List.mem_append, List.mem_singleton, reduceCtorEq, or_false] at hx
                exact h2 x hx
              · intro q x hx
                simp only [St.say, List.mem_append, List.mem_singleton, reduceCtorEq, or_false, Ev.put.injEq] at hx ⊢
                rcases hx with hx | ⟨rfl, rfl⟩
                · rcases h3 q x hx with h | ⟨r, hr, hrx⟩ | h
                  · exact .inl h
                  · exact .inr (.inl ⟨r, hk' q r hr, hrx⟩)
                  · exact .inr (.inr h)
                · exact .inr (.inl ⟨_, hup, hd'⟩)
              · intro pre post q x hl hq
                rcases split_snoc hl with ⟨_, hx, _⟩ | ⟨l2, _, hl⟩
                · cases hx
                · exact h4 pre l2 q x hl hq
            · exact h
      · exact h
  | remove v u =>
    simp only [step]
    split
    · rename_i p hp
      split
      · exact h
      · have hk : ∀ q r, r ∈ set s.kids p ((s.kids p).filter fun r => s.lock r != s.lock (s.var u)) q → r ∈ s.kids q := by
          intro q r hr
          simp only [set] at hr
          split at hr
          · rename_i e; subst e; exact (List.mem_filter.1 hr).1
          · exact hr
        have hk' : ∀ q r d, r ∈ s.kids q → r.of = some d →
            r ∈ set s.kids p ((s.kids p).filter fun r => s.lock r != s.lock (s.var u)) q ∨
            (q = p ∧ s.lock (s.var u) = some d) ∨ s.disp d = true := by
          intro q r d hr hd
          by_cases e : q = p
          · subst e
            by_cases hl : s.lock r = s.lock (s.var u)
            · by_cases hl' : s.lock r = some d
              · exact .inr (.inl ⟨rfl, hl ▸ hl'⟩)
              · exact .inr (.inr (lost i h (.inr (.inl ⟨q, hr⟩)) hd hl'))
            · left
              simp only [set, if_true, List.mem_filter, bne_iff_ne, ne_eq]
              exact ⟨hr, hl⟩
          · left; simp only [set, if_neg e]; exact hr
        obtain ⟨h1, h2, h3, h4⟩ := h
        have hlt : ∀ r x, InSt { s with kids := set s.kids p ((s.kids p).filter fun r => s.lock r != s.lock (s.var u)) } r →
            r.of = some x → x < s.next := by
          rintro r x (hr | ⟨q, hr⟩ | hr) hx
          · exact h1 r x (.inl hr) hx
          · exact h1 r x (.inr (.inl ⟨q, hk q r hr⟩)) hx
          · exact h1 r x (.inr (.inr hr)) hx
        split
        · rename_i d hd
          refine ⟨hlt, ?_, ?_, ?_⟩
          · intro x hx
            simp only [St.say, List.mem_append, List.mem_singleton, reduceCtorEq, or_false] at hx
            exact h2 x hx
          · intro q x hx
            simp only [St.say, List.mem_append, List.mem_singleton, reduceCtorEq, or_false, Ev.removed.injEq] at hx ⊢
            rcases h3 q x hx with h | ⟨r, hr, hrx⟩ | h
            · exact .inl (.inl h)
            · rcases hk' q r x hr hrx with h | ⟨h, h'⟩ | h
              · exact .inr (.inl ⟨r, h, hrx⟩)
              · rw [hd] at h'; cases h'; exact .inl (.inr ⟨h, rfl⟩)
              · exact .inr (.inr (.inl h))
            · exact .inr (.inr h)
          · intro pre post q x hl hq
            rcases split_snoc hl with ⟨_, hx, _⟩ | ⟨l2, _, hl⟩
            · cases hx
            · exact h4 pre l2 q x hl hq
        · rename_i hd
          refine ⟨hlt, h2, ?_, h4⟩
          intro q x hx
          rcases h3 q x hx with h | ⟨r, hr, hrx⟩ | h
          · exact .inl h
          · rcases hk' q r x hr hrx with h | ⟨h, h'⟩ | h
            · exact .inr (.inl ⟨r, h, hrx⟩)
            · rw [hd] at h'; cases h'
            · exact .inr (.inr (.inl h))
          · exact .inr (.inr h)
    · exact h
  | clear v =>
    simp only [step]
    split
    · rename_i p hp
      split
      · exact h
      · obtain ⟨h1, h2, h3, h4⟩ := h
        have hP : ∀ x, Pend s x → Pend (St.say { s with todo := s.todo ++ s.kids p, kids := set s.kids p [] } (.cleared p)) x := by
          rintro x (hx | ⟨q, hq, hx⟩)
          · exact .inl hx
          · exact .inr ⟨q, by simp [St.say, hq], hx⟩
        refine ⟨?_, ?_, ?_, ?_⟩
        · rintro q x (hq | ⟨p', hq⟩ | hq) hx
          · exact h1 q x (.inl hq) hx
          · simp only [St.say, set] at hq
            split at hq
            · cases hq
            · exact h1 q x (.inr (.inl ⟨p', hq⟩)) hx
          · simp only [St.say, List.mem_append] at hq
            rcases hq with hq | hq
            · exact h1 q x (.inr (.inr hq)) hx
            · exact h1 q x (.inr (.inl ⟨p, hq⟩)) hx
        · intro x hx
          simp only [St.say, List.mem_append, List.mem_singleton, reduceCtorEq, or_false] at hx
          exact hP x (h2 x hx)
        · intro q x hx
          simp only [St.say, List.mem_append, List.mem_singleton, reduceCtorEq, or_false] at hx ⊢
          rcases h3 q x hx with h | ⟨r, hr, hrx⟩ | h
          · exact .inl h
          · by_cases e : q = p
            · subst e
              exact .inr (.inr (.inr ⟨r, by simp [hr], hrx⟩))
            · exact .inr (.inl ⟨r, by simp only [set, if_neg e]; exact hr, hrx⟩)
          · exact .inr (.inr (hP x h))
        · intro pre post q x hl hq
          rcases split_snoc hl with ⟨_, hx, rfl⟩ | ⟨l2, _, hl⟩
          · cases hx
            rcases h3 p x hq with h | ⟨r, hr, hrx⟩ | h
            · exact .inl h
            · exact .inr (.inr ⟨r, by simp [St.say, hr], hrx⟩)
            · exact .inr (hP x h)
          · exact (h4 pre l2 q x hl hq).imp_right (hP x)
    · exact h
  | work n =>
    simp only [step]
    split
    · rename_i r hr
      have hm := List.mem_of_getElem? hr
      split
      · rename_i d hd
        obtain ⟨hi, _, hdd⟩ := h.obj d
        have hn : n < s.todo.length := (List.getElem?_eq_some_iff.1 hr).1
        have e : disposeObj { s with todo := s.todo.eraseIdx n } d =
            { disposeObj s d with todo := (disposeObj s d).todo.eraseIdx n } := by
          unfold disposeObj
          by_cases hd' : s.disp d = true
          · simp only [hd', if_true]
          · simp only [hd', Bool.false_eq_true, if_false, St.say, List.eraseIdx_append_of_lt_length hn]
        rw [e]
        refine hi.erase (r := r) ?_ ?_
        · unfold disposeObj
          split
          · exact hr
          · simp only [St.say]
            rw [List.getElem?_append_left hn]
            exact hr
        · intro x hx
          rw [lock_of hd] at hx
          cases hx
          exact hdd
      · rename_i hd
        exact h.erase hr fun x hx => lost i h (.inr (.inr hm)) hx (by rw [hd]; simp)
    · exact h
  | destroy d =>
    simp only [step]
    split
    · have h' : Inv2 ({ s with alive := set s.alive d false }.say (.gone d)) :=
        Inv2.say (s := { s with alive := set s.alive d false }) ⟨h.lt, h.askd, h.putd, h.clrd⟩ ⟨by simp, by simp, by simp⟩
      exact (h'.obj d).1
    · exact h

theorem exec_snoc (ls : List Lbl) (l : Lbl) : exec (ls ++ [l]) = step (exec ls) l := by simp [exec]

theorem exec_inv (ls : List Lbl) : Inv (exec ls) := by
  refine Sched.snoc_ind (P := fun ls => Inv (exec ls)) inv0 ?_ ls
  intro ls l h
  rw [exec_snoc]
  exact step_inv h l

theorem exec_inv2 (ls : List Lbl) : Inv2 (exec ls) := by
  refine Sched.snoc_ind (P := fun ls => Inv2 (exec ls)) inv20 ?_ ls
  intro ls l h
  rw [exec_snoc]
  exact step_inv2 (exec_inv ls) h l

/-- A composite (0) holding a callback (1) strongly and another (2) weakly; the user drops the callback's wrappers, then the composite's;
2 is kept alive by the user. -/
def demo : List Lbl :=
  [.make true, .make false, .make false, .add 0 1, .weaken 2, .add 0 3, .drop 1, .drop 0, .destroy 0, .work 0, .work 0, .destroy 1]

theorem demo_log : (exec demo).log =
    [.made 0, .made 1, .made 2, .put 0 1, .put 0 2, .gone 0, .ran 0, .ran 1, .ran 2, .gone 1] := by decide

/-- **C88** (once, and only with a reason): a disposable is disposed at most once, and only if `dispose()` was called on it, or a
composite it had been put into was disposed or cleared, or its last strong reference was gone. -/
theorem C88_once (ls : List Lbl) (pre post : List Ev) (d : Nat) (h : (exec ls).log = pre ++ .ran d :: post) :
    .ran d ∉ pre ∧ (.asked d ∈ pre ∨ (∃ p, .put p d ∈ pre ∧ (.ran p ∈ pre ∨ .cleared p ∈ pre)) ∨ .gone d ∈ pre) := by
  obtain ⟨h1, h2⟩ := (exec_inv ls).ok pre _ post h
  refine ⟨h1, ?_⟩
  rcases h2 with (h2 | h2) | h2
  · exact .inl h2
  · exact .inr (.inl h2)
  · exact .inr (.inr h2)

/-- **C88** (kept alive): what can be got at from a wrapper through strong references is not destroyed. -/
theorem C88_kept (ls : List Lbl) (d : Nat) (h : Reach (exec ls) d) : .gone d ∉ (exec ls).log := by
  have i := exec_inv ls
  have ha : (exec ls).alive d = true := by
    cases h with
    | var h => exact i.vstr d h
    | kid _ h => exact i.kstr _ d h
  have hd : d < (exec ls).next := by
    apply Classical.byContradiction
    intro hc
    rw [(i.fresh d (by omega)).1] at ha
    cases ha
  intro hg
  rw [(i.gone d hd).2 hg] at ha
  cases ha

example : Reach (exec (demo.take 7)) 1 := .kid (p := 0) (.var (by decide)) (by decide)

/-- **C88** (destroyed is disposed): a disposable that is destroyed has been disposed. -/
theorem C88_destroyed (ls : List Lbl) (d : Nat) (h : .gone d ∈ (exec ls).log) : .ran d ∈ (exec ls).log :=
  ((exec_inv ls).ran d).1 ((exec_inv ls).dead d h)

theorem pend_done {s : St} (i : Inv s) (ht : s.todo = []) {d : Nat} (h : Pend s d) : .ran d ∈ s.log := by
  rcases h with h | ⟨r, hr, _⟩
  · exact (i.ran d).1 h
  · rw [ht] at hr; cases hr

/-- **C88** (asked for): when no `dispose()` call is under way, all that `dispose()` was called for is disposed. -/
theorem C88_asked (ls : List Lbl) (ht : (exec ls).todo = []) (d : Nat) (h : .asked d ∈ (exec ls).log) : .ran d ∈ (exec ls).log :=
  pend_done (exec_inv ls) ht ((exec_inv2 ls).askd d h)

/-- **C88** (what is stored): a composite stores neither itself nor what is disposed already, and stores nothing once it is disposed. -/
theorem C88_stored (ls : List Lbl) (p d : Nat) (pre post : List Ev) (h : (exec ls).log = pre ++ .put p d :: post) :
    p ≠ d ∧ .ran p ∉ pre ∧ .ran d ∉ pre := (exec_inv ls).ok _ _ _ h

/-- A composite is added to itself, then a disposed one to it: neither is stored; then one that is. -/
example : (exec [.make true, .make false, .make false, .add 0 0, .dispose 1, .work 0, .add 0 1, .add 0 2]).log =
    [.made 0, .made 1, .made 2, .asked 1, .ran 1] ++ .put 0 2 :: [] := by decide

/-- **C88** (children): when no `dispose()` call is under way, all that was put into a composite that is disposed is disposed, unless it
was removed from it.  Weak references make no difference. -/
theorem C88_children (ls : List Lbl) (ht : (exec ls).todo = []) (p d : Nat) (hp : .put p d ∈ (exec ls).log)
    (h : .ran p ∈ (exec ls).log) : .ran d ∈ (exec ls).log ∨ .removed p d ∈ (exec ls).log := by
  have i := exec_inv ls
  rcases (exec_inv2 ls).putd p d hp with h' | ⟨r, hr, _⟩ | h'
  · exact .inr h'
  · rw [i.dispk p ((i.ran p).2 h)] at hr; cases hr
  · exact .inl (pend_done i ht h')

/-- **C88** (cleared): likewise for what was in a composite when it was cleared. -/
theorem C88_cleared (ls : List Lbl) (ht : (exec ls).todo = []) (p d : Nat) (pre post : List Ev)
    (h : (exec ls).log = pre ++ .cleared p :: post) (hp : .put p d ∈ pre) : .ran d ∈ (exec ls).log ∨ .removed p d ∈ pre := by
  rcases (exec_inv2 ls).clrd pre post p d h hp with h' | h'
  · exact .inr h'
  · exact .inl (pend_done (exec_inv ls) ht h')

/-- Nothing is under way at the end of `demo`, 0 was disposed and contained 1 and 2. -/
example : (exec demo).todo = [] ∧ .put 0 2 ∈ (exec demo).log ∧ .ran 0 ∈ (exec demo).log := by decide

/-- A composite with two children, one is removed, then the composite is cleared and a second child disposed by the user. -/
example : (exec [.make true, .make false, .make false, .add 0 1, .add 0 2, .remove 0 2, .clear 0, .work 0, .dispose 2, .work 0]).log =
    [.made 0, .made 1, .made 2, .put 0 1, .put 0 2, .removed 0 2, .cleared 0, .ran 1, .asked 2, .ran 2] := by decide

/-- **C88** (late): what is added to a composite that is disposed or gone is disposed (`C88_asked`). -/
theorem C88_late (ls : List Lbl) (v u p d : Nat) (hv : (exec ls).vars[v]? = some (.strong p) ∨ (exec ls).vars[v]? = some (.weak p))
    (hc : (exec ls).comp p = true) (hp : .ran p ∈ (exec ls).log) (hu : (exec ls).vars[u]? = some (.strong d))
    (hd : .ran d ∉ (exec ls).log) : .asked d ∈ (exec (ls ++ [.add v u])).log := by
  have i := exec_inv ls
  rw [exec_snoc]
  generalize exec ls = s at *
  have hpd := (i.ran p).2 hp
  have hdd : s.disp d = false := by
    cases h : s.disp d with
    | false => rfl
    | true => exact absurd ((i.ran d).1 h) hd
  have hne : d ≠ p := fun e => by rw [e, hpd] at hdd; cases hdd
  have hlu : s.lock (s.var u) = some d := by simp [St.var, hu, St.lock]
  have hask : .asked d ∈ (askDispose s (s.var u)).log := by simp [askDispose, hlu, St.say]
  have hlv : s.lock (s.var v) = some p ∨ s.lock (s.var v) = none := by
    rcases hv with hv | hv
    · simp [St.var, hv, St.lock]
    · simp only [St.var, hv, St.lock, Option.getD_some]
      split
      · exact .inl rfl
      · exact .inr rfl
  rcases hlv with hlv | hlv
  · simp [step, hlv, hc, St.isDisposed, hlu, hdd, hne, hpd, hask]
  · simp [step, hlv, hask]

example : let s := exec [.make true, .make false, .weaken 0, .drop 0, .destroy 0]
    s.vars[2]? = some (.weak 0) ∧ s.comp 0 = true ∧ .ran 0 ∈ s.log ∧ s.vars[1]? = some (.strong 1) ∧ .ran 1 ∉ s.log := by decide

/-- **C88** (in part): as soon as nothing is under way, every disposable that cannot be got at from a wrapper any more is disposed and
destroyed, weak wrappers notwithstanding.  Missing: composites that contain each other (`C88_cycle_refutes`). -/
theorem C88_released_partial (ls : List Lbl) (hq : Quiet (exec ls)) (ha : Acyclic (exec ls)) (d : Nat)
    (hm : d < (exec ls).next) (hr : ¬ Reach (exec ls) d) : .ran d ∈ (exec ls).log ∧ .gone d ∈ (exec ls).log := by
  have i := exec_inv ls
  have hdead : (exec ls).alive d = false := by
    cases hc : (exec ls).alive d with
    | false => rfl
    | true =>
      exfalso
      apply hr
      obtain ⟨rank, hrank⟩ := ha
      have key : ∀ n x, rank x = n → (exec ls).alive x = true → Reach (exec ls) x := by
        intro n
        induction n using Nat.strongRecOn with
        | ind n ih =>
          intro x hx hax
          rcases (held_iff i x).1 (hq.2 x hax) with h | ⟨p, h⟩ | h
          · exact .var h
          · have hp : (exec ls).alive p = true := by
              cases hpa : (exec ls).alive p with
              | true => rfl
              | false =>
                by_cases hpn : p < (exec ls).next
                · have := i.dispk p (i.dead p ((i.gone p hpn).1 hpa))
                  rw [this] at h; cases h
                · rw [(i.fresh p (by omega)).2.2.1] at h; cases h
            exact .kid (ih (rank p) (by rw [← hx]; exact hrank p x h) p rfl hp) h
          · rw [hq.1] at h; cases h
      exact key _ d rfl hc
  have hg := (i.gone d hm).1 hdead
  exact ⟨C88_destroyed ls d hg, hg⟩

/-- The hypotheses are met: everything but 2 is gone. -/
example : Quiet (exec demo) ∧ Acyclic (exec demo) ∧ 1 < (exec demo).next ∧ ¬ Reach (exec demo) 1 := by
  have hk : ∀ p, (exec demo).kids p = [] := by
    intro p
    by_cases hp : p < 3
    · have : p = 0 ∨ p = 1 ∨ p = 2 := by omega
      rcases this with rfl | rfl | rfl <;> decide
    · exact ((exec_inv demo).fresh p (by show 3 ≤ p; omega)).2.2.1
  refine ⟨⟨by decide, ?_⟩, ⟨fun _ => 0, ?_⟩, by decide, ?_⟩
  · intro d hd
    by_cases hp : d < 3
    · have : d = 0 ∨ d = 1 ∨ d = 2 := by omega
      rcases this with rfl | rfl | rfl
      · exact absurd hd (by decide)
      · exact absurd hd (by decide)
      · decide
    · rw [((exec_inv demo).fresh d (by show 3 ≤ d; omega)).1] at hd; cases hd
  · intro p d h; rw [hk p] at h; cases h
  · intro h
    cases h with
    | var h => exact absurd h (by decide)
    | kid _ h => rw [hk] at h; cases h

/-- Two composites that contain each other: the user drops both, nothing is ever disposed. -/
theorem C88_cycle_refutes : ∃ ls d, Quiet (exec ls) ∧ d < (exec ls).next ∧ ¬ Reach (exec ls) d ∧ .ran d ∉ (exec ls).log := by
  refine ⟨[.make true, .make true, .add 0 1, .add 1 0, .drop 0, .drop 1], 0, ⟨by decide, ?_⟩, by decide, ?_, by decide⟩
  · intro d hd
    by_cases hp : d < 2
    · have : d = 0 ∨ d = 1 := by omega
      rcases this with rfl | rfl <;> decide
    · rw [((exec_inv _).fresh d (by show 2 ≤ d; omega)).1] at hd; cases hd
  · have : ∀ x, ¬ Reach (exec [.make true, .make true, .add 0 1, .add 1 0, .drop 0, .drop 1]) x := by
      intro x hx
      induction hx with
      | var h =>
        have hv : (exec [.make true, .make true, .add 0 1, .add 1 0, .drop 0, .drop 1]).vars = [.empty, .empty] := by decide
        rw [hv] at h; simp at h
      | kid _ _ ih => exact ih
    exact this 0

end Rpp.Owner
