import Verif.Subject.Spec

namespace Rpp.Subj

variable {α ε σ : Type} [DecidableEq α] [DecidableEq ε]

theorem touch_cases (s : St α ε σ) (k : Nat) (f : UserSt α ε → UserSt α ε) :
    s.touch k f = { s with obs := fun j => if j = k then f (s.obs k) else s.obs j } ∨
    ∃ l, s.phase = .live l ∧ Out.released k ∈ (f (s.obs k)).log ∧
      s.touch k f = { s with
        obs := fun j => if j = k then f (s.obs k) else s.obs j
        phase := .live (l.filter fun j =>
          j ≠ k ∧ (if j = k then f (s.obs k) else s.obs j).disposed = false) } := by
  unfold St.touch; dsimp only
  by_cases h : Out.released k ∈ (f (s.obs k)).log ∧ Out.released k ∉ (s.obs k).log
  · rw [if_pos h]
    cases hp : s.phase with
    | live l => exact .inr ⟨l, rfl, h.1, rfl⟩
    | _ => exact .inl rfl
  · rw [if_neg h]; exact .inl rfl

theorem touch_obs (s : St α ε σ) (k j : Nat) (f : UserSt α ε → UserSt α ε) :
    (s.touch k f).obs j = if j = k then f (s.obs k) else s.obs j := by
  rcases touch_cases s k f with h | ⟨l, _, _, h⟩ <;> rw [h]

theorem touch_rest (s : St α ε σ) (k : Nat) (f : UserSt α ε → UserSt α ε) :
    (s.touch k f).down = s.down ∧ (s.touch k f).subs = s.subs ∧ (s.touch k f).store = s.store := by
  rcases touch_cases s k f with h | ⟨l, _, _, h⟩ <;> rw [h] <;> exact ⟨rfl, rfl, rfl⟩

theorem touch_phase (s : St α ε σ) (k : Nat) (f : UserSt α ε → UserSt α ε) :
    (s.touch k f).phase = s.phase ∨ ∃ l, s.phase = .live l ∧ Out.released k ∈ (f (s.obs k)).log ∧
      (s.touch k f).phase =
        .live (l.filter fun j => j ≠ k ∧ ((s.touch k f).obs j).disposed = false) := by
  rcases touch_cases s k f with h | ⟨l, h1, h2, h⟩
  · rw [h]; exact .inl rfl
  · rw [h]; exact .inr ⟨l, h1, h2, rfl⟩

/-- Invariant; `x` is an observer that is just being subscribed. -/
structure InvX (x : Option Nat) (s : St α ε σ) : Prop where
  nodup : ∀ l, s.phase = .live l → l.Nodup
  sub : ∀ l, s.phase = .live l → ∀ k ∈ l, k ∈ s.subs
  all : ∀ l, s.phase = .live l → ∀ k ∈ s.subs, (s.obs k).disposed = false → k ∈ l ∨ x = some k
  obs : ∀ k, UInv (s.obs k)
  fresh : ∀ k, k ∉ s.subs → s.obs k = {}
  out : ∀ l, s.phase = .live l → ∀ k, x = some k → k ∉ l

/-- Invariant of the proofs; models no code. -/
abbrev Inv (s : St α ε σ) : Prop := InvX none s

theorem Inv.all' {s : St α ε σ} (h : Inv s) {l : List Nat} (hl : s.phase = .live l) {k : Nat} (hk : k ∈ s.subs)
    (hd : (s.obs k).disposed = false) : k ∈ l := by
  rcases h.all l hl k hk hd with h | h
  · exact h
  · cases h

theorem released_disposed {u : UserSt α ε} (h : UInv u) {k : Nat} (hr : Out.released k ∈ u.log) :
    u.disposed = true := by
  cases hd : u.disposed with
  | true => rfl
  | false =>
    have := (h.live hd).1
    have hm : k ∈ relsOf u.log := by
      generalize u.log = l at hr
      induction l with
      | nil => cases hr
      | cons o l ih =>
        cases o with
        | ev c => rcases List.mem_cons.1 hr with h' | h'
                  · cases h'
                  · exact ih h'
        | released d => rcases List.mem_cons.1 hr with h' | h'
                        · cases h'; exact List.mem_cons_self
                        · exact List.mem_cons_of_mem _ (ih h')
    rw [this] at hm; cases hm

theorem InvX.touch {x : Option Nat} {s : St α ε σ} (h : InvX x s) {k : Nat} (hk : k ∈ s.subs)
    {f : UserSt α ε → UserSt α ε} (hf : UInv (f (s.obs k)))
    (hst : (s.obs k).disposed = true → (f (s.obs k)).disposed = true) : InvX x (s.touch k f) := by
  obtain ⟨h1, h2, h3, h4, h5, h6⟩ := h
  obtain ⟨_, hs, _⟩ := touch_rest s k f
  have hobs : ∀ j, ((s.touch k f).obs j).disposed = false → (s.obs j).disposed = false := by
    intro j hj
    rw [touch_obs] at hj
    split at hj
    · rename_i e; subst e
      cases hd : (s.obs j).disposed with
      | false => rfl
      | true => rw [hst hd] at hj; cases hj
    · exact hj
  refine ⟨?_, ?_, ?_, ?_, ?_, ?_⟩
  · intro l hl
    rcases touch_phase s k f with e | ⟨l', e, _, e'⟩
    · exact h1 l (e ▸ hl)
    · rw [e'] at hl; cases hl; exact (h1 _ e).filter _
  · intro l hl j hj
    rw [hs]
    rcases touch_phase s k f with e | ⟨l', e, _, e'⟩
    · exact h2 l (e ▸ hl) j hj
    · rw [e'] at hl; cases hl; exact h2 _ e j (List.mem_filter.1 hj).1
  · intro l hl j hj hd
    rw [hs] at hj
    rcases touch_phase s k f with e | ⟨l', e, hr, e'⟩
    · exact h3 l (e ▸ hl) j hj (hobs j hd)
    · rw [e'] at hl; cases hl
      rcases h3 _ e j hj (hobs j hd) with hm | hm
      · refine .inl (List.mem_filter.2 ⟨hm, ?_⟩)
        simp only [decide_eq_true_eq]
        refine ⟨?_, hd⟩
        rintro rfl
        rw [touch_obs, if_pos rfl, released_disposed hf hr] at hd
        cases hd
      · exact .inr hm
  · intro j; rw [touch_obs]; split
    · exact hf
    · exact h4 j
  · intro j hj
    rw [hs] at hj
    rw [touch_obs, if_neg (fun e : j = k => hj (e ▸ hk))]
    exact h5 j hj
  · intro l hl j hj
    rcases touch_phase s k f with e | ⟨l', e, _, e'⟩
    · exact h6 l (e ▸ hl) j hj
    · rw [e'] at hl; cases hl; exact fun hm => h6 _ e j hj (List.mem_filter.1 hm).1

theorem InvX.call {x : Option Nat} {C : Cfg α ε σ} {s : St α ε σ} (h : InvX x s) {k : Nat} (hk : k ∈ s.subs)
    (c : Call α ε) : InvX x (s.call C k c) :=
  h.touch hk ((h.obs k).call c) (fun hd => by
    have := userObs_lawful (cap := C.cap) (ov := C.ov) (react := C.react k)
    have := this.stays (s.obs k) c (by simp [hd])
    simpa using this)

theorem call_obs (C : Cfg α ε σ) (s : St α ε σ) (k j : Nat) (c : Call α ε) :
    (s.call C k c).obs j =
      if j = k then (userObs C.cap C.ov (C.react k)).call c (s.obs k) else s.obs j := touch_obs ..

theorem call_rest (C : Cfg α ε σ) (s : St α ε σ) (k : Nat) (c : Call α ε) :
    (s.call C k c).down = s.down ∧ (s.call C k c).subs = s.subs ∧ (s.call C k c).store = s.store :=
  touch_rest ..

/-- The kind of a phase: running, or how it ended. -/
def Phase.over : Phase ε → Option (Option (Term ε))
  | .live _ => none
  | .failed e => some (some (.error e))
  | .completed => some (some .completed)
  | .disposed => some none

theorem touch_over (s : St α ε σ) (k : Nat) (f : UserSt α ε → UserSt α ε) :
    (s.touch k f).phase.over = s.phase.over := by
  rcases touch_phase s k f with e | ⟨l, e, _, e'⟩
  · rw [e]
  · rw [e, e']; rfl

theorem call_over (C : Cfg α ε σ) (s : St α ε σ) (k : Nat) (c : Call α ε) :
    (s.call C k c).phase.over = s.phase.over := touch_over ..

theorem callAll_rest (C : Cfg α ε σ) (c : Call α ε) (l : List Nat) (s : St α ε σ) :
    (s.callAll C c l).down = s.down ∧ (s.callAll C c l).subs = s.subs ∧ (s.callAll C c l).store = s.store ∧
    (s.callAll C c l).phase.over = s.phase.over := by
  induction l generalizing s with
  | nil => exact ⟨rfl, rfl, rfl, rfl⟩
  | cons k l ih =>
    have h1 := ih (s.call C k c)
    have h2 := call_rest C s k c
    exact ⟨h1.1.trans h2.1, h1.2.1.trans h2.2.1, h1.2.2.1.trans h2.2.2, h1.2.2.2.trans (call_over ..)⟩

theorem callAll_obs (C : Cfg α ε σ) (c : Call α ε) (l : List Nat) (hl : l.Nodup) (s : St α ε σ) (j : Nat) :
    (s.callAll C c l).obs j =
      if j ∈ l then (userObs C.cap C.ov (C.react j)).call c (s.obs j) else s.obs j := by
  induction l generalizing s with
  | nil => rfl
  | cons k l ih =>
    show ((s.call C k c).callAll C c l).obs j = _
    rw [ih (List.nodup_cons.1 hl).2, call_obs]
    have := (List.nodup_cons.1 hl).1
    by_cases hjk : j = k
    · subst hjk; simp [this]
    · simp [hjk]

theorem InvX.callAll {x : Option Nat} {C : Cfg α ε σ} (c : Call α ε) (l : List Nat) {s : St α ε σ} (h : InvX x s)
    (hl : ∀ k ∈ l, k ∈ s.subs) : InvX x (s.callAll C c l) := by
  induction l generalizing s with
  | nil => exact h
  | cons k l ih =>
    refine ih (h.call (hl k List.mem_cons_self) c) fun j hj => ?_
    rw [(call_rest ..).2.1]
    exact hl j (List.mem_cons_of_mem _ hj)

theorem calls_obs (C : Cfg α ε σ) (k : Nat) (vs : List α) (s : St α ε σ) (j : Nat) :
    (vs.foldl (fun s v => s.call C k (.next v)) s).obs j =
      if j = k then (userObs C.cap C.ov (C.react k)).run (s.obs k) (vs.map .next) else s.obs j := by
  induction vs generalizing s with
  | nil => simp; intro h; rw [h]
  | cons v vs ih =>
    rw [List.foldl_cons, ih, call_obs]
    by_cases h : j = k <;> simp [h, call_obs]

theorem calls_rest (C : Cfg α ε σ) (k : Nat) (vs : List α) (s : St α ε σ) :
    let s' := vs.foldl (fun s v => s.call C k (.next v)) s
    s'.down = s.down ∧ s'.subs = s.subs ∧ s'.store = s.store ∧ s'.phase.over = s.phase.over := by
  induction vs generalizing s with
  | nil => exact ⟨rfl, rfl, rfl, rfl⟩
  | cons v vs ih =>
    have h1 := ih (s.call C k (.next v))
    have h2 := call_rest C s k (.next v)
    exact ⟨h1.1.trans h2.1, h1.2.1.trans h2.2.1, h1.2.2.1.trans h2.2.2, h1.2.2.2.trans (call_over ..)⟩

theorem InvX.calls {x : Option Nat} {C : Cfg α ε σ} {k : Nat} (vs : List α) {s : St α ε σ} (h : InvX x s)
    (hk : k ∈ s.subs) : InvX x (vs.foldl (fun s v => s.call C k (.next v)) s) := by
  induction vs generalizing s with
  | nil => exact h
  | cons v vs ih => exact ih (h.call hk _) (by rw [(call_rest ..).2.1]; exact hk)

/-! ## Whole operations -/

/-- A state between operations: it is down exactly when it has ended. -/
structure Settled (s : St α ε σ) : Prop where
  inv : Inv s
  down : s.down = s.phase.over.isSome
  /-- after a terminal event all observers are finished -/
  fin : ∀ t, s.phase.over = some (some t) → ∀ k ∈ s.subs, (s.obs k).disposed = true

theorem disposed_of_term {u : UserSt α ε} {cap ov react} (c : Call α ε) (hc : c.isTerm = true) :
    ((userObs cap ov react).call c u).disposed = true := by
  have := (userObs_lawful (cap := cap) (ov := ov) (react := react)).term u c hc
  simpa using this

theorem Settled.callAll_fin {C : Cfg α ε σ} {s : St α ε σ} (h : Settled s) {l : List Nat}
    (hl : s.phase = .live l) {c : Call α ε} (hc : c.isTerm = true) {ph : Phase ε} (hph : ph.over.isSome = true) :
    let s' := (St.callAll C c l { s with phase := ph }).disposeSubject
    Settled s' ∧ s'.subs = s.subs ∧ s'.store = s.store ∧ s'.phase.over = ph.over ∧
    ∀ j, s'.obs j = if j ∈ l then (userObs C.cap C.ov (C.react j)).call c (s.obs j) else s.obs j := by
  obtain ⟨hinv, h6, h7⟩ := h
  have h3 := fun l hl k => Inv.all' hinv (l := l) hl (k := k)
  obtain ⟨h1, h2, _, h4, h5, _⟩ := hinv
  have hr := callAll_rest C c l { s with phase := ph }
  have ho := callAll_obs C c l (h1 l hl) { s with phase := ph }
  have hi : Inv ({ s with phase := ph } : St α ε σ) := by
    refine ⟨?_, ?_, ?_, h4, h5, ?_⟩ <;> · intro l' hl'; cases hl'; cases hph
  have hi' := hi.callAll (C := C) c l (h2 l hl)
  generalize hg : St.callAll C c l { s with phase := ph } = s1 at *
  obtain ⟨r1, r2, r3, r4⟩ := hr
  dsimp only at r1 r2 r3 r4 ho
  have hd : s.down = false := by rw [h6, hl]; rfl
  have hph1 : s1.phase.over.isSome = true := by rw [r4]; exact hph
  have hds : s1.disposeSubject = { s1 with down := true } := by
    unfold St.disposeSubject
    rw [if_neg (by rw [r1, hd]; decide)]
    cases hp : s1.phase with
    | live l => rw [hp] at hph1; cases hph1
    | _ => rfl
  rw [hds]
  refine ⟨⟨⟨hi'.nodup, hi'.sub, hi'.all, hi'.obs, hi'.fresh, hi'.out⟩, ?_, ?_⟩, r2, r3, r4, ho⟩
  · exact hph1.symm
  · intro t _ k hk
    show (s1.obs k).disposed = true
    rw [ho]
    split
    · exact disposed_of_term c hc
    · rename_i hkl
      cases hdk : (s.obs k).disposed with
      | true => rfl
      | false => exact absurd (h3 l hl k (r2 ▸ hk) hdk) hkl

/-- Calls on disposed observers do nothing. -/
theorem call_ignored {u : UserSt α ε} {cap ov react} (hd : u.disposed = true) {c : Call α ε}
    (hc : c.isEvent = true) : (userObs cap ov react).call c u = u :=
  (userObs_lawful (cap := cap) (ov := ov) (react := react)).ignore u c (by simp [hd]) hc

/-- What one operation does to an observer that has subscribed before. -/
def effect (k : Nat) (live : Bool) : Op α ε → List (Act α ε)
  | .next v => if live then [.call (.next v)] else []
  | .error e => if live then [.call (.error e)] else []
  | .completed => if live then [.call .completed] else []
  | .disposeSubject => []
  | .dispose j => if j = k then [.dispose] else []
  | .subscribe _ => []

/-- How one operation ends a running subject. -/
def endBy : Op α ε → Option (Option (Term ε))
  | .error e => some (some (.error e))
  | .completed => some (some .completed)
  | .disposeSubject => some none
  | _ => none

theorem step_facts (C : Cfg α ε σ) {s : St α ε σ} (h : Settled s) (o : Int × Op α ε) :
    Settled (s.step C o) ∧
    (s.step C o).phase.over = (s.phase.over).or (endBy o.2) ∧
    (∀ k, k ∈ (s.step C o).subs ↔ k ∈ s.subs ∨ o.2 = .subscribe k) ∧
    (∀ k ∈ s.subs, (s.step C o).obs k =
      userRun C.cap C.ov (C.react k) (s.obs k) (effect k s.phase.over.isNone o.2)) := by
  obtain ⟨t, o⟩ := o
  have h3 := fun l hl k => Inv.all' h.inv (l := l) hl (k := k)
  obtain ⟨h1, h2, _, h4, h5, _⟩ := h.inv
  have h6 := h.down
  have h7 := h.fin
  cases o with
  | subscribe k =>
    simp only [St.step, endBy, effect]
    unfold St.subscribe
    split
    · rename_i hk
      refine ⟨h, by simp, fun j => ?_, fun j _ => rfl⟩
      constructor
      · exact .inl
      · rintro (h' | h')
        · exact h'
        · cases h'; exact hk
    · rename_i hk
      dsimp only
      generalize hr : C.store.get s.down t s.store = r
      have hi1 : InvX (some k) ({ s with store := r.2, subs := k :: s.subs } : St α ε σ) := by
        refine ⟨h1, fun l hl j hj => List.mem_cons_of_mem _ (h2 l hl j hj), ?_, h4, ?_, ?_⟩
        · intro l hl j hj hd
          rcases List.mem_cons.1 hj with e | hj
          · exact .inr (by rw [e])
          · exact .inl (h3 l hl j hj hd)
        · intro j hj; exact h5 j fun hm => hj (List.mem_cons_of_mem _ hm)
        · intro l hl j hj hm; cases hj; exact hk (h2 l hl k hm)
      have hi2 := hi1.calls (C := C) (k := k) r.1 List.mem_cons_self
      have hr2 := calls_rest C k r.1 { s with store := r.2, subs := k :: s.subs }
      have ho2 := calls_obs C k r.1 { s with store := r.2, subs := k :: s.subs }
      generalize r.1.foldl (fun s v => s.call C k (.next v)) { s with store := r.2, subs := k :: s.subs } = s2 at *
      obtain ⟨r1, r2, r3, r4⟩ := hr2
      dsimp only at r1 r2 r3 r4 ho2
      have hne : ∀ j ∈ s.subs, j ≠ k := fun j hj e => hk (e ▸ hj)
      have hks : k ∈ s2.subs := by rw [r2]; exact List.mem_cons_self
      have hmem : ∀ j, j ∈ s2.subs ↔ j ∈ s.subs ∨ Op.subscribe (α := α) (ε := ε) k = .subscribe j := by
        intro j; rw [r2]
        constructor
        · intro hj; rcases List.mem_cons.1 hj with e | e
          · exact .inr (by rw [e])
          · exact .inl e
        · rintro (e | e)
          · exact List.mem_cons_of_mem _ e
          · cases e; exact List.mem_cons_self
      have hcase : ∀ c, s2.phase.over.isSome = true → (∀ t', s2.phase.over = some (some t') → c.isTerm = true) →
          Settled (s2.call C k c) ∧ (s2.call C k c).phase.over = s.phase.over.or none ∧
          (∀ j, j ∈ (s2.call C k c).subs ↔ j ∈ s.subs ∨ Op.subscribe (α := α) (ε := ε) k = .subscribe j) ∧
          ∀ j ∈ s.subs, (s2.call C k c).obs j = userRun C.cap C.ov (C.react j) (s.obs j) [] := by
        intro c hs hc
        have hi3 := hi2.call (C := C) hks c
        have ho3 := call_over C s2 k c
        obtain ⟨q1, q2, q3⟩ := call_rest C s2 k c
        have hobs : ∀ j ∈ s.subs, (s2.call C k c).obs j = s.obs j := by
          intro j hj
          rw [call_obs, if_neg (hne j hj), ho2, if_neg (hne j hj)]
        refine ⟨⟨⟨hi3.nodup, hi3.sub, ?_, hi3.obs, hi3.fresh, ?_⟩, ?_, ?_⟩, ?_, ?_, hobs⟩
        · intro l hl; rw [← ho3, hl] at hs; cases hs
        · intro l hl; rw [← ho3, hl] at hs; cases hs
        · rw [q1, r1, ho3, r4]; exact h6
        · intro t' ht' j hj
          rw [q2, r2] at hj
          rw [ho3] at ht'
          rcases List.mem_cons.1 hj with e | e
          · subst e; rw [call_obs, if_pos rfl]; exact disposed_of_term c (hc t' ht')
          · rw [hobs j e]; exact h7 t' (by rw [← r4]; exact ht') j e
        · rw [ho3, r4]; simp
        · intro j; rw [q2]; exact hmem j
      unfold St.onSubscribe
      cases hp2 : s2.phase with
      | live l =>
        dsimp only
        have hi3 : Inv ({ s2 with phase := .live (l ++ [k]) } : St α ε σ) := by
          obtain ⟨g1, g2, g3, g4, g5, g6⟩ := hi2
          refine ⟨?_, ?_, ?_, g4, g5, ?_⟩
          · intro l' hl'; cases hl'
            refine List.nodup_append.2 ⟨g1 l hp2, by simp, ?_⟩
            intro a ha b hb e
            rw [List.mem_singleton.1 hb] at e
            exact g6 l hp2 k rfl (e ▸ ha)
          · intro l' hl' j hj; cases hl'
            rcases List.mem_append.1 hj with hj | hj
            · exact g2 l hp2 j hj
            · rw [List.mem_singleton.1 hj]; exact hks
          · intro l' hl' j hj hd; cases hl'
            rcases g3 l hp2 j hj hd with hm | hm
            · exact .inl (List.mem_append_left _ hm)
            · cases hm; exact .inl (by simp)
          · intro _ _ _ e; cases e
        have hi4 := hi3.call (C := C) hks (.up k)
        have hov := call_over C { s2 with phase := .live (l ++ [k]) } k (.up k)
        have hrst := call_rest C { s2 with phase := .live (l ++ [k]) } k (.up k)
        have hobs := call_obs C { s2 with phase := .live (l ++ [k]) } k
        generalize hg : St.call C k (.up k) { s2 with phase := .live (l ++ [k]) } = s3 at *
        obtain ⟨q1, q2, q3⟩ := hrst
        dsimp only at q1 q2 q3
        rw [hp2] at r4
        refine ⟨⟨hi4, ?_, ?_⟩, ?_, ?_, ?_⟩
        · rw [q1, r1, hov, h6, ← r4]; rfl
        · intro t' ht'; rw [hov] at ht'; cases ht'
        · rw [hov, ← r4]; rfl
        · intro j; rw [q2]; exact hmem j
        · intro j hj
          rw [← hg, call_obs, if_neg (hne j hj)]
          show s2.obs j = _
          rw [ho2, if_neg (hne j hj)]; rfl
      | failed e => exact hcase (.error e) (by rw [hp2]; rfl) (fun _ _ => rfl)
      | completed => exact hcase .completed (by rw [hp2]; rfl) (fun _ _ => rfl)
      | disposed =>
        dsimp only
        refine ⟨⟨⟨hi2.nodup, hi2.sub, ?_, hi2.obs, hi2.fresh, ?_⟩, ?_, ?_⟩, ?_, hmem, ?_⟩
        · intro l hl; rw [hp2] at hl; cases hl
        · intro l hl; rw [hp2] at hl; cases hl
        · rw [r1, r4]; exact h6
        · intro t' ht'; rw [hp2] at ht'; cases ht'
        · rw [r4]; simp
        · intro j hj; rw [ho2, if_neg (hne j hj)]; rfl
  | dispose j =>
    simp only [St.step, endBy, effect]
    split
    · rename_i hj
      obtain ⟨r1, r2, r3⟩ := touch_rest s j UserSt.dispose
      have ho := touch_over s j UserSt.dispose
      have hdisp := (s.obs j).dispose_facts
      refine ⟨⟨h.inv.touch hj (h4 j).dispose (fun _ => hdisp.2.1), by rw [r1, ho, h6], ?_⟩, by simp [ho],
        fun k => by rw [r2]; simp, fun k hk => ?_⟩
      · intro t' ht' k hk
        rw [touch_obs]; split
        · exact hdisp.2.1
        · exact h7 t' (by rw [← ho]; exact ht') k (r2 ▸ hk)
      · rw [touch_obs]
        by_cases e : k = j
        · subst e; simp [userRun]
        · rw [if_neg e, if_neg (fun e' => e e'.symm)]; rfl
    · rename_i hj
      refine ⟨h, by simp, fun k => by simp, fun k hk => ?_⟩
      rw [if_neg (fun e : j = k => hj (e ▸ hk))]; rfl
  | next v =>
    simp only [St.step, endBy, effect]
    unfold St.next
    cases hp : s.phase with
    | live l =>
      rw [hp] at h6
      rw [if_neg (by rw [h6]; simp [Phase.over])]
      dsimp only
      have hr := callAll_rest C (.next v) l { s with store := C.store.put t v s.store, phase := .live l }
      have ho := callAll_obs C (.next v) l (h1 l hp) { s with store := C.store.put t v s.store, phase := .live l }
      have hi : Inv ({ s with store := C.store.put t v s.store, phase := .live l } : St α ε σ) := by
        refine ⟨?_, ?_, ?_, h4, h5, ?_⟩
        · intro l' hl'; cases hl'; exact h1 l hp
        · intro l' hl'; cases hl'; exact h2 l hp
        · intro l' hl'; cases hl'; exact fun k a b => .inl (h3 l hp k a b)
        · intro _ _ _ e; cases e
      have hi' := hi.callAll (C := C) (.next v) l (h2 l hp)
      obtain ⟨phase, down, store, subs, obs⟩ := s
      dsimp only at *
      subst hp
      generalize St.callAll C (.next v) l _ = s1 at *
      obtain ⟨r1, r2, r3, r4⟩ := hr
      refine ⟨⟨hi', by rw [r1, r4, h6], ?_⟩, by rw [r4]; rfl, fun k => by rw [r2]; simp, fun k hk => ?_⟩
      · intro t' ht'; rw [r4] at ht'; cases ht'
      · rw [ho]
        simp only [Phase.over, Option.isNone_none, if_true]
        split
        · simp [userRun]
        · rename_i hkl
          simp only [userRun, List.foldl_cons, List.foldl_nil]
          refine (call_ignored ?_ rfl).symm
          cases hd : (obs k).disposed with
          | true => rfl
          | false => exact absurd (h3 l rfl k hk hd) hkl
    | _ =>
      all_goals
        rw [hp] at h6
        rw [if_pos (by rw [h6]; rfl)]
        exact ⟨h, by rw [hp]; rfl, fun k => by simp, fun k _ => by simp [Phase.over, userRun]⟩
  | disposeSubject =>
    simp only [St.step, endBy, effect]
    unfold St.disposeSubject
    cases hp : s.phase with
    | live l =>
      rw [hp] at h6
      rw [if_neg (by rw [h6]; simp [Phase.over])]
      dsimp only
      refine ⟨⟨⟨?_, ?_, ?_, h4, h5, ?_⟩, rfl, ?_⟩, rfl, fun k => by simp, fun k _ => rfl⟩
      · intro l' hl'; cases hl'
      · intro l' hl'; cases hl'
      · intro l' hl'; cases hl'
      · intro l' hl'; cases hl'
      · intro t' ht'; cases ht'
    | _ =>
      all_goals
        rw [hp] at h6
        rw [if_pos (by rw [h6]; rfl)]
        exact ⟨h, by rw [hp]; rfl, fun k => by simp, fun k _ => rfl⟩
  | error e =>
    simp only [St.step, endBy, effect]
    unfold St.finish
    cases hp : s.phase with
    | live l =>
      rw [hp] at h6
      rw [if_neg (by rw [h6]; simp [Phase.over])]
      dsimp only
      have hc := h.callAll_fin (C := C) hp (c := .error e) rfl (ph := .failed e) rfl
      obtain ⟨g1, g2, g3, g4, g5⟩ := hc
      refine ⟨g1, g4, fun k => by rw [g2]; simp, fun k hk => ?_⟩
      rw [g5]
      simp only [Phase.over, Option.isNone_none, if_true]
      split
      · simp [userRun]
      · rename_i hkl
        simp only [userRun, List.foldl_cons, List.foldl_nil]
        refine (call_ignored ?_ rfl).symm
        cases hd : (s.obs k).disposed with
        | true => rfl
        | false => exact absurd (h3 l hp k hk hd) hkl
    | _ =>
      all_goals
        rw [hp] at h6
        rw [if_pos (by rw [h6]; rfl)]
        exact ⟨h, by rw [hp]; rfl, fun k => by simp, fun k _ => by simp [Phase.over, userRun]⟩
  | completed =>
    simp only [St.step, endBy, effect]
    unfold St.finish
    cases hp : s.phase with
    | live l =>
      rw [hp] at h6
      rw [if_neg (by rw [h6]; simp [Phase.over])]
      dsimp only
      have hc := h.callAll_fin (C := C) hp (c := .completed) rfl (ph := .completed) rfl
      obtain ⟨g1, g2, g3, g4, g5⟩ := hc
      refine ⟨g1, g4, fun k => by rw [g2]; simp, fun k hk => ?_⟩
      rw [g5]
      simp only [Phase.over, Option.isNone_none, if_true]
      split
      · simp [userRun]
      · rename_i hkl
        simp only [userRun, List.foldl_cons, List.foldl_nil]
        refine (call_ignored ?_ rfl).symm
        cases hd : (s.obs k).disposed with
        | true => rfl
        | false => exact absurd (h3 l hp k hk hd) hkl
    | _ =>
      all_goals
        rw [hp] at h6
        rw [if_pos (by rw [h6]; rfl)]
        exact ⟨h, by rw [hp]; rfl, fun k => by simp, fun k _ => by simp [Phase.over, userRun]⟩

end Rpp.Subj
