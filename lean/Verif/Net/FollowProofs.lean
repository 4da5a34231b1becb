import Verif.Net.Follow
import Verif.Net.FlatProofs

/-! Observables one after the other: invariant. -/

namespace Rpp.Net

open Comb (Sig)

variable {α ε : Type}

theorem notes_end {α : Type} {t : Trace α ε} {l : List (Sig α ε)} (h : l <+: notes t) {f} (hf : .term f ∈ l) : l = notes t := by
  obtain ⟨r, hr⟩ := h
  obtain ⟨a, b, rfl⟩ := List.append_of_mem hf
  cases r with
  | nil => rw [List.append_nil] at hr; exact hr
  | cons y r =>
    exfalso
    rcases t with ⟨vs, fin⟩
    have hm : ∀ k (l : List (Sig α ε)), notes (⟨vs, fin⟩ : Trace α ε) = k ++ .term f :: l → l = [] := by
      intro k l hk
      unfold notes at hk
      cases fin with
      | none =>
        have : .term f ∈ (vs.map Sig.next ++ ((none : Option (Term ε)).toList.map .term) : List (Sig α ε)) := by rw [hk]; simp
        simp at this
      | some g =>
        rcases List.eq_nil_or_concat l with rfl | ⟨l, z, rfl⟩
        · rfl
        · exfalso
          simp only [Option.toList_some, List.map_cons, List.map_nil] at hk
          rw [List.concat_eq_append, ← List.cons_append, ← List.append_assoc] at hk
          have := List.append_inj_left' hk rfl
          have hm : .term f ∈ vs.map (Sig.next (ε := ε)) := by rw [this]; simp
          simp at hm
    have := hm a (b ++ y :: r) (by rw [← hr]; simp)
    simp at this

theorem notes_inj {α : Type} {s t : Trace α ε} (h : notes s = notes t) : s = t := by
  rcases s with ⟨vs, f⟩
  rcases t with ⟨ws, g⟩
  have hv : ∀ (vs : List α) (f : Option (Term ε)), Comb.sigVals (notes (⟨vs, f⟩ : Trace α ε)) = vs := by
    intro vs f
    cases f <;> simp [notes, Comb.sigVals, List.filterMap_append, List.filterMap_map, Function.comp_def]
  have h1 : vs = ws := by rw [← hv vs f, h, hv]
  subst h1
  have h2 := List.append_cancel_left h
  cases f <;> cases g <;> simp_all


theorem notes_of_prefix {o : Trace α ε} {l : List (Sig α ε)} (h : l <+: notes o) : ∃ g : Trace α ε, l = notes g := by
  by_cases hl : l.length ≤ o.vals.length
  · refine ⟨⟨o.vals.take l.length, none⟩, ?_⟩
    rw [List.prefix_iff_eq_take] at h
    rw [h]
    simp only [notes, Option.toList_none, List.map_nil, List.append_nil, List.map_take]
    rw [List.take_append_of_le_length (by simpa using hl)]
    simp
  · refine ⟨o, ?_⟩
    have h1 := h.length_le
    refine h.eq_of_length ?_
    unfold notes at h1 ⊢
    simp only [List.length_append, List.length_map] at h1 ⊢
    cases hf : o.fin <;> simp [hf] at h1 ⊢ <;> omega

theorem seqOf_notes (vs : List α) (g : Trace α ε) : seqOf (vs.map .next ++ notes g) = ⟨vs ++ g.vals, g.fin⟩ := by
  have h0 : seqOf (notes g) = g := by
    rcases g with ⟨ws, f⟩
    unfold notes seqOf
    induction ws with
    | nil =>
      cases f with
      | none => rfl
      | some t => cases t <;> rfl
    | cons w ws ih =>
      simp only [List.map_cons, List.cons_append, toCall, traceOf]
      rw [ih]
  induction vs with
  | nil => exact h0
  | cons v vs ih =>
    unfold seqOf at ih ⊢
    simp only [List.map_cons, List.cons_append, toCall, traceOf]
    rw [ih]

theorem fin_same {o o' : Trace α ε} (h : notes o <+: notes o') {t} (ht : o.fin = some t) : o' = o :=
  (notes_inj (notes_end h (f := t) (by simp [notes, ht]))).symm

theorem Before.mono {C D : List (Term ε) → Trace α ε → Prop} {sw : List (Term ε) → Term ε → Bool} {i vs} (h : Before C sw i vs)
    (hm : ∀ j o t, j ++ [t] <+: i → C j o → o.fin = some t → D j o) : Before D sw i vs := by
  induction h with
  | first => exact .first
  | next _ h2 h3 h4 ih =>
    exact .next (ih fun j o t hj => hm j o t (hj.trans (List.prefix_append ..))) (hm _ _ _ (List.prefix_refl _) h2 h3) h3 h4

/-- What was told is the values of the observables that have ended, and what the present one has notified. -/
structure FolGood (sw : List (Term ε) → Term ε → Bool) (says : List (Term ε) → Trace α ε) (s : FollowSt α ε) : Prop where
  told : ∃ vs, Before (fun i o => o = says i) sw s.ends vs ∧ s.told = vs.map .next ++ s.got
  pre : s.got <+: notes (says s.ends)
  stay : ∀ t, .term t ∈ s.got → sw s.ends t = false

theorem folgood_init (sw : List (Term ε) → Term ε → Bool) (says : List (Term ε) → Trace α ε) : FolGood sw says {} :=
  ⟨⟨[], .first, rfl⟩, List.nil_prefix, fun _ h => by cases h⟩

theorem folgood_says {sw : List (Term ε) → Term ε → Bool} {says says' : List (Term ε) → Trace α ε} {s : FollowSt α ε} (h : FolGood sw says s)
    (hm : ∀ i, notes (says i) <+: notes (says' i)) : FolGood sw says' s := by
  obtain ⟨⟨vs, h1, h2⟩, h3, h4⟩ := h
  refine ⟨⟨vs, h1.mono fun i o t _ ho ht => ?_, h2⟩, h3.trans (hm _), h4⟩
  subst ho
  exact (fin_same (hm i) ht).symm

theorem take_got {l m : List (Sig α ε)} {x : Sig α ε} (h : l <+: m) (hx : m[l.length]? = some x) : l ++ [x] <+: m := by
  obtain ⟨r, rfl⟩ := h
  cases r with
  | nil => simp at hx
  | cons y r =>
    simp at hx; subst hx
    exact ⟨r, by simp⟩

theorem fin_of_next {o : Trace α ε} {l : List (Sig α ε)} {t : Term ε} (h : l ++ [.term t] <+: notes o) : l = o.vals.map .next ∧ o.fin = some t := by
  have e := notes_end h (f := t) (by simp)
  rcases o with ⟨vs, f⟩
  cases f with
  | none =>
    have : (.term t : Sig α ε) ∈ notes (⟨vs, none⟩ : Trace α ε) := by rw [← e]; simp
    simp [notes] at this
  | some u =>
    simp only [notes, Option.toList_some, List.map_cons, List.map_nil] at e
    have h1 := List.append_inj' e rfl
    simp at h1
    exact ⟨h1.1, by rw [h1.2]⟩

theorem folgood_push {sw : List (Term ε) → Term ε → Bool} {says : List (Term ε) → Trace α ε} {s : FollowSt α ε} (h : FolGood sw says s) :
    FolGood sw says (pushFollow sw s (says s.ends)) ∧ s.told <+: (pushFollow sw s (says s.ends)).told := by
  unfold pushFollow followNext
  split
  · next x hx =>
    split at hx
    · cases hx
    · obtain ⟨⟨vs, h1, h2⟩, h3, h4⟩ := h
      have h5 := take_got h3 hx
      cases x with
      | next v =>
        refine ⟨⟨⟨vs, h1, ?_⟩, h5, fun t ht => ?_⟩, List.prefix_append ..⟩
        · show s.told ++ [.next v] = _
          rw [h2, List.append_assoc]
          rfl
        · rcases List.mem_append.1 ht with ht | ht
          · exact h4 t ht
          · simp at ht
      | term t =>
        unfold hear
        simp only
        split
        · next hs =>
          obtain ⟨e1, e2⟩ := fin_of_next h5
          refine ⟨⟨⟨vs ++ (says s.ends).vals, .next h1 rfl e2 hs, ?_⟩, List.nil_prefix, fun _ h => by cases h⟩, List.prefix_refl _⟩
          show s.told = _
          rw [h2, e1]; simp
        · next hs =>
          refine ⟨⟨⟨vs, h1, ?_⟩, h5, fun u hu => ?_⟩, List.prefix_append ..⟩
          · show s.told ++ [.term t] = _
            rw [h2, List.append_assoc]
          · rcases List.mem_append.1 hu with hu | hu
            · exact h4 u hu
            · simp at hu; subst hu; simpa using hs
  · exact ⟨h, List.prefix_refl _⟩

theorem folgood_gone {sw : List (Term ε) → Term ε → Bool} {says : List (Term ε) → Trace α ε} {s : FollowSt α ε} (h : FolGood sw says s) :
    FolGood sw says { s with gone := true } := ⟨h.told, h.pre, h.stay⟩

/-- What the observer was told, as a sequence. -/
theorem folgood_seq {sw : List (Term ε) → Term ε → Bool} {says : List (Term ε) → Trace α ε} {s : FollowSt α ε} (h : FolGood sw says s) :
    ∃ vs g, Before (fun i o => o = says i) sw s.ends vs ∧ s.got = notes g ∧ notes g <+: notes (says s.ends) ∧
      (∀ t, g.fin = some t → sw s.ends t = false) ∧ seqOf s.told = ⟨vs ++ g.vals, g.fin⟩ := by
  obtain ⟨⟨vs, h1, h2⟩, h3, h4⟩ := h
  obtain ⟨g, hg⟩ := notes_of_prefix h3
  refine ⟨vs, g, h1, hg, hg ▸ h3, fun t ht => h4 t (by rw [hg]; simp [notes, ht]), ?_⟩
  rw [h2, hg, seqOf_notes]

/-- At rest the present observable has been heard to the end. -/
theorem follow_all {s : FollowSt α ε} {o : Trace α ε} (h : s.got <+: notes o) (hg : s.gone = false) (hn : followNext s o = none) : s.got = notes o := by
  unfold followNext at hn
  rw [hg] at hn
  obtain ⟨r, e⟩ := h
  rw [← e] at hn ⊢
  cases r with
  | nil => simp
  | cons y r => simp at hn

end Rpp.Net
