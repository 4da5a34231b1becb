import Verif.Window.GroupBy
import Verif.Window.WindowProofs

/-!
# `group_by`: the plan is the specification
-/

namespace Rpp.Win
variable {κ β α ε : Type}

/-! ## The comparator and the map -/

theorem same_symm {lt : κ → κ → Bool} {a b} (h : same lt a b = true) : same lt b a = true := by
  simp only [same, Bool.and_eq_true] at h ⊢; exact ⟨h.2, h.1⟩

theorem Swo.same_refl {lt : κ → κ → Bool} (h : Swo lt) (a) : same lt a a = true := by simp [same, h.irrefl]

theorem Swo.same_not_lt {lt : κ → κ → Bool} {a b} (h : same lt a b = true) : lt a b = false ∧ lt b a = false := by
  simpa [same] using h

/-- Used in the proofs; models no code. -/
def Sorted (lt : κ → κ → Bool) (m : List (κ × Nat)) : Prop := m.Pairwise (fun p q => lt p.1 q.1 = true)

theorem mapFind_some {lt : κ → κ → Bool} {k m w} (h : mapFind lt k m = some w) : ∃ a, (a, w) ∈ m ∧ same lt a k = true := by
  induction m with
  | nil => cases h
  | cons p r ih =>
    simp only [mapFind] at h
    split at h
    · obtain ⟨a, h1, h2⟩ := ih h
      exact ⟨a, by simp [h1], h2⟩
    · split at h
      · cases h
      · next h1 h2 =>
        cases h
        exact ⟨p.1, by simp, by simp_all [same]⟩

theorem mapFind_none {lt : κ → κ → Bool} (hl : Swo lt) {k m} (hs : Sorted lt m) (h : mapFind lt k m = none) :
    ∀ p ∈ m, same lt p.1 k = false := by
  induction m with
  | nil => simp
  | cons p r ih =>
    obtain ⟨hp, hr⟩ := List.pairwise_cons.mp hs
    simp only [mapFind] at h
    split at h
    · next h1 =>
      intro q hq
      rcases List.mem_cons.mp hq with rfl | hq
      · simp [same, h1]
      · exact ih hr h q hq
    · split at h
      · next h1 h2 =>
        intro q hq
        rcases List.mem_cons.mp hq with rfl | hq
        · simp [same, h2]
        · have := hl.trans k p.1 q.1 h2 (hp q hq)
          simp [same, this]
      · cases h

theorem mapInsert_mem {lt : κ → κ → Bool} {k w m p} : p ∈ mapInsert lt k w m ↔ p = (k, w) ∨ p ∈ m := by
  induction m with
  | nil => simp [mapInsert]
  | cons q r ih =>
    simp only [mapInsert]
    split
    · simp only [List.mem_cons, ih]
      constructor
      · rintro (h | h | h) <;> simp [h]
      · rintro (h | h | h) <;> simp [h]
    · simp

theorem mapInsert_perm {lt : κ → κ → Bool} {k w m} : (mapInsert lt k w m).Perm ((k, w) :: m) := by
  induction m with
  | nil => exact List.Perm.refl _
  | cons q r ih =>
    simp only [mapInsert]
    split
    · exact (List.Perm.cons q ih).trans (List.Perm.swap _ _ _)
    · exact List.Perm.refl _

theorem mapInsert_sorted {lt : κ → κ → Bool} (hl : Swo lt) {k w m} (hs : Sorted lt m)
    (hn : ∀ p ∈ m, same lt p.1 k = false) : Sorted lt (mapInsert lt k w m) := by
  induction m with
  | nil => exact List.pairwise_singleton _ _
  | cons q r ih =>
    obtain ⟨hq, hr⟩ := List.pairwise_cons.mp hs
    simp only [mapInsert]
    split
    · next h1 =>
      refine List.pairwise_cons.mpr ⟨?_, ih hr (fun p hp => hn p (by simp [hp]))⟩
      intro p hp
      rcases mapInsert_mem.mp hp with rfl | hp
      · exact h1
      · exact hq p hp
    · next h1 =>
      have hlt : lt k q.1 = true := by
        have := hn q (by simp)
        simp [same] at this
        simp at h1
        cases hx : lt k q.1
        · simp [this h1] at hx
        · rfl
      refine List.pairwise_cons.mpr ⟨?_, hs⟩
      intro p hp
      rcases List.mem_cons.mp hp with rfl | hp
      · exact hlt
      · exact hl.trans k q.1 p.1 hlt (hq p hp)

/-! ## Distinct keys -/

/-- Used in the proofs; models no code. -/
def distinctFrom (lt : κ → κ → Bool) (names ks : List κ) : List κ :=
  ks.foldl (fun acc k => if acc.any (fun a => same lt a k) then acc else acc ++ [k]) names

theorem distinctFrom_snoc (lt : κ → κ → Bool) (names ks k) : distinctFrom lt names (ks ++ [k]) =
    if (distinctFrom lt names ks).any (fun a => same lt a k) then distinctFrom lt names ks
    else distinctFrom lt names ks ++ [k] := by
  simp [distinctFrom]

theorem groupActs_snoc (lt : κ → κ → Bool) (names) (es : List (κ × Option α)) (e) :
    groupActs (ε := ε) lt names (es ++ [e]) =
      groupActs lt names es ++ groupActs lt (distinctFrom lt names (es.map (·.1))) [e] := by
  induction es generalizing names with
  | nil => rfl
  | cons a es ih =>
    obtain ⟨k, v⟩ := a
    have key : distinctFrom lt names ((k :: es.map (·.1))) = distinctFrom lt (if names.any (fun a => same lt a k) then names else names ++ [k]) (es.map (·.1)) := rfl
    simp only [List.cons_append, groupActs.eq_2, List.map_cons, key]
    cases hf : names.findIdx? (fun a => same lt a k) with
    | some w =>
      have : names.any (fun a => same lt a k) = true := by
        rw [← List.findIdx?_isSome, hf]; rfl
      simp only [this, if_pos, ih, List.append_assoc]
    | none =>
      have : names.any (fun a => same lt a k) = false := by
        rw [← List.findIdx?_isSome, hf]; rfl
      simp only [this, Bool.false_eq_true, if_false, ih, List.append_assoc, List.cons_append]

theorem pairwise_or {γ : Type} {R : γ → γ → Prop} {l : List γ} (h : l.Pairwise R) {p q} (hp : p ∈ l) (hq : q ∈ l) :
    p = q ∨ R p q ∨ R q p := by
  induction l with
  | nil => cases hp
  | cons a l ih =>
    obtain ⟨h1, h2⟩ := List.pairwise_cons.mp h
    rcases List.mem_cons.mp hp with ep | hp' <;> rcases List.mem_cons.mp hq with eq | hq'
    · exact .inl (ep.trans eq.symm)
    · exact .inr (.inl (ep ▸ h1 _ hq'))
    · exact .inr (.inr (eq ▸ h1 _ hp'))
    · exact ih h2 hp' hq'

/-- The map and the list of names agree. -/
structure Agree (lt : κ → κ → Bool) (q : GSt κ) : Prop where
  sorted : Sorted lt q.map
  mem : ∀ k w, (k, w) ∈ q.map ↔ q.names[w]? = some k
  perm : (q.map.map (·.2)).Perm (List.range q.names.length)

theorem Agree.unique {lt : κ → κ → Bool} {q : GSt κ} (h : Agree lt q) {i j : Nat} {a b}
    (hi : q.names[i]? = some a) (hj : q.names[j]? = some b) (hs : same lt a b = true) : i = j := by
  have := Swo.same_not_lt hs
  rcases pairwise_or h.sorted ((h.mem a i).mpr hi) ((h.mem b j).mpr hj) with e | e | e
  · cases e; rfl
  · simp [this.1] at e
  · simp [this.2] at e

theorem Agree.find {lt : κ → κ → Bool} (hl : Swo lt) {q : GSt κ} (h : Agree lt q) (k : κ) :
    mapFind lt k q.map = q.names.findIdx? (fun a => same lt a k) := by
  cases hm : mapFind lt k q.map with
  | some w =>
    obtain ⟨a, h1, h2⟩ := mapFind_some hm
    have hw := (h.mem a w).mp h1
    symm
    rw [List.findIdx?_eq_some_iff_getElem]
    obtain ⟨hlt, he⟩ := List.getElem?_eq_some_iff.mp hw
    refine ⟨hlt, by rw [he]; exact h2, ?_⟩
    intro j hj
    simp only [Bool.not_eq_true]
    cases hx : same lt q.names[j] k
    · rfl
    · have := h.unique (List.getElem?_eq_getElem (by omega)) hw (hl.same_trans _ _ _ hx (same_symm h2))
      omega
  | none =>
    symm
    rw [List.findIdx?_eq_none_iff]
    intro a ha
    obtain ⟨w, hw⟩ := List.getElem?_of_mem ha
    exact mapFind_none hl h.sorted hm (a, w) ((h.mem a w).mpr hw)

theorem Agree.insert {lt : κ → κ → Bool} (hl : Swo lt) {q : GSt κ} (h : Agree lt q) {k : κ}
    (hn : mapFind lt k q.map = none) : Agree lt ⟨mapInsert lt k q.names.length q.map, q.names ++ [k]⟩ := by
  constructor
  · exact mapInsert_sorted hl h.sorted (mapFind_none hl h.sorted hn)
  · intro a w
    simp only [mapInsert_mem, h.mem, Prod.mk.injEq, List.getElem?_append]
    by_cases hw : w < q.names.length
    · rw [if_pos hw]
      constructor
      · rintro (⟨_, h2⟩ | h2)
        · omega
        · exact h2
      · exact .inr
    · rw [if_neg hw]
      have : q.names[w]? = none := List.getElem?_eq_none (by omega)
      rw [this]
      by_cases hw' : w = q.names.length
      · subst hw'
        simp only [and_true, Nat.sub_self, List.getElem?_cons_zero, Option.some.injEq]
        constructor
        · rintro (h | h)
          · exact h.symm
          · cases h
        · intro h; exact .inl h.symm
      · have : ([k] : List κ)[w - q.names.length]? = none := List.getElem?_eq_none (by simp; omega)
        rw [this]
        simp [hw']
  · simp only [List.length_append, List.length_singleton, List.range_succ]
    have h1 := (mapInsert_perm (lt := lt) (k := k) (w := q.names.length) (m := q.map)).map (·.2)
    simp only [List.map_cons] at h1
    refine h1.trans ((List.Perm.cons _ h.perm).trans ?_)
    exact (List.perm_append_comm (l₁ := [q.names.length]) (l₂ := List.range q.names.length))

/-! ## The plan -/

theorem entries_snoc (F : GFun κ β α ε) (as : List (Item β ε)) (x) (h : gend F as = none) :
    entries F (as ++ [x]) = entries F as ++ entries F [x] ∧ gend F (as ++ [x]) = gend F [x] := by
  induction as with
  | nil => exact ⟨rfl, rfl⟩
  | cons a as ih =>
    cases a with
    | val b =>
      simp only [List.cons_append, entries, gend] at h ⊢
      cases hk : F.key b with
      | error e => rw [hk] at h; cases h
      | ok k =>
        rw [hk] at h
        cases hv : F.value b with
        | error e => rw [hv] at h; cases h
        | ok v =>
          rw [hv] at h
          obtain ⟨h1, h2⟩ := ih h
          simp only [h1, h2, List.cons_append]
          exact ⟨trivial, trivial⟩
    | err e => cases h
    | done => cases h

/-- Used in the proofs; models no code. -/
def gModes (n : Nat) : Nat → Option Bool := fun w => if w < n then some true else none

/-- Invariant of the proofs; models no code. -/
structure GInv (F : GFun κ β α ε) (as : List (Item β ε × Bool)) : Prop where
  noend : gend F (kept F as) = none
  names : (plan (groupOper F) as).1.names = distinctFrom F.lt [] ((entries F (kept F as)).map (·.1))
  keep : (as.foldl (keepStep F) ([], [])).1 = (plan (groupOper F) as).1.names
  agree : Agree F.lt (plan (groupOper F) as).1
  modes : (plan (groupOper F) as).2.1 = gModes (plan (groupOper F) as).1.names.length
  acts : (plan (groupOper F) as).2.2 = groupActs F.lt [] (entries F (kept F as))

theorem kept_snoc (F : GFun κ β α ε) (as a) :
    kept F (as ++ [a]) = (keepStep F (as.foldl (keepStep F) ([], [])) a).2 := by
  simp [kept]

theorem sim_push (L : Nat → Option Bool) (w : Nat) (x : Item α ε) (h : L w = some true) (hx : x.term = false) :
    sim L [.push w x] = ([.fed w x], L) := by
  simp only [sim, h, if_pos, hx, Bool.not_false]
  congr 1
  funext v
  split
  · next e => rw [e, h]
  · rfl

theorem any_findIdx (names : List κ) (p : κ → Bool) : names.any p = (names.findIdx? p).isSome := by
  rw [List.findIdx?_isSome]

theorem GInv.snoc {F : GFun κ β α ε} (hl : Swo F.lt) {as a} (h : GInv F as)
    (ht : groupTerm F (plan (groupOper F) as).1 a.2 a.1 = false) : GInv F (as ++ [a]) := by
  obtain ⟨x, g⟩ := a
  have hfind := h.agree.find hl
  cases x with
  | err e => cases ht
  | done => cases ht
  | val b =>
    simp only [groupTerm] at ht
    cases hk : F.key b with
    | error e => rw [hk] at ht; cases ht
    | ok k =>
      rw [hk] at ht
      simp only at ht
      have hany := any_findIdx (plan (groupOper F) as).1.names (fun n => same F.lt n k)
      rw [← hfind k] at hany
      have hkept : (as ++ [(Item.val b, g)]).foldl (keepStep F) ([], []) =
          keepStep F (as.foldl (keepStep F) ([], [])) (Item.val b, g) := by simp
      have hks : keepStep F (as.foldl (keepStep F) ([], [])) (Item.val b, g) =
          if (mapFind F.lt k (plan (groupOper F) as).1.map).isSome then
            ((plan (groupOper F) as).1.names, kept F as ++ [.val b])
          else if g then ((plan (groupOper F) as).1.names, kept F as)
          else ((plan (groupOper F) as).1.names ++ [k], kept F as ++ [.val b]) := by
        simp only [keepStep, hk]
        rw [h.keep, hany]
        split
        · rfl
        · split
          · rw [← h.keep]; rfl
          · rfl
      have hplan : plan (groupOper F) (as ++ [(Item.val b, g)]) = planStep (groupOper F) (plan (groupOper F) as) (Item.val b, g) := plan_snoc _ _ _
      cases hm : mapFind F.lt k (plan (groupOper F) as).1.map with
      | some w =>
        simp only [hm] at ht hks
        simp only [Option.isSome_some, if_pos] at hks
        simp only [Option.isNone_some, Bool.false_and, Bool.false_eq_true, if_false] at ht
        cases hv : F.value b with
        | error e => rw [hv] at ht; cases ht
        | ok v =>
          have hw : w < (plan (groupOper F) as).1.names.length := by
            obtain ⟨a, h1, _⟩ := mapFind_some hm
            exact (List.getElem?_eq_some_iff.mp ((h.agree.mem a w).mp h1)).1
          have hL : (plan (groupOper F) as).2.1 w = some true := by rw [h.modes]; simp [gModes, hw]
          have hacc : (groupOper F).accept (plan (groupOper F) as).1 g (Item.val b) =
              ((plan (groupOper F) as).1, [.push w (.val v)]) := by
            show groupAccept F _ g (.val b) = _
            simp only [groupAccept, hk, hm, groupPush, hv]
          have hps : plan (groupOper F) (as ++ [(Item.val b, g)]) =
              ((plan (groupOper F) as).1, (plan (groupOper F) as).2.1, (plan (groupOper F) as).2.2 ++ [.fed w (.val v)]) := by
            rw [hplan]
            simp only [planStep, hacc, sim_push _ _ (.val v) hL rfl]
          have hkept' : kept F (as ++ [(Item.val b, g)]) = kept F as ++ [.val b] := by
            rw [kept_snoc, hks]
          obtain ⟨he1, he2⟩ := entries_snoc F (kept F as) (.val b) h.noend
          have hsing : entries F [.val b] = [(k, some v)] ∧ gend F [.val b] = none := by
            simp [entries, gend, hk, hv]
          have hd : (distinctFrom F.lt [] ((entries F (kept F as)).map (·.1))).any (fun a => same F.lt a k) = true := by
            rw [← h.names, hany, hm]; rfl
          constructor
          · rw [hkept', he2]; exact hsing.2
          · rw [hps, hkept', he1, hsing.1, List.map_append, List.map_singleton, distinctFrom_snoc, if_pos hd]
            exact h.names
          · rw [hkept, hks, hps]
          · rw [hps]; exact h.agree
          · rw [hps]; exact h.modes
          · rw [hps, hkept', he1, hsing.1, groupActs_snoc, ← h.acts, ← h.names]
            simp only [groupActs, ← hfind k, hm]
            rfl
      | none =>
        simp only [hm] at ht hks
        simp only [Option.isSome_none, Bool.false_eq_true, if_false] at hks
        simp only [Option.isNone_none, Bool.true_and] at ht
        cases g with
        | true =>
          have hps : plan (groupOper F) (as ++ [(Item.val b, true)]) = plan (groupOper F) as := by
            rw [hplan]
            have hacc : (groupOper F).accept (plan (groupOper F) as).1 true (Item.val b) = ((plan (groupOper F) as).1, []) := by
              show groupAccept F _ true (.val b) = _
              simp only [groupAccept, hk, hm, if_pos]
            simp only [planStep, hacc, sim, List.append_nil]
          have hkept' : kept F (as ++ [(Item.val b, true)]) = kept F as := by
            rw [kept_snoc, hks]; rfl
          constructor
          · rw [hkept']; exact h.noend
          · rw [hps, hkept']; exact h.names
          · rw [hkept, hks, hps]; rfl
          · rw [hps]; exact h.agree
          · rw [hps]; exact h.modes
          · rw [hps, hkept']; exact h.acts
        | false =>
          simp only [Bool.false_eq_true, if_false] at ht hks
          cases hv : F.value b with
          | error e => rw [hv] at ht; cases ht
          | ok v =>
            have hL : (plan (groupOper F) as).2.1 (plan (groupOper F) as).1.names.length = none := by
              rw [h.modes]; simp [gModes]
            have hacc : (groupOper F).accept (plan (groupOper F) as).1 false (Item.val b) =
                (⟨mapInsert F.lt k (plan (groupOper F) as).1.names.length (plan (groupOper F) as).1.map, (plan (groupOper F) as).1.names ++ [k]⟩,
                  [.create (plan (groupOper F) as).1.names.length, .openW (plan (groupOper F) as).1.names.length, .push (plan (groupOper F) as).1.names.length (.val v)]) := by
              show groupAccept F _ false (.val b) = _
              simp only [groupAccept, hk, hm, groupPush, hv, Bool.false_eq_true, if_false, List.cons_append, List.nil_append]
            have hps : plan (groupOper F) (as ++ [(Item.val b, false)]) =
                (⟨mapInsert F.lt k (plan (groupOper F) as).1.names.length (plan (groupOper F) as).1.map, (plan (groupOper F) as).1.names ++ [k]⟩,
                  gModes ((plan (groupOper F) as).1.names.length + 1),
                  (plan (groupOper F) as).2.2 ++ [.opened (plan (groupOper F) as).1.names.length, .fed (plan (groupOper F) as).1.names.length (.val v)]) := by
              rw [hplan]
              simp only [planStep, hacc]
              simp only [sim, hL, if_pos, Item.term, Bool.not_false]
              congr 2
              funext u
              rw [h.modes]
              simp only [gModes]
              by_cases h1 : u = (plan (groupOper F) as).1.names.length
              · simp [h1]
              · by_cases h2 : u < (plan (groupOper F) as).1.names.length
                · simp [h1, h2, Nat.lt_succ_of_lt h2]
                · have : ¬ u < (plan (groupOper F) as).1.names.length + 1 := by omega
                  simp [h1, h2, this]
            have hkept' : kept F (as ++ [(Item.val b, false)]) = kept F as ++ [.val b] := by
              rw [kept_snoc, hks]
            obtain ⟨he1, he2⟩ := entries_snoc F (kept F as) (.val b) h.noend
            have hsing : entries F [.val b] = [(k, some v)] ∧ gend F [.val b] = none := by
              simp [entries, gend, hk, hv]
            have hd : (distinctFrom F.lt [] ((entries F (kept F as)).map (·.1))).any (fun a => same F.lt a k) = false := by
              rw [← h.names, hany, hm]; rfl
            constructor
            · rw [hkept', he2]; exact hsing.2
            · rw [hps, hkept', he1, hsing.1, List.map_append, List.map_singleton, distinctFrom_snoc, hd, h.names]
              rfl
            · rw [hkept, hks, hps]
            · rw [hps]; exact h.agree.insert hl hm
            · rw [hps]; simp
            · rw [hps, hkept', he1, hsing.1, groupActs_snoc, ← h.acts, ← h.names]
              simp only [groupActs, ← hfind k, hm]
              rfl

theorem gInv {F : GFun κ β α ε} (hl : Swo F.lt) (as) (h : runOk (groupOper F) as) : GInv F as := by
  induction as using snoc_induct with
  | h0 =>
    refine ⟨rfl, rfl, rfl, ⟨List.Pairwise.nil, ?_, List.Perm.refl _⟩, rfl, rfl⟩
    intro k w
    simp [plan, groupOper]
  | h1 as a ih =>
    obtain ⟨h1, h2⟩ := runOk_snoc.mp h
    exact (ih h1).snoc hl h2

theorem sim_endAll (L : Nat → Option Bool) (m : List (κ × Nat)) (x : Item α ε) (hL : ∀ p ∈ m, L p.2 = some true)
    (hn : (m.map (·.2)).Nodup) :
    (sim L (endAll m x)).1 = (m.map (·.2)).map (fun w => .fed w x) ++ [.ended x] := by
  unfold endAll
  induction m generalizing L with
  | nil => rfl
  | cons p m ih =>
    simp only [List.map_cons, List.nodup_cons] at hn
    simp only [List.map_cons, List.cons_append, sim, hL p (by simp), if_pos, List.cons.injEq, true_and]
    apply ih _ _ hn.2
    intro q hq
    rw [if_neg]
    · exact hL q (by simp [hq])
    · intro e; exact hn.1 (e ▸ List.mem_map_of_mem hq)

/-- What the end adds. -/
def endActs (order : List Nat) : Option (Item α ε) → List (Act α ε)
  | none => []
  | some x => order.map (fun w => .fed w x) ++ [.ended x]

theorem Agree.nodup {lt : κ → κ → Bool} {q : GSt κ} (h : Agree lt q) : (q.map.map (·.2)).Nodup :=
  h.perm.nodup_iff.mpr List.nodup_range

theorem Agree.lt_len {lt : κ → κ → Bool} {q : GSt κ} (h : Agree lt q) {p} (hp : p ∈ q.map) : p.2 < q.names.length :=
  (List.getElem?_eq_some_iff.mp ((h.mem p.1 p.2).mp hp)).1

/-- What is claimed of a plan. -/
structure GOut (F : GFun κ β α ε) (as : List (Item β ε × Bool)) : Prop where
  names : (plan (groupOper F) as).1.names = distinctFrom F.lt [] ((entries F (kept F as)).map (·.1))
  acts : ∃ order, order.Perm (List.range (plan (groupOper F) as).1.names.length) ∧
    (plan (groupOper F) as).2.2 = groupActs F.lt [] (entries F (kept F as)) ++ endActs order (gend F (kept F as))

theorem GOut.ofInv {F : GFun κ β α ε} {as} (h : GInv F as) : GOut F as := by
  refine ⟨h.names, _, List.Perm.refl _, ?_⟩
  rw [h.noend, h.acts]; simp [endActs]

theorem groupTerm_step {F : GFun κ β α ε} (hl : Swo F.lt) {as a} (h : GInv F as)
    (ht : groupTerm F (plan (groupOper F) as).1 a.2 a.1 = true) : GOut F (as ++ [a]) := by
  obtain ⟨x, g⟩ := a
  have hfind := h.agree.find hl
  have hmod : ∀ p ∈ (plan (groupOper F) as).1.map, (plan (groupOper F) as).2.1 p.2 = some true := by
    intro p hp
    rw [h.modes]
    simp [gModes, h.agree.lt_len hp]
  -- the end without any new entry
  have simple : ∀ y : Item α ε, (groupOper F).accept (plan (groupOper F) as).1 g x =
        ((plan (groupOper F) as).1, endAll (plan (groupOper F) as).1.map y) →
      (keepStep F (as.foldl (keepStep F) ([], [])) (x, g)).2 = kept F as ++ [x] →
      entries F [x] = [] → gend F [x] = some y → GOut F (as ++ [(x, g)]) := by
    intro y hacc hk he hg
    obtain ⟨he1, he2⟩ := entries_snoc F (kept F as) x h.noend
    have hps : plan (groupOper F) (as ++ [(x, g)]) = planStep (groupOper F) (plan (groupOper F) as) (x, g) := plan_snoc _ _ _
    constructor
    · rw [hps, kept_snoc, hk, he1, he, List.append_nil]
      simp only [planStep, hacc]
      exact h.names
    · rw [hps, kept_snoc, hk, he1, he2, he, hg, List.append_nil]
      simp only [planStep, hacc]
      refine ⟨_, h.agree.perm, ?_⟩
      rw [sim_endAll _ _ _ hmod h.agree.nodup, h.acts]
      rfl
  cases x with
  | err e => exact simple (.err e) rfl rfl rfl rfl
  | done => exact simple .done rfl rfl rfl rfl
  | val b =>
    simp only [groupTerm] at ht
    cases hk : F.key b with
    | error e =>
      refine simple (.err e) ?_ ?_ ?_ ?_
      · show groupAccept F _ g (.val b) = _
        simp only [groupAccept, hk]
      · simp only [keepStep, hk]; rfl
      · simp [entries, hk]
      · simp [gend, hk]
    | ok k =>
      rw [hk] at ht
      simp only at ht
      have hany := any_findIdx (plan (groupOper F) as).1.names (fun n => same F.lt n k)
      rw [← hfind k] at hany
      obtain ⟨he1, he2⟩ := entries_snoc F (kept F as) (.val b) h.noend
      have hps : plan (groupOper F) (as ++ [(Item.val b, g)]) = planStep (groupOper F) (plan (groupOper F) as) (Item.val b, g) := plan_snoc _ _ _
      cases hm : mapFind F.lt k (plan (groupOper F) as).1.map with
      | some w =>
        simp only [hm, Option.isNone_some, Bool.false_and, Bool.false_eq_true, if_false] at ht
        cases hv : F.value b with
        | ok v => rw [hv] at ht; cases ht
        | error e =>
          have hsing : entries F [.val b] = [(k, none)] ∧ gend F [.val b] = some (.err e) := by
            simp [entries, gend, hk, hv]
          have hkept' : kept F (as ++ [(Item.val b, g)]) = kept F as ++ [.val b] := by
            rw [kept_snoc]
            simp only [keepStep, hk]
            rw [h.keep, hany, hm]; rfl
          have hL : (plan (groupOper F) as).2.1 w = some true := by
            obtain ⟨a, h1, _⟩ := mapFind_some hm
            exact hmod (a, w) h1
          have hacc : (groupOper F).accept (plan (groupOper F) as).1 g (Item.val b) =
              ((plan (groupOper F) as).1, .stopIfDown w :: endAll (plan (groupOper F) as).1.map (.err e)) := by
            show groupAccept F _ g (.val b) = _
            simp only [groupAccept, hk, hm, groupPush, hv]
          have hd : (distinctFrom F.lt [] ((entries F (kept F as)).map (·.1))).any (fun a => same F.lt a k) = true := by
            rw [← h.names, hany, hm]; rfl
          constructor
          · rw [hps, hkept', he1, hsing.1, List.map_append, List.map_singleton, distinctFrom_snoc, if_pos hd]
            simp only [planStep, hacc]
            exact h.names
          · rw [hps, hkept', he1, he2, hsing.1, hsing.2, groupActs_snoc, ← h.acts, ← h.names]
            simp only [planStep, hacc]
            refine ⟨_, h.agree.perm, ?_⟩
            simp only [sim, hL, if_pos, groupActs, ← hfind k, hm]
            rw [sim_endAll _ _ _ hmod h.agree.nodup]
            simp [endActs]
      | none =>
        cases g with
        | true => simp [hm] at ht
        | false =>
          simp only [Bool.and_false, Bool.false_eq_true, if_false] at ht
          cases hv : F.value b with
          | ok v => rw [hv] at ht; cases ht
          | error e =>
            have hsing : entries F [.val b] = [(k, none)] ∧ gend F [.val b] = some (.err e) := by
              simp [entries, gend, hk, hv]
            have hkept' : kept F (as ++ [(Item.val b, false)]) = kept F as ++ [.val b] := by
              rw [kept_snoc]
              simp only [keepStep, hk]
              rw [h.keep, hany, hm]; rfl
            have hL : (plan (groupOper F) as).2.1 (plan (groupOper F) as).1.names.length = none := by
              rw [h.modes]; simp [gModes]
            have hag := h.agree.insert hl hm
            have hacc : (groupOper F).accept (plan (groupOper F) as).1 false (Item.val b) =
                (⟨mapInsert F.lt k (plan (groupOper F) as).1.names.length (plan (groupOper F) as).1.map, (plan (groupOper F) as).1.names ++ [k]⟩,
                  .create (plan (groupOper F) as).1.names.length :: .openW (plan (groupOper F) as).1.names.length ::
                    .stopIfDown (plan (groupOper F) as).1.names.length ::
                    endAll (mapInsert F.lt k (plan (groupOper F) as).1.names.length (plan (groupOper F) as).1.map) (.err e)) := by
              show groupAccept F _ false (.val b) = _
              simp only [groupAccept, hk, hm, groupPush, hv, Bool.false_eq_true, if_false, List.cons_append, List.nil_append]
            have hd : (distinctFrom F.lt [] ((entries F (kept F as)).map (·.1))).any (fun a => same F.lt a k) = false := by
              rw [← h.names, hany, hm]; rfl
            constructor
            · rw [hps, hkept', he1, hsing.1, List.map_append, List.map_singleton, distinctFrom_snoc, hd, ← h.names]
              simp only [planStep, hacc]
              rfl
            · rw [hps, hkept', he1, he2, hsing.1, hsing.2, groupActs_snoc, ← h.acts, ← h.names]
              simp only [planStep, hacc]
              refine ⟨_, hag.perm, ?_⟩
              simp only [sim, hL, if_pos, groupActs, ← hfind k, hm]
              rw [sim_endAll _ _ _ _ hag.nodup]
              · simp [endActs]
              · intro p hp
                split
                · rfl
                · next hne =>
                  rcases mapInsert_mem.mp hp with rfl | hp
                  · exact absurd rfl hne
                  · exact hmod p hp

theorem group_plan {F : GFun κ β α ε} (hl : Swo F.lt) (as : List (Item β ε × Bool))
    (h : runOk (groupOper F) as ∨ ∃ bs t, as = bs ++ [t] ∧ runOk (groupOper F) bs ∧
      (groupOper F).isTerm (plan (groupOper F) bs).1 t.2 t.1 = true) : GOut F as := by
  rcases h with h | ⟨bs, t, rfl, h1, h2⟩
  · exact .ofInv (gInv hl as h)
  · exact groupTerm_step hl (gInv hl bs h1) h2

/-! ## Group by group -/

/-- The distinct keys are told apart, and every key is among them. -/
theorem distinctFrom_spec {lt : κ → κ → Bool} (ks : List κ) :
    (distinctFrom lt [] ks).Pairwise (fun a b => same lt a b = false) ∧
      ((∀ a : κ, lt a a = false) → ∀ k ∈ ks, ∃ a ∈ distinctFrom lt [] ks, same lt a k = true) := by
  induction ks using snoc_induct with
  | h0 => exact ⟨List.Pairwise.nil, by simp⟩
  | h1 ks k ih =>
    rw [distinctFrom_snoc]
    split
    · next hd =>
      refine ⟨ih.1, fun hi a ha => ?_⟩
      rcases List.mem_append.mp ha with ha | ha
      · exact ih.2 hi a ha
      · rw [List.mem_singleton] at ha
        subst ha
        obtain ⟨n, hn, hs⟩ := List.any_eq_true.mp hd
        exact ⟨n, hn, hs⟩
    · next hd =>
      constructor
      · rw [List.pairwise_append]
        refine ⟨ih.1, List.pairwise_singleton _ _, ?_⟩
        intro a ha b hb
        rw [List.mem_singleton] at hb
        subst hb
        cases hs : same lt a b
        · rfl
        · exact absurd (List.any_eq_true.mpr ⟨a, ha, hs⟩) hd
      · intro hi a ha
        rcases List.mem_append.mp ha with ha | ha
        · obtain ⟨n, hn, hs⟩ := ih.2 hi a ha
          exact ⟨n, by simp [hn], hs⟩
        · rw [List.mem_singleton] at ha
          subst ha
          exact ⟨a, by simp, by simp [same, hi]⟩

theorem findIdx_unique {lt : κ → κ → Bool} (hl : Swo lt) {names : List κ}
    (hp : names.Pairwise (fun a b => same lt a b = false)) {w v : Nat} {a k : κ} (hw : names[w]? = some a)
    (hv : names.findIdx? (fun a => same lt a k) = some v) : same lt a k = true ↔ v = w := by
  obtain ⟨hlt, h1, _⟩ := List.findIdx?_eq_some_iff_getElem.mp hv
  obtain ⟨hwlt, hwe⟩ := List.getElem?_eq_some_iff.mp hw
  constructor
  · intro hs
    have hss : same lt names[v] names[w] = true := by
      rw [hwe]; exact hl.same_trans _ _ _ h1 (same_symm hs)
    rcases Nat.lt_trichotomy v w with h | h | h
    · have := List.pairwise_iff_getElem.mp hp v w hlt hwlt h
      rw [hss] at this; cases this
    · exact h
    · have := List.pairwise_iff_getElem.mp hp w v hwlt hlt h
      rw [same_symm hss] at this; cases this
  · rintro rfl
    rw [← hwe]; exact h1

theorem groupActs_feds {lt : κ → κ → Bool} (hl : Swo lt) (es : List (κ × Option α)) (w : Nat) :
    fedsA w (groupActs (ε := ε) lt [] es) = match (distinctFrom lt [] (es.map (·.1)))[w]? with
      | some k => es.filterMap (fun p => if same lt k p.1 then p.2.map .val else none)
      | none => [] := by
  induction es using snoc_induct with
  | h0 => simp [groupActs, fedsA, distinctFrom]
  | h1 es e ih =>
    obtain ⟨k, v⟩ := e
    rw [groupActs_snoc, fedsA_append, ih, List.map_append, List.map_singleton, distinctFrom_snoc]
    have hspec := distinctFrom_spec (lt := lt) (es.map (·.1))
    generalize hN : distinctFrom lt [] (es.map (·.1)) = names at hspec
    have hany := any_findIdx names (fun a => same lt a k)
    cases hf : names.findIdx? (fun a => same lt a k) with
    | some u =>
      rw [hf] at hany
      simp only [Option.isSome_some] at hany
      rw [if_pos hany]
      have hact : groupActs (ε := ε) lt names [(k, v)] = (v.map (fun v => Act.fed u (.val v))).toList := by
        simp [groupActs, hf]
      rw [hact]
      cases hw : names[w]? with
      | none =>
        simp only [List.nil_append]
        have hu := (List.findIdx?_eq_some_iff_getElem.mp hf).1
        have hwl := List.getElem?_eq_none_iff.mp hw
        cases v with
        | none => rfl
        | some v => simp only [Option.map_some, Option.toList_some, fedsA]; rw [if_neg (by omega)]
      | some a =>
        have hiff := findIdx_unique hl hspec.1 hw hf
        simp only [List.filterMap_append]
        congr 1
        cases v with
        | none => simp [fedsA]
        | some v =>
          simp only [Option.map_some, Option.toList_some, fedsA]
          by_cases h : u = w
          · simp [h, hiff.mpr h]
          · have : same lt a k = false := by
              cases hs : same lt a k
              · rfl
              · exact absurd (hiff.mp hs) h
            simp [h, this]
    | none =>
      rw [hf] at hany
      simp only [Option.isSome_none] at hany
      rw [hany]
      simp only [Bool.false_eq_true, if_false]
      have hact : groupActs (ε := ε) lt names [(k, v)] = .opened names.length :: (v.map (fun v => Act.fed names.length (.val v))).toList := by
        simp [groupActs, hf]
      rw [hact]
      have hnone : ∀ a ∈ names, same lt a k = false := by
        intro a ha
        cases hs : same lt a k
        · rfl
        · have : names.any (fun a => same lt a k) = true := List.any_eq_true.mpr ⟨a, ha, hs⟩
          rw [hany] at this; cases this
      rw [List.getElem?_append]
      by_cases hw : w < names.length
      · rw [if_pos hw, List.getElem?_eq_getElem hw]
        have := hnone names[w] (List.getElem_mem hw)
        have hne : names.length ≠ w := by omega
        simp only [List.filterMap_append, fedsA]
        cases v with
        | none => simp [fedsA]
        | some v => simp [fedsA, this, hne]
      · rw [if_neg hw, List.getElem?_eq_none (by omega)]
        by_cases hw' : w = names.length
        · subst hw'
          have hno : es.filterMap (fun p => if same lt k p.1 then p.2.map (Item.val (ε := ε)) else none) = [] := by
            rw [List.filterMap_eq_nil_iff]
            intro p hp
            rw [if_neg]
            intro hs
            obtain ⟨a, ha, hs'⟩ := hspec.2 hl.irrefl p.1 (List.mem_map_of_mem hp)
            have := hl.same_trans _ _ _ hs' (same_symm hs)
            rw [hnone a ha] at this; cases this
          simp only [Nat.sub_self, List.getElem?_cons_zero, List.filterMap_append, hno]
          cases v with
          | none => simp [fedsA]
          | some v => simp [fedsA, hl.same_refl]
        · have hne : names.length ≠ w := by omega
          have : ([k] : List κ)[w - names.length]? = none := List.getElem?_eq_none (by simp; omega)
          rw [this]
          cases v with
          | none => simp [fedsA]
          | some v => simp [fedsA, hne]

theorem groupActs_opens (lt : κ → κ → Bool) (es : List (κ × Option α)) :
    opensA (groupActs (ε := ε) lt [] es) = List.range (distinctFrom lt [] (es.map (·.1))).length ∧
      endsA (groupActs (ε := ε) lt [] es) = [] := by
  induction es using snoc_induct with
  | h0 => exact ⟨rfl, rfl⟩
  | h1 es e ih =>
    obtain ⟨k, v⟩ := e
    rw [groupActs_snoc, opensA_append, endsA_append, ih.1, ih.2, List.map_append, List.map_singleton, distinctFrom_snoc]
    generalize distinctFrom lt [] (es.map (·.1)) = names
    have hany := any_findIdx names (fun a => same lt a k)
    cases hf : names.findIdx? (fun a => same lt a k) with
    | some u =>
      rw [hf] at hany
      simp only [Option.isSome_some] at hany
      rw [if_pos hany]
      cases v <;> simp [groupActs, hf, opensA, endsA]
    | none =>
      rw [hf] at hany
      rw [hany]
      cases v <;> simp [groupActs, hf, opensA, endsA, List.range_succ]

theorem fedsA_order (order : List Nat) (n w : Nat) (x : Item α ε) (h : order.Perm (List.range n)) :
    fedsA w (order.map (fun w => Act.fed w x)) = if w < n then [x] else [] := by
  have hn : order.Nodup := h.nodup_iff.mpr List.nodup_range
  have hm : w ∈ order ↔ w < n := by rw [h.mem_iff, List.mem_range]
  rw [show (if w < n then [x] else []) = if w ∈ order then [x] else [] by simp [hm]]
  clear h hm
  induction order with
  | nil => rfl
  | cons u order ih =>
    obtain ⟨h1, h2⟩ := List.nodup_cons.mp hn
    simp only [List.map_cons, fedsA, ih h2, List.mem_cons]
    by_cases hu : u = w
    · subst hu; simp [h1]
    · simp [hu, Ne.symm hu]

/-- The projections of a plan. -/
theorem GOut.proj {F : GFun κ β α ε} (hl : Swo F.lt) {as} (h : GOut F as) :
    (∀ w, fedsA w (plan (groupOper F) as).2.2 = match (plan (groupOper F) as).1.names[w]? with
      | some k => groupGets F (kept F as) k
      | none => []) ∧
    opensA (plan (groupOper F) as).2.2 = List.range (plan (groupOper F) as).1.names.length ∧
    endsA (plan (groupOper F) as).2.2 = (gend F (kept F as)).toList := by
  obtain ⟨hn, order, hp, ha⟩ := h
  rw [ha]
  refine ⟨fun w => ?_, ?_, ?_⟩
  · rw [fedsA_append, groupActs_feds hl, ← hn]
    cases hg : gend F (kept F as) with
    | none =>
      simp only [endActs, fedsA, List.append_nil, groupGets, hg, Option.toList_none]
    | some x =>
      simp only [endActs, fedsA_append, fedsA_order _ _ _ _ hp]
      cases hw : (plan (groupOper F) as).1.names[w]? with
      | none =>
        rw [if_neg (by have := List.getElem?_eq_none_iff.mp hw; omega)]
        rfl
      | some k =>
        rw [if_pos (List.getElem?_eq_some_iff.mp hw).1]
        simp [groupGets, hg, fedsA]
  · rw [opensA_append, (groupActs_opens F.lt _).1, ← hn]
    have : opensA (endActs order (gend F (kept F as))) = [] := by
      cases gend F (kept F as) with
      | none => rfl
      | some x =>
        simp only [endActs, opensA_append]
        have : ∀ l : List Nat, opensA (l.map (fun w => Act.fed w x)) = [] := by
          intro l; induction l with
          | nil => rfl
          | cons a l ih => simpa [opensA] using ih
        rw [this]; rfl
    rw [this, List.append_nil]
  · rw [endsA_append, (groupActs_opens F.lt _).2, List.nil_append]
    cases gend F (kept F as) with
    | none => rfl
    | some x =>
      simp only [endActs, endsA_append]
      have : ∀ l : List Nat, endsA (l.map (fun w => Act.fed w x)) = [] := by
        intro l; induction l with
        | nil => rfl
        | cons a l ih => simpa [endsA] using ih
      rw [this]; rfl

/-- Nobody leaves: everything is kept. -/
theorem kept_all (F : GFun κ β α ε) (as : List (Item β ε × Bool)) (h : ∀ a ∈ as, a.2 = false) :
    kept F as = as.map (·.1) := by
  induction as using snoc_induct with
  | h0 => rfl
  | h1 as a ih =>
    have := ih (fun a ha => h a (by simp [ha]))
    have ha := h a (by simp)
    obtain ⟨x, g⟩ := a
    simp only at ha
    subst ha
    rw [kept_snoc, List.map_append, List.map_singleton, ← this]
    cases x with
    | val b =>
      simp only [keepStep]
      cases F.key b with
      | error e => rfl
      | ok k => simp only; split <;> rfl
    | err e => rfl
    | done => rfl

theorem groupOper_ok (F : GFun κ β α ε) : (groupOper F).Ok := by
  have hend : ∀ (m : List (κ × Nat)) (x : Item α ε), (endAll m x).all (fun i => !i.isCall) = true ∧ endLast (endAll m x) = true := by
    intro m x
    unfold endAll
    induction m with
    | nil => exact ⟨rfl, rfl⟩
    | cons p m ih => exact ⟨by simpa [Instr.isCall] using ih.1, by simpa [endLast] using ih.2⟩
  have hpush : ∀ m w b, (groupPush F m w b).all (fun i => !i.isCall) = true ∧ endLast (groupPush F m w b) = true ∧
      (hasEnd (groupPush F m w b) = true → Except.isErr (F.value b) = true) := by
    intro m w b
    unfold groupPush
    cases F.value b with
    | ok v => exact ⟨rfl, rfl, fun h => by cases h⟩
    | error e => exact ⟨by simpa [Instr.isCall] using (hend m (.err e)).1, (hend m (.err e)).2, fun _ => rfl⟩
  constructor
  · intro q g x
    show (groupAccept F q g x).2.all _ = true
    cases x with
    | val b =>
      simp only [groupAccept]
      cases F.key b with
      | error e => exact (hend _ _).1
      | ok k =>
        simp only
        split
        · exact (hpush _ _ _).1
        · split
          · rfl
          · simpa [Instr.isCall] using (hpush _ _ _).1
    | err e => exact (hend _ _).1
    | done => exact (hend _ _).1
  · intro q g x
    show endLast (groupAccept F q g x).2 = true
    cases x with
    | val b =>
      simp only [groupAccept]
      cases F.key b with
      | error e => exact (hend _ _).2
      | ok k =>
        simp only
        split
        · exact (hpush _ _ _).2.1
        · split
          · rfl
          · simpa [endLast] using (hpush _ _ _).2.1
    | err e => exact (hend _ _).2
    | done => exact (hend _ _).2
  · intro q g x
    show hasEnd (groupAccept F q g x).2 = true → groupTerm F q g x = true
    cases x with
    | val b =>
      simp only [groupAccept, groupTerm]
      cases F.key b with
      | error e => intro _; rfl
      | ok k =>
        simp only
        cases mapFind F.lt k q.map with
        | some w => simpa using (hpush _ _ _).2.2
        | none =>
          cases g with
          | true => intro h; cases h
          | false => simpa [hasEnd] using (hpush _ _ _).2.2
    | err e => intro _; rfl
    | done => intro _; rfl

end Rpp.Win
