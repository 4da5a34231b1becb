import Verif.Window.FeedBack

/-! # Invariants of group_by and window fed by their own subscribers -/

namespace Rpp.WFeed

namespace Group

variable {κ α : Type} [DecidableEq κ]

theorem firsts_snoc (ks : List κ) (k : κ) :
    firsts (ks ++ [k]) = if k ∈ firsts ks then firsts ks else firsts ks ++ [k] := by
  unfold firsts; rw [List.foldl_append]; rfl

theorem rev_ind {β : Type} {P : List β → Prop} (h0 : P []) (h1 : ∀ l a, P l → P (l ++ [a])) (l : List β) : P l := by
  rw [← List.reverse_reverse l]
  generalize l.reverse = m
  induction m with
  | nil => exact h0
  | cons a m ih => rw [List.reverse_cons]; exact h1 _ _ ih

theorem mem_firsts (ks : List κ) (k : κ) : k ∈ firsts ks ↔ k ∈ ks := by
  induction ks using rev_ind with
  | h0 => simp [firsts]
  | h1 l a ih =>
    rw [firsts_snoc]
    by_cases h : a ∈ firsts l <;> simp only [h, if_true, if_false] <;> grind

theorem firsts_nodup (ks : List κ) : (firsts ks).Nodup := by
  induction ks using rev_ind with
  | h0 => simp [firsts]
  | h1 l a ih =>
    rw [firsts_snoc]
    split
    · exact ih
    · next h => exact List.nodup_append.2 ⟨ih, by simp, by rintro x hx y hy rfl; simp at hy; subst hy; exact h hx⟩

theorem nodup_inj {β : Type} {l : List β} (h : l.Nodup) {i j : Nat} {x : β} (h1 : l[i]? = some x) (h2 : l[j]? = some x) :
    i = j := by
  obtain ⟨a1, a2⟩ := List.getElem?_eq_some_iff.1 h1
  obtain ⟨b1, b2⟩ := List.getElem?_eq_some_iff.1 h2
  have h3 := List.pairwise_iff_getElem.1 h
  rcases Nat.lt_trichotomy i j with hl | hl | hl
  · exact absurd (a2.trans b2.symm) (h3 i j a1 b1 hl)
  · exact hl
  · exact absurd (b2.trans a2.symm) (h3 j i b1 a1 hl)

theorem find_none {k : κ} {m : List (κ × Nat)} : find k m = none ↔ ∀ p ∈ m, p.1 ≠ k := by
  simp [find, List.find?_eq_none]

theorem find_some {k : κ} {m : List (κ × Nat)} {g : Nat} (h : find k m = some g) : (k, g) ∈ m := by
  simp only [find, Option.map_eq_some_iff] at h
  obtain ⟨p, h1, h2⟩ := h
  have h3 := List.mem_of_find?_eq_some h1
  have h4 := List.find?_some h1
  simp at h4
  rw [← h2, ← h4]; exact h3

/-- The values that wait for the announcement of group `g`. Used in the proofs; models no code. -/
def waits (g : Nat) (st : List (Frame κ α)) : List α :=
  st.filterMap fun | .opening g' _ a => if g' = g then some a else none | .value => none

omit [DecidableEq κ] in
theorem opens_snoc (log : List (Note κ α)) (n : Note κ α) :
    opens (log ++ [n]) = opens log ++ (match n with | .opened _ k => [k] | _ => []) := by
  simp only [opens, List.filterMap_append]; cases n <;> rfl

omit [DecidableEq κ] in
theorem gets_snoc (g : Nat) (log : List (Note κ α)) (n : Note κ α) :
    gets g (log ++ [n]) = gets g log ++ (match n with | .val g' a => if g' = g then [a] else [] | _ => []) := by
  simp only [gets, List.filterMap_append]
  cases n with
  | val g' a => by_cases h : g' = g <;> simp [h]
  | _ => rfl

omit [DecidableEq κ] in
theorem ends_snoc (g : Nat) (log : List (Note κ α)) (n : Note κ α) :
    ends g (log ++ [n]) = ends g log + (match n with | .ended g' => if g' = g then 1 else 0 | _ => 0) := by
  simp only [ends, List.countP_append]
  cases n with
  | ended g' => by_cases h : g' = g <;> simp [h]
  | _ => rfl

/-- Invariant of the proofs; models no code. -/
structure Inv (key : α → κ) (s : St κ α) : Prop where
  next : s.next = (opens s.log).length
  order : opens s.log = firsts (s.fed.map key)
  uniq : (s.map.map (·.1)).Nodup
  map : ∀ p ∈ s.map, (opens s.log)[p.2]? = some p.1
  stk : ∀ g k a, .opening g k a ∈ s.stack → (opens s.log)[g]? = some k ∧ find k s.map = none
  nodup : (s.stack.filterMap Frame.key?).Nodup
  all : ∀ k ∈ opens s.log, (∃ g, (k, g) ∈ s.map) ∨ opening k s.stack = true
  gets : ∀ g k, (opens s.log)[g]? = some k → gets g s.log ++ waits g s.stack = s.fed.filter (fun a => key a = k)
  none : ∀ g, s.next ≤ g → Group.gets g s.log = [] ∧ waits g s.stack = []
  quiet : s.closed = true → s.stack.all (fun f => f.key?.isNone) = true
  ends : ∀ g, Group.ends g s.log = if s.closed then (s.map.map (·.2)).count g else 0

theorem opening_iff {k : κ} {st : List (Frame κ α)} : opening k st = true ↔ ∃ g a, .opening g k a ∈ st := by
  simp only [opening, List.any_eq_true, decide_eq_true_eq]
  constructor
  · rintro ⟨f, hf, h⟩
    cases f with
    | opening g k' a => simp [Frame.key?] at h; subst h; exact ⟨g, a, hf⟩
    | value => simp [Frame.key?] at h
  · rintro ⟨g, a, h⟩; exact ⟨_, h, rfl⟩

theorem Inv.init (key : α → κ) : Inv key ({} : St κ α) := by
  constructor <;> simp [opens, firsts, Group.gets, waits, Group.ends]

variable {key : α → κ} {s : St κ α}

theorem idx_inj (h : Inv key s) {g g' : Nat} {k : κ} (h1 : (opens s.log)[g]? = some k) (h2 : (opens s.log)[g']? = some k) :
    g = g' := by
  have hn : (opens s.log).Nodup := by rw [h.order]; exact firsts_nodup _
  exact nodup_inj hn h1 h2

theorem Inv.feed (h : Inv key s) (a : α) (hc : (step key s (.feed a)).calm = true) : Inv key (step key s (.feed a)) := by
  revert hc
  simp only [step]
  split
  · exact fun _ => h
  next hcl =>
  have hcl : s.closed = false := by simpa using hcl
  obtain ⟨h1, h2, h3, h4, h5, h5', h6, h7, h8, h9, h10⟩ := h
  have hfed : s.fed.map key ++ [key a] = (s.fed ++ [a]).map key := by simp
  split
  · next g hg =>
    intro hc
    have hm := find_some hg
    have hog := h4 _ hm
    have hin : key a ∈ firsts (s.fed.map key) := by rw [← h2]; exact List.mem_of_getElem? hog
    refine ⟨?_, ?_, h3, ?_, ?_, ?_, ?_, ?_, ?_, ?_, ?_⟩
    · rw [opens_snoc]; simpa using h1
    · rw [opens_snoc, ← hfed, firsts_snoc, if_pos hin]; simpa using h2
    · rw [opens_snoc]; simpa using h4
    · rw [opens_snoc]; simpa using h5
    · exact h5'
    · rw [opens_snoc]
      intro k hk
      rcases h6 k (by simpa using hk) with h | h
      · exact Or.inl h
      · refine Or.inr ?_
        simp only [opening, List.any_cons, Bool.or_eq_true]
        exact Or.inr h
    · rw [opens_snoc]
      intro g' k hk
      have hk : (opens s.log)[g']? = some k := by simpa using hk
      have := h7 g' k hk
      rw [gets_snoc]
      dsimp only
      have hw : waits g' (.value :: s.stack) = waits g' s.stack := by simp [waits]
      rw [hw]
      by_cases e : g = g'
      · subst e
        rw [hog] at hk
        cases hk
        have hno : waits g s.stack = [] := by
          -- an announced group in the map is not waiting any more
          rw [waits, List.filterMap_eq_nil_iff]
          intro f hf
          cases f with
          | value => rfl
          | opening g' k a' =>
            dsimp only
            split
            · next e =>
              subst e
              have hs := h5 _ _ _ hf
              rw [hog] at hs
              have h := hs.1
              cases h
              rw [hg] at hs; exact absurd hs.2 (by simp)
            · rfl
        rw [hno, List.append_nil] at this ⊢
        simp [this]
      · rw [if_neg e, List.append_nil, this]
        have : key a ≠ k := by
          intro e'; subst e'
          have hn : (opens s.log).Nodup := by rw [h2]; exact firsts_nodup _
          exact e (nodup_inj hn hog hk)
        simp [this]
    · intro g' hg'
      rw [gets_snoc]
      have hlt : g < s.next := by
        obtain ⟨a1, _⟩ := List.getElem?_eq_some_iff.1 hog
        rw [h1]; exact a1
      have := h8 g' hg'
      have e : g ≠ g' := by simp at hg'; omega
      simp [e, this, waits]
      simpa [waits] using this.2
    · intro h; rw [hcl] at h; cases h
    · intro g'; rw [ends_snoc]; simpa using h10 g'
  · next hg =>
    intro hc
    simp only [Bool.and_eq_true, Bool.not_eq_true'] at hc
    have hnew : key a ∉ firsts (s.fed.map key) := by
      rw [← h2]; intro hk
      rcases h6 _ hk with ⟨g, hm⟩ | ho
      · exact find_none.1 hg _ hm rfl
      · rw [hc.2] at ho; cases ho
    have hlen : (opens s.log ++ [key a])[s.next]? = some (key a) := by rw [h1]; simp
    have hold : ∀ {g : Nat} {k : κ}, (opens s.log)[g]? = some k → (opens s.log ++ [key a])[g]? = some k := by
      intro g k hk
      obtain ⟨a1, a2⟩ := List.getElem?_eq_some_iff.1 hk
      rw [List.getElem?_append_left a1]; exact hk
    refine ⟨?_, ?_, h3, ?_, ?_, ?_, ?_, ?_, ?_, ?_, ?_⟩
    · rw [opens_snoc]; simp [h1]
    · rw [opens_snoc, ← hfed, firsts_snoc, if_neg hnew, h2]
    · rw [opens_snoc]; exact fun p hp => hold (h4 p hp)
    · rw [opens_snoc]
      intro g k a' hm
      rcases List.mem_cons.1 hm with hm | hm
      · cases hm; exact ⟨hlen, hg⟩
      · exact ⟨hold (h5 g k a' hm).1, (h5 g k a' hm).2⟩
    · simp only [List.filterMap_cons, Frame.key?]
      refine List.nodup_cons.2 ⟨?_, h5'⟩
      intro hm
      simp only [List.mem_filterMap] at hm
      obtain ⟨f, hf, hk⟩ := hm
      cases f with
      | value => simp [Frame.key?] at hk
      | opening g k a' =>
        simp [Frame.key?] at hk
        subst hk
        have : opening (key a) s.stack = true := opening_iff.2 ⟨_, _, hf⟩
        rw [hc.2] at this; cases this
    · rw [opens_snoc]
      intro k hk
      rcases List.mem_append.1 hk with hk | hk
      · rcases h6 k hk with h | h
        · exact Or.inl h
        · refine Or.inr ?_
          simp only [opening, List.any_cons, Bool.or_eq_true]
          exact Or.inr h
      · simp at hk; subst hk
        exact Or.inr (by simp [opening, Frame.key?])
    · rw [opens_snoc]
      intro g k hk
      dsimp only at hk
      rw [gets_snoc]
      dsimp only
      rw [List.append_nil]
      by_cases e : g = s.next
      · subst e
        rw [hlen] at hk
        cases hk
        have := h8 s.next (Nat.le_refl _)
        have hf : s.fed.filter (fun b => key b = key a) = [] := by
          rw [List.filter_eq_nil_iff]
          intro b hb hk
          simp only [decide_eq_true_eq] at hk
          refine hnew ((mem_firsts _ _).2 ?_)
          rw [← hk]; exact List.mem_map_of_mem hb
        simp [this.1, waits, hf]
        simpa [waits] using this.2
      · have hk : (opens s.log)[g]? = some k := by
          rw [h1] at e
          rcases Nat.lt_or_ge g (opens s.log).length with hl | hl
          · rw [List.getElem?_append_left hl] at hk; exact hk
          · rw [List.getElem?_append_right hl, List.getElem?_eq_none (by simp; omega)] at hk; cases hk
        have hne : key a ≠ k := by
          rintro rfl; exact hnew (by rw [← h2]; exact List.mem_of_getElem? hk)
        have hw : waits g (.opening s.next (key a) a :: s.stack) = waits g s.stack := by
          have : ¬ s.next = g := fun h => e h.symm
          simp [waits, this]
        rw [hw, h7 g k hk]
        simp [hne]
    · intro g hg'
      rw [gets_snoc]
      have h' : s.next ≤ g := Nat.le_of_succ_le hg'
      have := h8 g h'
      have e : ¬ s.next = g := by simp at hg'; omega
      have hw : waits g (.opening s.next (key a) a :: s.stack) = waits g s.stack := by simp [waits, e]
      rw [hw]
      simp [this]
    · intro h; rw [hcl] at h; cases h
    · intro g'; rw [ends_snoc]; simpa using h10 g'

omit [DecidableEq κ] in
theorem opens_ended (log : List (Note κ α)) (m : List (κ × Nat)) : opens (log ++ m.map (fun p => .ended p.2)) = opens log := by
  have : opens (m.map (fun p => (.ended p.2 : Note κ α))) = [] := by
    simp only [opens, List.filterMap_eq_nil_iff, List.mem_map]
    rintro n ⟨p, _, rfl⟩; rfl
  rw [opens, List.filterMap_append]
  rw [opens] at this
  rw [this, List.append_nil]; rfl

omit [DecidableEq κ] in
theorem gets_ended (g : Nat) (log : List (Note κ α)) (m : List (κ × Nat)) :
    gets g (log ++ m.map (fun p => .ended p.2)) = gets g log := by
  have : gets g (m.map (fun p => (.ended p.2 : Note κ α))) = [] := by
    simp only [gets, List.filterMap_eq_nil_iff, List.mem_map]
    rintro n ⟨p, _, rfl⟩; rfl
  rw [gets, List.filterMap_append]
  rw [gets] at this
  rw [this, List.append_nil]; rfl

omit [DecidableEq κ] in
theorem ends_ended (g : Nat) (log : List (Note κ α)) (m : List (κ × Nat)) :
    ends g (log ++ m.map (fun p => .ended p.2)) = ends g log + (m.map (·.2)).count g := by
  simp only [ends, List.countP_append, List.countP_map, List.count, Nat.add_left_cancel_iff]
  rfl

theorem Inv.finish (h : Inv key s) (hc : (step key s .finish).calm = true) : Inv key (step key s .finish) := by
  revert hc
  simp only [step]
  split
  · exact fun _ => h
  next hcl =>
  have hcl : s.closed = false := by simpa using hcl
  intro hc
  simp only [Bool.and_eq_true] at hc
  obtain ⟨h1, h2, h3, h4, h5, h5', h6, h7, h8, h9, h10⟩ := h
  have ho : opens (s.log ++ s.map.map (fun p => .ended p.2) ++ [.over]) = opens s.log := by
    rw [opens_snoc, opens_ended]; simp
  have hg : ∀ g, Group.gets g (s.log ++ s.map.map (fun p => .ended p.2) ++ [.over]) = Group.gets g s.log := by
    intro g; rw [gets_snoc, gets_ended]; simp
  refine ⟨?_, ?_, h3, ?_, ?_, h5', ?_, ?_, ?_, fun _ => hc.2, ?_⟩
  · dsimp only; rw [ho]; exact h1
  · dsimp only; rw [ho]; exact h2
  · dsimp only; rw [ho]; exact h4
  · dsimp only; rw [ho]; exact h5
  · dsimp only; rw [ho]; exact h6
  · dsimp only; rw [ho]; intro g k hk; rw [hg]; exact h7 g k hk
  · intro g hk; rw [hg]; exact h8 g hk
  · intro g
    rw [ends_snoc, ends_ended, h10 g, hcl]; simp

theorem Inv.ret (h : Inv key s) : Inv key (step key s .ret) := by
  simp only [step]
  split
  · exact h
  · next st hst =>
    obtain ⟨h1, h2, h3, h4, h5, h5', h6, h7, h8, h9, h10⟩ := h
    rw [hst] at h5 h5' h6 h7 h8 h9
    refine ⟨h1, h2, h3, h4, fun g k a hm => h5 g k a (by simp [hm]), h5', fun k hk => ?_, fun g k hk => ?_, fun g hk => ?_, ?_, h10⟩
    · rcases h6 k hk with h | h
      · exact Or.inl h
      · refine Or.inr ?_
        simpa [opening, Frame.key?] using h
    · exact h7 g k hk
    · exact h8 g hk
    · intro hcl; have := h9 hcl
      rw [List.all_cons, Bool.and_eq_true] at this; exact this.2
  · next g k a st hst =>
    have hinj := @idx_inj _ _ _ key s h
    obtain ⟨h1, h2, h3, h4, h5, h5', h6, h7, h8, h9, h10⟩ := h
    rw [hst] at h5 h5' h6 h7 h8 h9
    obtain ⟨hk1, hk2⟩ := h5 g k a (by simp)
    have hcl : s.closed = false := by
      cases hc : s.closed with
      | false => rfl
      | true => have := h9 hc; simp [Frame.key?] at this
    have hnd : k ∉ st.filterMap Frame.key? ∧ (st.filterMap Frame.key?).Nodup := by
      rw [List.filterMap_cons] at h5'
      exact List.nodup_cons.1 h5'
    have hnk : ∀ g' a', .opening g' k a' ∉ st := fun g' a' hm =>
      hnd.1 (List.mem_filterMap.2 ⟨_, hm, rfl⟩)
    have hlt : g < s.next := by
      obtain ⟨a1, _⟩ := List.getElem?_eq_some_iff.1 hk1
      rw [h1]; exact a1
    rw [hk2]
    dsimp only
    have ho : opens (s.log ++ [.val g a]) = opens s.log := by rw [opens_snoc]; simp
    have hw0 : waits g st = [] := by
      rw [waits, List.filterMap_eq_nil_iff]
      intro f hf
      cases f with
      | value => rfl
      | opening g' k' a' =>
        dsimp only
        split
        · next e =>
          subst e
          have hs := (h5 _ _ _ (List.mem_cons_of_mem _ hf)).1
          rw [hk1] at hs; cases hs
          exact absurd hf (hnk _ _)
        · rfl
    refine ⟨?_, ?_, ?_, ?_, ?_, hnd.2, ?_, ?_, ?_, ?_, ?_⟩
    · dsimp only; rw [ho]; exact h1
    · dsimp only; rw [ho]; exact h2
    · simp only [List.map_append, List.map_cons, List.map_nil]
      refine List.nodup_append.2 ⟨h3, by simp, ?_⟩
      rintro x hx y hy rfl
      simp at hy; subst hy
      obtain ⟨p, hp, rfl⟩ := List.mem_map.1 hx
      exact find_none.1 hk2 p hp rfl
    · dsimp only; rw [ho]
      intro p hp
      rcases List.mem_append.1 hp with hp | hp
      · exact h4 p hp
      · simp at hp; subst hp; exact hk1
    · dsimp only; rw [ho]
      intro g' k' a' hm
      rcases List.mem_cons.1 hm with hm | hm
      · cases hm
      · obtain ⟨hs1, hs2⟩ := h5 g' k' a' (List.mem_cons_of_mem _ hm)
        refine ⟨hs1, find_none.2 fun p hp => ?_⟩
        rcases List.mem_append.1 hp with hp | hp
        · exact find_none.1 hs2 p hp
        · simp at hp; subst hp
          intro e; dsimp only at e; subst e; exact hnk _ _ hm
    · dsimp only; rw [ho]
      intro k' hk'
      rcases h6 k' hk' with ⟨g', h⟩ | h
      · exact Or.inl ⟨g', by simp [h]⟩
      · obtain ⟨g', a', hm⟩ := opening_iff.1 h
        rcases List.mem_cons.1 hm with hm | hm
        · cases hm; exact Or.inl ⟨g, by simp⟩
        · exact Or.inr (opening_iff.2 ⟨g', a', by simp [hm]⟩)
    · dsimp only; rw [ho]
      intro g' k' hk'
      rw [gets_snoc]
      dsimp only
      have hw : waits g' (.value :: st) = waits g' st := by simp [waits]
      have := h7 g' k' hk'
      rw [hw]
      by_cases e : g = g'
      · subst e
        rw [if_pos rfl, hw0, ← this]
        have : waits g (.opening g k a :: st) = a :: waits g st := by simp [waits]
        rw [this, hw0]; simp
      · rw [if_neg e, List.append_nil, ← this]
        have : waits g' (.opening g k a :: st) = waits g' st := by simp [waits, e]
        rw [this]
    · intro g' hg'
      dsimp only at hg'
      have := h8 g' hg'
      have e : g ≠ g' := by omega
      have hw' : waits g' (.opening g k a :: st) = waits g' st := by simp [waits, e]
      have hw : waits g' (.value :: st) = waits g' st := by simp [waits]
      rw [gets_snoc, hw, ← hw', this.2]
      simp [e, this.1]
    · intro h; dsimp only at h; rw [hcl] at h; cases h
    · intro g'; rw [ends_snoc, h10 g', hcl]; simp

theorem calm_back (l : Lbl α) (h : (step key s l).calm = true) : s.calm = true := by
  revert h
  cases l <;> simp only [step]
  · split
    · exact id
    · split <;> simp only [Bool.and_eq_true] <;> exact fun h => h.1
  · split
    · exact id
    · simp only [Bool.and_eq_true]; exact fun h => h.1
  · split
    · exact id
    · exact id
    · split <;> exact id

theorem inv (key : α → κ) (ls : List (Lbl α)) (h : (exec key ls).calm = true) : Inv key (exec key ls) := by
  induction ls using rev_ind with
  | h0 => exact Inv.init key
  | h1 ls l ih =>
    have he : exec key (ls ++ [l]) = step key (exec key ls) l := by simp [exec, List.foldl_append]
    rw [he] at h ⊢
    have h' := ih (calm_back l h)
    cases l with
    | feed a => exact h'.feed a h
    | finish => exact h'.finish h
    | ret => exact h'.ret

end Group

namespace Count

variable {α : Type}

theorem spread_snoc (n : Nat) (as : List α) (a : α) : spread n (as ++ [a]) = spread n as ++ [(as.length / n, a)] := by
  simp [spread, List.mapIdx_append]

theorem vals_snoc (log : List (Note α)) (x : Note α) :
    vals (log ++ [x]) = vals log ++ (match x with | .val w a => [(w, a)] | _ => []) := by
  simp only [vals, List.filterMap_append]; cases x <;> rfl

theorem opens_snoc (log : List (Note α)) (x : Note α) :
    opens (log ++ [x]) = opens log ++ (match x with | .opened w => [w] | _ => []) := by
  simp only [opens, List.filterMap_append]; cases x <;> rfl

theorem ends_snoc (log : List (Note α)) (x : Note α) :
    ends (log ++ [x]) = ends log ++ (match x with | .ended w => [w] | _ => []) := by
  simp only [ends, List.filterMap_append]; cases x <;> rfl

theorem overs_snoc (log : List (Note α)) (x : Note α) :
    overs (log ++ [x]) = overs log + (match x with | .over => 1 | _ => 0) := by
  simp only [overs, List.countP_append]; cases x <;> rfl

/-- Invariant of the proofs; models no code. -/
inductive Inv (n : Nat) : St α → Prop where
  | idle {s : St α} (h1 : s.stack = []) (h2 : s.cur = none) (h3 : s.items = n) (h4 : s.fed.length = s.next * n)
      (h5 : vals s.log = spread n s.fed) (h6 : opens s.log = List.range s.next) (h7 : ends s.log = List.range s.next)
      (h8 : s.ub = false) (h9 : s.done = List.range s.next) (h10 : s.closed = false) (h11 : overs s.log = 0) : Inv n s
  | opening {s : St α} (w : Nat) (a : α) (h1 : s.stack = [.opening a]) (h2 : s.cur = some w) (h3 : s.next = w + 1)
      (h4 : s.fed.length = w * n + 1) (h5 : vals s.log ++ [(w, a)] = spread n s.fed)
      (h6 : opens s.log = List.range (w + 1)) (h7 : ends s.log = List.range w) (h8 : s.ub = false)
      (h9 : s.done = List.range w) (h10 : s.closed = false) (h11 : overs s.log = 0) : Inv n s
  | inside {s : St α} (w m : Nat) (h1 : s.stack = List.replicate m .value) (h2 : s.cur = some w) (h3 : s.next = w + 1)
      (h3' : s.items < n) (h3'' : s.items + m ≤ n) (h0 : 0 < s.items + m) (h4 : s.fed.length = w * n + (s.items + m))
      (h5 : vals s.log = spread n s.fed)
      (h6 : opens s.log = List.range (w + 1)) (h7 : ends s.log = List.range w) (h8 : s.ub = false)
      (h9 : s.done = List.range w) (h10 : s.closed = false) (h11 : overs s.log = 0) : Inv n s
  | ending {s : St α} (w : Nat) (h1 : s.stack = [.ending]) (h2 : s.cur = some w) (h3 : s.next = w + 1)
      (h3' : s.items = n) (h4 : s.fed.length = (w + 1) * n) (h5 : vals s.log = spread n s.fed)
      (h6 : opens s.log = List.range (w + 1)) (h7 : ends s.log = List.range (w + 1)) (h8 : s.ub = false)
      (h9 : s.done = List.range (w + 1)) (h10 : s.closed = false) (h11 : overs s.log = 0) : Inv n s
  | shut {s : St α} (k : Nat) (h5 : vals s.log = spread n s.fed) (h4 : (s.fed.length + (n - 1)) / n = k)
      (h6 : opens s.log = List.range k) (h7 : ends s.log = List.range k) (h8 : s.ub = false)
      (h9 : s.done = List.range k) (h10 : s.closed = true) (h11 : overs s.log = 1) (h12 : s.log.getLast? = some .over)
      (h1 : s.stack = [] ∨ (∃ w, s.cur = some w ∧ s.stack = [.ending]) ∨
        ∃ w m, w < k ∧ s.cur = some w ∧ s.stack = List.replicate (m + 1) .value ∧ s.items + m + 1 ≤ n) : Inv n s

theorem up {n : Nat} (hn : 0 < n) (w r : Nat) (h0 : 0 < r) (h : r ≤ n) : (w * n + r + (n - 1)) / n = w + 1 := by
  rw [show w * n + r + (n - 1) = (w + 1) * n + (r - 1) by rw [Nat.succ_mul]; omega]
  rw [Nat.mul_comm, Nat.mul_add_div hn, Nat.div_eq_of_lt (by omega), Nat.add_zero]

theorem Inv.step {n : Nat} (hn : 0 < n) {s : St α} (h : Inv n s) (l : Lbl α) (hc : (step n s l).calm = true) :
    Inv n (step n s l) := by
  have hdiv : ∀ w r, r < n → (w * n + r) / n = w := by
    intro w r hr
    rw [Nat.mul_comm, Nat.mul_add_div hn, Nat.div_eq_of_lt hr, Nat.add_zero]
  cases l with
  | feed a =>
    revert hc
    cases h with
    | idle h1 h2 h3 h4 h5 h6 h7 h8 h9 h10 h11 =>
      intro _
      simp only [Count.step, h8, h10, h3, if_true, Bool.or_self, Bool.false_eq_true, if_false]
      refine .opening s.next a (by simp [h1]) rfl rfl (by simp [h4]) ?_ ?_ ?_ rfl h9 rfl ?_
      · rw [vals_snoc, spread_snoc, h4]; simp [h5, hn]
      · rw [opens_snoc, h6]; simp [List.range_succ]
      · rw [ends_snoc, h7]; simp
      · rw [overs_snoc, h11]; rfl
    | opening w b h1 h2 h3 h4 h5 h6 h7 h8 h9 h10 h11 =>
      intro hc
      simp only [Count.step, h8, h10, h1, Bool.or_self, Bool.false_eq_true, if_false] at hc
      split at hc <;> simp [St.give, h2, h9] at hc
    | inside w m h1 h2 h3 h3' h3'' h0 h4 h5 h6 h7 h8 h9 h10 h11 =>
      have hne : s.items ≠ n := by omega
      have hw : w ∉ s.done := by simp [h9]
      simp only [Count.step, h8, h10, hne, Bool.or_self, Bool.false_eq_true, if_false, St.give, h2, hw]
      intro hc
      simp only [h1, Bool.and_eq_true, Bool.or_eq_true, decide_eq_true_eq, List.length_replicate,
        List.isEmpty_iff, List.replicate_eq_nil_iff] at hc
      have hlt : s.items + m < n := by rcases hc.2 with h | h <;> omega
      refine .inside w (m + 1) (by simp [h1, List.replicate_succ]) rfl h3 h3' (by dsimp only; omega) (by dsimp only; omega)
        (by simp [h4]; omega) ?_ ?_ ?_ rfl h9 rfl ?_
      · rw [vals_snoc, spread_snoc, h4, hdiv _ _ hlt]; simp [h5]
      · rw [opens_snoc, h6]; simp
      · rw [ends_snoc, h7]; simp
      · rw [overs_snoc, h11]; rfl
    | ending w h1 h2 h3 h3' h4 h5 h6 h7 h8 h9 h10 h11 =>
      intro hc
      simp only [Count.step, h8, h10, h3', h1, Bool.or_self, Bool.false_eq_true, if_false, if_true] at hc
      simp at hc
    | shut k h5 h4 h6 h7 h8 h9 h10 h11 h12 h1 =>
      intro _
      simp only [Count.step, h8, h10, Bool.or_true, if_true]
      exact .shut k h5 h4 h6 h7 h8 h9 h10 h11 h12 h1
  | finish =>
    revert hc
    cases h with
    | idle h1 h2 h3 h4 h5 h6 h7 h8 h9 h10 h11 =>
      intro _
      simp only [Count.step, h8, h10, h2, Bool.or_self, Bool.false_eq_true, if_false]
      refine .shut s.next ?_ ?_ ?_ ?_ rfl h9 rfl ?_ (by simp) (.inl h1)
      · rw [vals_snoc, h5]; simp
      · dsimp only; rw [h4, hdiv _ _ (by omega)]
      · rw [opens_snoc, h6]; simp
      · rw [ends_snoc, h7]; simp
      · rw [overs_snoc, h11]; rfl
    | opening w b h1 h2 h3 h4 h5 h6 h7 h8 h9 h10 h11 =>
      intro hc
      simp [Count.step, h8, h10, h1, h2, St.fin, h9] at hc
    | inside w m h1 h2 h3 h3' h3'' h0 h4 h5 h6 h7 h8 h9 h10 h11 =>
      intro _
      have hw : w ∉ s.done := by simp [h9]
      simp only [Count.step, h8, h10, h2, Bool.or_self, Bool.false_eq_true, if_false, St.fin, hw]
      refine .shut (w + 1) ?_ ?_ ?_ ?_ rfl ?_ rfl ?_ (by simp) ?_
      · rw [vals_snoc, vals_snoc, h5]; simp
      · dsimp only; rw [h4]; exact up hn _ _ h0 h3''
      · rw [opens_snoc, opens_snoc, h6]; simp
      · rw [ends_snoc, ends_snoc, h7]; simp [List.range_succ]
      · simp [h9, List.range_succ]
      · rw [overs_snoc, overs_snoc, h11]; rfl
      · cases m with
        | zero => exact .inl h1
        | succ m => exact .inr (.inr ⟨w, m, by omega, rfl, h1, by dsimp only; omega⟩)
    | ending w h1 h2 h3 h3' h4 h5 h6 h7 h8 h9 h10 h11 =>
      intro _
      have hw : w ∈ s.done := by simp [h9]
      simp only [Count.step, h8, h10, h2, Bool.or_self, Bool.false_eq_true, if_false, St.fin, hw, if_true]
      refine .shut (w + 1) ?_ ?_ ?_ ?_ rfl h9 rfl ?_ (by simp) (.inr (.inl ⟨w, rfl, h1⟩))
      · rw [vals_snoc, h5]; simp
      · dsimp only; rw [h4, hdiv _ _ (by omega)]
      · rw [opens_snoc, h6]; simp
      · rw [ends_snoc, h7]; simp
      · rw [overs_snoc, h11]; rfl
    | shut k h5 h4 h6 h7 h8 h9 h10 h11 h12 h1 =>
      intro _
      simp only [Count.step, h8, h10, Bool.or_true, if_true]
      exact .shut k h5 h4 h6 h7 h8 h9 h10 h11 h12 h1
  | ret =>
    clear hc
    cases h with
    | idle h1 h2 h3 h4 h5 h6 h7 h8 h9 h10 h11 =>
      simp only [Count.step, h8, h1, Bool.false_eq_true, if_false]
      exact .idle h1 h2 h3 h4 h5 h6 h7 h8 h9 h10 h11
    | opening w b h1 h2 h3 h4 h5 h6 h7 h8 h9 h10 h11 =>
      have hw : w ∉ s.done := by simp [h9]
      simp only [Count.step, h8, h1, Bool.false_eq_true, if_false, St.give, h2, hw]
      refine .inside w 1 rfl rfl h3 hn (by dsimp only; omega) (by simp) (by simpa using h4) ?_ ?_ ?_ rfl h9 h10 ?_
      · rw [vals_snoc]; exact h5
      · rw [opens_snoc, h6]; simp
      · rw [ends_snoc, h7]; simp
      · rw [overs_snoc, h11]; rfl
    | inside w m h1 h2 h3 h3' h3'' h0 h4 h5 h6 h7 h8 h9 h10 h11 =>
      have hw : w ∉ s.done := by simp [h9]
      cases m with
      | zero =>
        simp only [Count.step, h8, h1, List.replicate_zero, Bool.false_eq_true, if_false]
        exact .inside w 0 h1 h2 h3 h3' h3'' h0 h4 h5 h6 h7 h8 h9 h10 h11
      | succ m =>
        simp only [Count.step, St.after, St.fin, h8, h1, List.replicate_succ, Bool.false_eq_true, if_false, h2, hw]
        split
        · next he =>
          have : m = 0 := by omega
          subst this
          refine .ending w rfl rfl h3 he ?_ ?_ ?_ ?_ rfl ?_ h10 ?_
          · dsimp only; rw [h4, Nat.succ_mul]; omega
          · rw [vals_snoc]; simpa using h5
          · rw [opens_snoc, h6]; simp
          · rw [ends_snoc, h7]; simp [List.range_succ]
          · simp [h9, List.range_succ]
          · rw [overs_snoc, h11]; rfl
        · next he =>
          exact .inside w m rfl rfl h3 (by dsimp only; omega) (by dsimp only; omega) (by dsimp only; omega)
            (by dsimp only; omega) h5 h6 h7 rfl h9 h10 h11
    | ending w h1 h2 h3 h3' h4 h5 h6 h7 h8 h9 h10 h11 =>
      simp only [Count.step, h8, h1, Bool.false_eq_true, if_false, h2]
      exact .idle rfl rfl h3' (by dsimp only; rw [h3, h4]) h5 (by rw [h3]; exact h6) (by rw [h3]; exact h7) rfl
        (by rw [h3]; exact h9) h10 h11
    | shut k h5 h4 h6 h7 h8 h9 h10 h11 h12 h1 =>
      rcases h1 with h1 | ⟨w, h2, h1⟩ | ⟨w, m, hk, h2, h1, hm⟩
      · simp only [Count.step, h8, h1, Bool.false_eq_true, if_false]
        exact .shut k h5 h4 h6 h7 h8 h9 h10 h11 h12 (.inl h1)
      · simp only [Count.step, h8, h1, Bool.false_eq_true, if_false, h2]
        exact .shut k h5 h4 h6 h7 rfl h9 h10 h11 h12 (.inl rfl)
      · have hw : w ∈ s.done := by simp [h9, hk]
        simp only [Count.step, St.after, St.fin, h8, h1, List.replicate_succ, Bool.false_eq_true, if_false, h2, hw, if_true]
        split
        · next he =>
          have : m = 0 := by omega
          subst this
          exact .shut k h5 h4 h6 h7 rfl h9 h10 h11 h12 (.inl rfl)
        · next he =>
          refine .shut k h5 h4 h6 h7 rfl h9 h10 h11 h12 ?_
          cases m with
          | zero => exact .inl rfl
          | succ m => exact .inr (.inr ⟨w, m, hk, rfl, rfl, by dsimp only; omega⟩)

theorem after_calm (n : Nat) (s : St α) : (s.after n).calm = s.calm := by
  have hf : ∀ (s : St α) w, (s.fin w).1.calm = s.calm := by
    intro s w; simp only [St.fin]; split <;> rfl
  simp only [St.after]
  split
  · split
    · split
      · next e => have := hf { s with items := s.items + 1 } ‹_›; rw [e] at this; exact this
      · next e => have := hf { s with items := s.items + 1 } ‹_›; rw [e] at this; exact this
    · rfl
  · rfl

theorem give_calm (n : Nat) (s : St α) (a : α) : (s.give n a).calm = s.calm := by
  simp only [St.give]
  repeat' split
  all_goals first | rfl | exact after_calm _ _

theorem calm_back {n : Nat} {s : St α} (l : Lbl α) (h : (step n s l).calm = true) : s.calm = true := by
  revert h
  cases l with
  | feed a =>
    simp only [Count.step]
    split
    · exact id
    · split
      · simp only [Bool.and_eq_true]; exact fun h => h.1.1
      · rw [give_calm]; simp only [Bool.and_eq_true]; exact fun h => h.1.1
  | finish =>
    simp only [Count.step, St.fin]
    split
    · exact id
    · split
      · split <;> simp only [Bool.and_eq_true] <;> exact fun h => h.1
      · simp only [Bool.and_eq_true]; exact fun h => h.1
  | ret =>
    simp only [Count.step]
    split
    · exact id
    · split
      · exact id
      · rw [give_calm]; exact id
      · rw [after_calm]; exact id
      · split <;> exact id

theorem inv (count : Nat) (ls : List (Lbl α)) (h : (exec count ls).calm = true) : Inv (max 1 count) (exec count ls) := by
  induction ls using Group.rev_ind with
  | h0 => exact .idle rfl rfl rfl (by simp [exec]) rfl rfl rfl rfl rfl rfl rfl
  | h1 ls l ih =>
    have he : exec count (ls ++ [l]) = step (max 1 count) (exec count ls) l := by simp [exec, List.foldl_append]
    rw [he] at h ⊢
    exact (ih (calm_back l h)).step (by omega) l h

end Count

end Rpp.WFeed
