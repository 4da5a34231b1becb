import Verif.Window.Window
import Verif.Window.HubPlan

/-!
# `window`: the plan is the specification
-/

namespace Rpp.Win
variable {σ ι α ε : Type}

/-! ## The source's notifications end with the terminal one -/

/-- No notification but possibly the following one is the last. -/
def runOk (O : Oper σ ι α ε) (as : List (ι × Bool)) : Prop :=
  ∀ bs a cs, as = bs ++ a :: cs → O.isTerm (plan O bs).1 a.2 a.1 = false

theorem runOk_nil (O : Oper σ ι α ε) : runOk O [] := by intro bs a cs h; simp at h

theorem runOk_snoc {O : Oper σ ι α ε} {as : List (ι × Bool)} {a} :
    runOk O (as ++ [a]) ↔ runOk O as ∧ O.isTerm (plan O as).1 a.2 a.1 = false := by
  constructor
  · intro h
    refine ⟨?_, h as a [] rfl⟩
    intro bs b cs e
    exact h bs b (cs ++ [a]) (by rw [e]; simp)
  · rintro ⟨h1, h2⟩ bs b cs e
    rcases List.eq_nil_or_concat cs with rfl | ⟨cs', c, rfl⟩
    · obtain ⟨e1, e2⟩ := List.append_inj' e rfl
      cases e1; cases e2; exact h2
    · rw [List.concat_eq_append, ← List.cons_append, ← List.append_assoc] at e
      exact h1 bs b cs' (List.append_inj' e rfl).1

theorem runOk_all {O : Oper σ ι α ε} {as : List (ι × Bool)} {p : ι → Bool} (hp : ∀ q g i, O.isTerm q g i = p i)
    (h : runOk O as) : ∀ a ∈ as, p a.1 = false := by
  intro a ha
  obtain ⟨bs, cs, rfl⟩ := List.append_of_mem ha
  rw [← hp]; exact h bs a cs rfl

/-- Invariant of the proofs; models no code. -/
structure InvT (O : Oper σ ι α ε) (s : St σ ι α ε) : Prop where
  t0 : s.over = false → runOk O (accs s.log)
  t1 : s.over = true → ∃ as t, accs s.log = as ++ [t] ∧ runOk O as ∧ O.isTerm (plan O as).1 t.2 t.1 = true

theorem InvT.quiet {O : Oper σ ι α ε} {s s' : St σ ι α ε} (h : InvT O s) {es} (hl : s'.log = s.log ++ es)
    (he : ∀ e ∈ es, accs [e] = []) (ho : s'.over = s.over) : InvT O s' := by
  have key : ∀ (l es : List (Ev ι α ε)), (∀ e ∈ es, accs [e] = []) → accs (l ++ es) = accs l := by
    intro l es
    induction es generalizing l with
    | nil => simp
    | cons e es ih =>
      intro h
      have := ih (l ++ [e]) (fun e' h' => h e' (by simp [h']))
      simp only [List.append_assoc, List.singleton_append] at this
      rw [this, accs_snoc, h e (by simp), List.append_nil]
  constructor
  · rw [hl, key _ _ he, ho]; exact h.t0
  · rw [hl, key _ _ he, ho]; exact h.t1

theorem settle_over (s : St σ ι α ε) : s.settle.over = s.over := by unfold St.settle; split <;> rfl
theorem settle_log (s : St σ ι α ε) : s.settle.log = s.log := by unfold St.settle; split <;> rfl

theorem InvT.step {O : Oper σ ι α ε} {s : St σ ι α ε} (h : InvT O s) (hP : InvP O s) (l : Lbl ι) : InvT O (step O s l) := by
  cases l with
  | notify i =>
    simp only [Win.step]
    split
    · split
      · exact h
      · next hc =>
        simp only [Bool.or_eq_true, not_or, Bool.not_eq_true] at hc
        have hacc : accs (s.log ++ [.acc i (!s.mainRef)]) = accs s.log ++ [(i, !s.mainRef)] := by rw [accs_snoc]; rfl
        constructor
        · simp only [hacc]
          intro hi
          exact runOk_snoc.mpr ⟨h.t0 hc.2, by rw [hP.p0]; exact hi⟩
        · simp only [hacc]
          intro hi
          exact ⟨_, _, rfl, h.t0 hc.2, by rw [hP.p0]; exact hi⟩
    · exact h
  | run =>
    simp only [Win.step]
    split
    · exact h
    · next i rest hp =>
      cases i <;> simp only [exec1] <;> (repeat' split)
      all_goals first
        | exact h.quiet (es := []) (List.append_nil _).symm (by simp) rfl
        | exact h.quiet (es := [.opened _]) rfl (by simp [accs]) rfl
        | exact h.quiet (es := [.fed _ _]) rfl (by simp [accs]) rfl
        | exact h.quiet (es := [.got _ _]) rfl (by simp [accs]) rfl
        | exact h.quiet (es := [.got _ _]) (settle_log _) (by simp [accs]) (settle_over _)
        | exact h.quiet (es := [.ended _]) (settle_log _) (by simp [accs]) (settle_over _)
  | sub o w =>
    simp only [Win.step]
    repeat' split
    all_goals first
      | exact h
      | exact h.quiet (es := [.sub o w]) rfl (by simp [accs]) rfl
      | exact h.quiet (es := [.late o w]) rfl (by simp [accs]) rfl
      | exact h.quiet (es := [.late o w, .got o _]) rfl (by simp [accs]) rfl
  | unsub o =>
    simp only [Win.step]
    repeat' split
    all_goals first
      | exact h
      | exact h.quiet (es := [.unsub o]) (settle_log _) (by simp [accs]) (settle_over _)
  | leave =>
    simp only [Win.step]
    split
    · exact h.quiet (es := [.gone]) (settle_log _) (by simp [accs]) (settle_over _)
    · exact h
  | destroy =>
    simp only [Win.step]
    split
    · exact ⟨h.t0, h.t1⟩
    · exact h

theorem invT {O : Oper σ ι α ε} (hO : O.Ok) (ls : List (Lbl ι)) : InvT O (exec O ls) := by
  refine (exec_induct O (P := fun s => InvR s ∧ InvP O s ∧ InvT O s) ⟨?_, ?_, ?_⟩
    (fun s l h => ⟨h.1.step hO l, h.2.1.step hO h.1 l, h.2.2.step h.2.1 l⟩) ls).2.2
  · exact invR hO []
  · exact invP hO []
  · constructor
    · intro _; exact runOk_nil O
    · intro h; cases h

theorem accepted_eq (l : List (Ev ι α ε)) : accepted l = (accs l).map (·.1) := by
  induction l with
  | nil => rfl
  | cons a l ih => cases a <;> simp [accepted, accs, ih]

/-! ## Arithmetic -/

theorem div_mod_succ (n m : Nat) (hn : 1 ≤ n) :
    (m % n + 1 = n ∧ (m + 1) % n = 0 ∧ (m + 1) / n = m / n + 1) ∨
      (m % n + 1 < n ∧ (m + 1) % n = m % n + 1 ∧ (m + 1) / n = m / n) := by
  have h1 := Nat.div_add_mod m n
  have h2 := Nat.mod_lt m (show n > 0 by omega)
  generalize hq : m / n = q at *
  generalize hr : m % n = r at *
  have h3 : m + 1 = n * q + (r + 1) := by omega
  by_cases h : r + 1 = n
  · left
    refine ⟨h, ?_, ?_⟩
    · rw [h3, Nat.mul_add_mod, h, Nat.mod_self]
    · rw [h3, Nat.mul_add_div (by omega), h, Nat.div_self (by omega)]
  · right
    refine ⟨by omega, ?_, ?_⟩
    · rw [h3, Nat.mul_add_mod, Nat.mod_eq_of_lt (by omega)]
    · have : (r + 1) / n = 0 := Nat.div_eq_of_lt (by omega)
      rw [h3, Nat.mul_add_div (by omega), this, Nat.add_zero]

theorem snoc_induct {β : Type} {P : List β → Prop} (h0 : P []) (h1 : ∀ l a, P l → P (l ++ [a])) (l : List β) : P l := by
  suffices h : ∀ l : List β, P l.reverse by simpa using h l.reverse
  intro l
  induction l with
  | nil => exact h0
  | cons a l ih => rw [List.reverse_cons]; exact h1 _ _ ih

/-! ## The plan -/

theorem winSpec_snoc (n : Nat) (as : List (Item α ε)) (x) (i) :
    winSpec n i (as ++ [x]) = winSpec n i as ++ winActs n (i + as.length) x := by
  induction as generalizing i with
  | nil => simp [winSpec]
  | cons a as ih =>
    simp only [List.cons_append, winSpec, ih, List.length_cons, List.append_assoc]
    congr 3
    omega

/-- Used in the proofs; models no code. -/
def winState (n m : Nat) : WSt :=
  if m % n = 0 then ⟨n, none, m / n, false⟩ else ⟨m % n, some (m / n), m / n + 1, false⟩

/-- Used in the proofs; models no code. -/
def winModes (n m : Nat) : Nat → Option Bool := fun w =>
  if w < m / n then some false else if w = m / n ∧ m % n ≠ 0 then some true else none

theorem winAccept_A (q : Nat) (v : α) : winAccept (ε := ε) 1 ⟨1, none, q, false⟩ (.val v) =
    (⟨1, none, q + 1, false⟩, [.create q, .openW q, .push q (.val v), .push q .done, .drop q]) := by
  simp [winAccept, winOpen, winFill]

theorem winAccept_B (n q : Nat) (v : α) (h : 1 < n) : winAccept (ε := ε) n ⟨n, none, q, false⟩ (.val v) =
    (⟨1, some q, q + 1, false⟩, [.create q, .openW q, .push q (.val v)]) := by
  have : (1 : Nat) ≠ n := by omega
  simp [winAccept, winOpen, winFill, this]

theorem winAccept_C (n r q : Nat) (v : α) (h : r + 1 = n) : winAccept (ε := ε) n ⟨r, some q, q + 1, false⟩ (.val v) =
    (⟨n, none, q + 1, false⟩, [.push q (.val v), .push q .done, .drop q]) := by
  subst h
  simp [winAccept, winOpen, winFill]

theorem winAccept_D (n r q : Nat) (v : α) (h : r + 1 < n) : winAccept (ε := ε) n ⟨r, some q, q + 1, false⟩ (.val v) =
    (⟨r + 1, some q, q + 1, false⟩, [.push q (.val v)]) := by
  have h1 : r ≠ n := by omega
  have h2 : r + 1 ≠ n := by omega
  simp [winAccept, winOpen, winFill, h1, h2]

theorem winModes_succ_full (n m : Nat) (h2 : (m + 1) % n = 0) (h3 : (m + 1) / n = m / n + 1) :
    winModes n (m + 1) = fun w => if w = m / n then some false else winModes n m w := by
  funext w
  simp only [winModes, h2, h3]
  generalize m / n = q
  by_cases h : w = q
  · subst h; simp
  · by_cases h' : w < q
    · simp [h, h', Nat.lt_succ_of_lt h']
    · have : ¬ w < q + 1 := by omega
      simp [h, h', this]

theorem winModes_succ_part (n m : Nat) (h2 : (m + 1) % n ≠ 0) (h3 : (m + 1) / n = m / n) :
    winModes n (m + 1) = fun w => if w = m / n then some true else winModes n m w := by
  funext w
  simp only [winModes, h3]
  generalize m / n = q
  by_cases h : w = q
  · subst h; simp [h2]
  · simp [h]

theorem upd_upd {β : Type} (f : Nat → β) (q : Nat) (a b : β) :
    (fun v => if v = q then b else (if v = q then a else f v)) = fun v => if v = q then b else f v := by
  funext v; split <;> simp_all

theorem win_plan_vals (count : Nat) (as : List (Item α ε × Bool)) (h : ∀ a ∈ as, a.1.term = false) :
    plan (winOper α ε count) as =
      (winState (max 1 count) as.length, winModes (max 1 count) as.length, winSpec (max 1 count) 0 (as.map (·.1))) := by
  generalize hn : max 1 count = n
  have hn1 : 1 ≤ n := by omega
  induction as using snoc_induct with
  | h0 =>
    simp only [plan, List.foldl_nil, winOper, hn, List.length_nil, List.map_nil, winSpec, winState,
      Nat.zero_mod, Nat.zero_div, if_true, Prod.mk.injEq, true_and, and_true]
    funext w
    simp [winModes]
  | h1 as' a ih =>
    have ih := ih (fun a ha => h a (by simp [ha]))
    rw [plan_snoc, ih, List.map_append, List.map_singleton, winSpec_snoc, List.length_append, List.length_singleton]
    obtain ⟨x, g⟩ := a
    have hx := h (x, g) (by simp)
    cases x with
    | err e => cases hx
    | done => cases hx
    | val v =>
      clear ih h hx
      rw [Nat.zero_add, List.length_map]
      generalize as'.length = m
      have hpl : ∀ (p : WSt × (Nat → Option Bool) × List (Act α ε)),
          planStep (winOper α ε count) p (.val v, g) = ((winAccept (ε := ε) n p.1 (.val v)).1,
            (sim p.2.1 (winAccept (ε := ε) n p.1 (.val v)).2).2, p.2.2 ++ (sim p.2.1 (winAccept (ε := ε) n p.1 (.val v)).2).1) := by
        intro p; simp only [planStep, winOper, hn]
      rw [hpl]
      simp only
      have hm := Nat.mod_lt m (show n > 0 by omega)
      rcases div_mod_succ n m hn1 with ⟨h1, h2, h3⟩ | ⟨h1, h2, h3⟩
      · have hst : winState n (m + 1) = ⟨n, none, m / n + 1, false⟩ := by simp [winState, h2, h3]
        by_cases h0 : m % n = 0
        · have hn' : n = 1 := by omega
          have hst0 : winState n m = ⟨n, none, m / n, false⟩ := by simp [winState, h0]
          subst hn'
          rw [hst0, hst, winAccept_A]
          have hw : winModes 1 m (m / 1) = none := by simp only [winModes, h0]; simp
          rw [winModes_succ_full _ _ h2 h3]
          simp only [sim, winActs, h0, h2, hw, if_pos, Prod.mk.injEq, true_and, Item.term, Bool.not_false, Bool.not_true, upd_upd]
          simp
        · have hst0 : winState n m = ⟨m % n, some (m / n), m / n + 1, false⟩ := by simp [winState, h0]
          rw [hst0, hst, winAccept_C _ _ _ _ h1]
          have hw : winModes n m (m / n) = some true := by simp [winModes, h0]
          rw [winModes_succ_full _ _ h2 h3]
          simp only [sim, winActs, if_neg h0, h2, hw, if_pos, Prod.mk.injEq, true_and, Item.term, Bool.not_false, Bool.not_true, upd_upd]
          simp
      · have hst : winState n (m + 1) = ⟨m % n + 1, some (m / n), m / n + 1, false⟩ := by simp [winState, h2, h3]
        have h20 : (m + 1) % n ≠ 0 := by omega
        by_cases h0 : m % n = 0
        · have hst0 : winState n m = ⟨n, none, m / n, false⟩ := by simp [winState, h0]
          have hw : winModes n m (m / n) = none := by simp [winModes, h0]
          rw [hst0, hst, winAccept_B _ _ _ (by omega)]
          rw [winModes_succ_part _ _ h20 h3]
          simp only [sim, winActs, h0, if_neg h20, hw, if_pos, Prod.mk.injEq, true_and, Item.term, Bool.not_false, upd_upd]
          simp
        · have hst0 : winState n m = ⟨m % n, some (m / n), m / n + 1, false⟩ := by simp [winState, h0]
          rw [hst0, hst, winAccept_D _ _ _ _ h1]
          have hw : winModes n m (m / n) = some true := by simp [winModes, h0]
          rw [winModes_succ_part _ _ h20 h3]
          simp only [sim, winActs, if_neg h0, if_neg h20, hw, if_pos, Prod.mk.injEq, true_and, Item.term, Bool.not_false, upd_upd]
          simp

theorem win_plan (count : Nat) (as : List (Item α ε × Bool))
    (h : (∀ a ∈ as, a.1.term = false) ∨ ∃ bs t, as = bs ++ [t] ∧ (∀ a ∈ bs, a.1.term = false) ∧ t.1.term = true) :
    (plan (winOper α ε count) as).2.2 = winSpec (max 1 count) 0 (as.map (·.1)) ∧
      (plan (winOper α ε count) as).1.ub = false := by
  have hub : ∀ n m, (winState n m).ub = false := by intro n m; unfold winState; split <;> rfl
  rcases h with h | ⟨bs, t, rfl, h1, h2⟩
  · rw [win_plan_vals count as h]; exact ⟨rfl, hub _ _⟩
  · rw [plan_snoc, win_plan_vals count bs h1, List.map_append, List.map_singleton, winSpec_snoc, Nat.zero_add, List.length_map]
    obtain ⟨x, g⟩ := t
    generalize bs.length = m
    generalize hn : max 1 count = n
    have hpl : ∀ (p : WSt × (Nat → Option Bool) × List (Act α ε)),
          planStep (winOper α ε count) p (x, g) = (p.1,
            (sim p.2.1 ((match p.1.cur with | some w => [.push w x] | none => []) ++ [.mainEnd x])).2,
            p.2.2 ++ (sim p.2.1 ((match p.1.cur with | some w => [.push w x] | none => []) ++ [.mainEnd x])).1) := by
      intro p
      cases x with
      | val v => cases h2
      | err e => rfl
      | done => rfl
    rw [hpl]
    refine ⟨?_, hub _ _⟩
    have hact : winActs n m x = (if m % n = 0 then [] else [.fed (m / n) x]) ++ [.ended x] := by
      cases x with
      | val v => cases h2
      | err e => rfl
      | done => rfl
    rw [hact]
    by_cases h0 : m % n = 0
    · simp [winState, h0, sim]
    · have hw : winModes n m (m / n) = some true := by simp [winModes, h0]
      simp [winState, h0, sim, hw]

/-! ## Window by window -/

/-- Used in the proofs; models no code. -/
def fedsA (k : Nat) : List (Act α ε) → List (Item α ε)
  | [] => []
  | .fed v x :: r => if v = k then x :: fedsA k r else fedsA k r
  | _ :: r => fedsA k r

/-- Used in the proofs; models no code. -/
def opensA : List (Act α ε) → List Nat
  | [] => []
  | .opened w :: r => w :: opensA r
  | _ :: r => opensA r

/-- Used in the proofs; models no code. -/
def endsA : List (Act α ε) → List (Item α ε)
  | [] => []
  | .ended x :: r => x :: endsA r
  | _ :: r => endsA r

theorem fedsA_append (k) (l m : List (Act α ε)) : fedsA k (l ++ m) = fedsA k l ++ fedsA k m := by
  induction l with
  | nil => rfl
  | cons a l ih => cases a <;> simp only [List.cons_append, fedsA, ih]; split <;> simp

theorem opensA_append (l m : List (Act α ε)) : opensA (l ++ m) = opensA l ++ opensA m := by
  induction l with
  | nil => rfl
  | cons a l ih => cases a <;> simp only [List.cons_append, opensA, ih]

theorem endsA_append (l m : List (Act α ε)) : endsA (l ++ m) = endsA l ++ endsA m := by
  induction l with
  | nil => rfl
  | cons a l ih => cases a <;> simp only [List.cons_append, endsA, ih]

theorem feds_acts (k) (l : List (Ev ι α ε)) : feds k l = fedsA k (acts l) := by
  induction l with
  | nil => rfl
  | cons a l ih => cases a <;> simp only [feds, acts, fedsA, ih]

theorem openeds_acts (l : List (Ev ι α ε)) : openeds l = opensA (acts l) := by
  induction l with
  | nil => rfl
  | cons a l ih => cases a <;> simp only [openeds, acts, opensA, ih]

theorem endeds_acts (l : List (Ev ι α ε)) : endeds l = endsA (acts l) := by
  induction l with
  | nil => rfl
  | cons a l ih => cases a <;> simp only [endeds, acts, endsA, ih]

theorem fedsA_fedPart (k) (l : List (Act α ε)) : fedsA k l = ((fedPart l).filter (fun p => p.1 = k)).map (·.2) := by
  induction l with
  | nil => rfl
  | cons a l ih =>
    cases a <;> simp only [fedsA, fedPart, ih]
    simp only [List.filter_cons]
    split <;> split <;> simp_all

theorem fedsA_prefix {k} {l m : List (Act α ε)} (h : l <+: m) : fedsA k l <+: fedsA k m := by
  obtain ⟨t, rfl⟩ := h
  rw [fedsA_append]; exact List.prefix_append _ _

theorem fedsA_fed_prefix {k} {l m : List (Act α ε)} (h : fedPart l <+: fedPart m) : fedsA k l <+: fedsA k m := by
  obtain ⟨t, h⟩ := h
  rw [fedsA_fedPart, fedsA_fedPart, ← h, List.filter_append, List.map_append]
  exact List.prefix_append _ _

theorem opensA_prefix {l m : List (Act α ε)} (h : l <+: m) : opensA l <+: opensA m := by
  obtain ⟨t, rfl⟩ := h
  rw [opensA_append]; exact List.prefix_append _ _

theorem endsA_prefix {l m : List (Act α ε)} (h : l <+: m) : endsA l <+: endsA m := by
  obtain ⟨t, rfl⟩ := h
  rw [endsA_append]; exact List.prefix_append _ _

theorem div_iff (n m k : Nat) (hn : 1 ≤ n) : m / n = k ↔ k * n ≤ m ∧ m < (k + 1) * n := by
  constructor
  · rintro rfl
    exact ⟨(Nat.le_div_iff_mul_le hn).mp (Nat.le_refl _), (Nat.div_lt_iff_lt_mul hn).mp (Nat.lt_succ_self _)⟩
  · rintro ⟨h1, h2⟩
    have := (Nat.le_div_iff_mul_le hn).mpr h1
    have := (Nat.div_lt_iff_lt_mul hn).mpr h2
    omega

theorem mod_iff (n m k : Nat) (hk : m / n = k) : m % n = 0 ↔ m = k * n := by
  have := Nat.div_add_mod m n
  rw [hk, Nat.mul_comm] at this
  omega

theorem winSpec_feds_vals (n : Nat) (hn : 1 ≤ n) (vs : List α) (k : Nat) :
    fedsA k (winSpec (ε := ε) n 0 (vs.map .val)) =
      ((vs.drop (k * n)).take n).map .val ++ if (k + 1) * n ≤ vs.length then [.done] else [] := by
  induction vs using snoc_induct with
  | h0 =>
    have : ¬ (k + 1) * n ≤ 0 := by rw [Nat.add_mul]; omega
    simp [winSpec, fedsA, this]
  | h1 vs v ih =>
    rw [List.map_append, List.map_singleton, winSpec_snoc, fedsA_append, ih, Nat.zero_add, List.length_map,
      List.length_append, List.length_singleton]
    have hkn : (k + 1) * n = k * n + n := by rw [Nat.add_mul, Nat.one_mul]
    have hf : fedsA k (winActs (ε := ε) n vs.length (.val v)) =
        if vs.length / n = k then (.val v :: if (vs.length + 1) % n = 0 then [.done] else []) else [] := by
      simp only [winActs, fedsA_append]
      by_cases h1 : vs.length % n = 0 <;> by_cases h2 : (vs.length + 1) % n = 0 <;>
        by_cases h3 : vs.length / n = k <;> simp [h1, h2, h3, fedsA]
    rw [hf]
    generalize hm : vs.length = m
    rcases Nat.lt_trichotomy (m / n) k with hlt | heq | hgt
    · have h1 : m < k * n := (Nat.div_lt_iff_lt_mul hn).mp hlt
      have h2 : ¬ m / n = k := by omega
      have h3 : ¬ (k + 1) * n ≤ m := by omega
      have h4 : ¬ (k + 1) * n ≤ m + 1 := by omega
      rw [if_neg h2, if_neg h3, if_neg h4]
      rw [List.drop_eq_nil_of_le (by omega), List.drop_eq_nil_of_le (by simp; omega)]
      simp
    · rw [if_pos heq]
      obtain ⟨h1, h2⟩ := (div_iff n m k hn).mp heq
      have hd : (vs ++ [v]).drop (k * n) = vs.drop (k * n) ++ [v] := by
        rw [List.drop_append_of_le_length (by omega)]
      rw [hd, List.take_of_length_le (by simp; omega), List.take_of_length_le (by simp; omega),
        if_neg (show ¬ (k + 1) * n ≤ m by omega)]
      have h3 : (m + 1) % n = 0 ↔ (k + 1) * n ≤ m + 1 := by
        rcases div_mod_succ n m hn with ⟨_, h4, h5⟩ | ⟨_, h4, h5⟩
        · have := (mod_iff n (m + 1) (k + 1) (by omega)).mp h4
          simp only [h4, true_iff]; omega
        · have := (div_iff n (m + 1) k hn).mp (by omega)
          constructor
          · omega
          · omega
      simp only [h3, List.map_append, List.map_singleton]
      split <;> simp
    · have h1 : (k + 1) * n ≤ m := (Nat.le_div_iff_mul_le hn).mp hgt
      have h2 : ¬ m / n = k := by omega
      rw [if_neg h2, if_pos h1, if_pos (show (k + 1) * n ≤ m + 1 by omega), List.drop_append_of_le_length (by omega),
        List.take_append_of_le_length (by simp; omega)]
      simp

theorem winSpec_opens_vals (n : Nat) (hn : 1 ≤ n) (vs : List α) :
    opensA (winSpec (ε := ε) n 0 (vs.map .val)) = List.range ((vs.length + n - 1) / n) := by
  induction vs using snoc_induct with
  | h0 =>
    have : (0 + n - 1) / n = 0 := Nat.div_eq_of_lt (by omega)
    simp only [List.length_nil, this, List.range_zero]; rfl
  | h1 vs v ih =>
    rw [List.map_append, List.map_singleton, winSpec_snoc, opensA_append, ih, Nat.zero_add, List.length_map,
      List.length_append, List.length_singleton]
    generalize vs.length = m
    have hf : opensA (winActs (ε := ε) n m (.val v)) = if m % n = 0 then [m / n] else [] := by
      simp only [winActs, opensA_append]
      by_cases h1 : m % n = 0 <;> by_cases h2 : (m + 1) % n = 0 <;> simp [h1, h2, opensA]
    rw [hf]
    have e1 : (m + 1 + n - 1) / n = m / n + 1 := by
      rw [show m + 1 + n - 1 = m + n by omega, Nat.add_div_right _ (by omega)]
    rw [e1]
    have h1 := Nat.div_add_mod m n
    have h2 := Nat.mod_lt m (show n > 0 by omega)
    generalize m / n = q at *
    generalize hr : m % n = r at *
    by_cases h0 : r = 0
    · subst h0
      have : (m + n - 1) / n = q := by
        rw [div_iff n _ _ hn, Nat.add_mul, Nat.mul_comm q n]
        omega
      rw [this, if_pos rfl, List.range_succ]
    · have : (m + n - 1) / n = q + 1 := by
        simp only [div_iff n _ _ hn, Nat.add_mul, Nat.mul_comm q n]
        omega
      rw [this, if_neg h0, List.append_nil]

theorem vals_append (l m : List (Item α ε)) : vals (l ++ m) = vals l ++ vals m := by
  induction l with
  | nil => rfl
  | cons a l ih => cases a <;> simp [vals, ih]

theorem vals_map (vs : List α) : vals (vs.map (Item.val (ε := ε))) = vs := by
  induction vs with
  | nil => rfl
  | cons v vs ih => simp [vals, ih]

theorem all_vals (as : List (Item α ε)) (h : ∀ a ∈ as, a.term = false) : as = (vals as).map .val := by
  induction as with
  | nil => rfl
  | cons a as ih =>
    have := ih (fun a ha => h a (by simp [ha]))
    have ha := h a (by simp)
    cases a with
    | val v => rw [vals, List.map_cons, ← this]
    | err e => cases ha
    | done => cases ha

theorem fin_map (vs : List α) : fin (vs.map (Item.val (ε := ε))) = none := by
  induction vs with
  | nil => rfl
  | cons v vs ih => simp [fin, ih]

theorem fin_map_term (vs : List α) (t : Item α ε) (h : t.term = true) : fin (vs.map .val ++ [t]) = some t := by
  induction vs with
  | nil => cases t <;> first | rfl | cases h
  | cons v vs ih => simpa [fin] using ih

theorem vals_term (vs : List α) (t : Item α ε) (h : t.term = true) : vals (vs.map .val ++ [t]) = vs := by
  rw [vals_append, vals_map]
  cases t <;> first | (simp [vals]; done) | cases h

/-- The windows of a list of notifications of which at most the last is terminal. -/
theorem winSpec_gets (n : Nat) (hn : 1 ≤ n) (as : List (Item α ε))
    (h : (∀ a ∈ as, a.term = false) ∨ ∃ bs t, as = bs ++ [t] ∧ (∀ a ∈ bs, a.term = false) ∧ t.term = true) :
    (∀ k, fedsA k (winSpec n 0 as) = windowGets n as k) ∧
      opensA (winSpec n 0 as) = List.range (((vals as).length + n - 1) / n) ∧
      endsA (winSpec n 0 as) = (fin as).toList := by
  have hends : ∀ vs : List α, endsA (winSpec (ε := ε) n 0 (vs.map .val)) = [] := by
    intro vs
    induction vs using snoc_induct with
    | h0 => rfl
    | h1 vs v ih =>
      rw [List.map_append, List.map_singleton, winSpec_snoc, endsA_append, ih]
      simp only [winActs, endsA_append]
      split <;> split <;> simp [endsA]
  rcases h with h | ⟨bs, t, rfl, h1, h2⟩
  · rw [all_vals as h]
    generalize vals as = vs
    refine ⟨fun k => ?_, ?_, ?_⟩
    · rw [winSpec_feds_vals n hn]
      simp only [windowGets, vals_map, fin_map, Option.toList_none, ite_self]
    · rw [winSpec_opens_vals n hn, vals_map]
    · rw [hends, fin_map]; rfl
  · rw [all_vals bs h1]
    generalize vals bs = vs
    have hact : winActs n vs.length t = (if vs.length % n = 0 then [] else [.fed (vs.length / n) t]) ++ [.ended t] := by
      cases t with
      | val v => cases h2
      | err e => rfl
      | done => rfl
    rw [winSpec_snoc, Nat.zero_add, List.length_map, hact]
    refine ⟨fun k => ?_, ?_, ?_⟩
    · rw [fedsA_append, winSpec_feds_vals n hn]
      simp only [windowGets, vals_term vs t h2, fin_map_term vs t h2, Option.toList_some]
      generalize hm : vs.length = m
      have hkn : (k + 1) * n = k * n + n := by rw [Nat.add_mul, Nat.one_mul]
      have hf : fedsA k ((if m % n = 0 then [] else [Act.fed (m / n) t]) ++ [Act.ended t]) =
          if m % n ≠ 0 ∧ m / n = k then [t] else [] := by
        by_cases h1 : m % n = 0 <;> by_cases h3 : m / n = k <;> simp [h1, h3, fedsA]
      rw [hf, List.append_assoc]
      congr 1
      have hiff : m % n ≠ 0 ∧ m / n = k ↔ ¬ (k + 1) * n ≤ m ∧ k * n < m := by
        constructor
        · rintro ⟨h0, heq⟩
          have h1 := (div_iff n m k hn).mp heq
          have := mod_iff n m k heq
          refine ⟨by omega, ?_⟩
          rcases Nat.lt_or_eq_of_le h1.1 with h | h
          · exact h
          · exact absurd (this.mpr h.symm) h0
        · rintro ⟨h1, h3⟩
          have heq := (div_iff n m k hn).mpr ⟨by omega, by omega⟩
          refine ⟨?_, heq⟩
          intro h0
          have := (mod_iff n m k heq).mp h0
          omega
      by_cases hc : (k + 1) * n ≤ m
      · rw [if_pos hc, if_pos hc, if_neg (by rw [hiff]; simp [hc])]
        rfl
      · rw [if_neg hc, if_neg hc]
        by_cases hc' : k * n < m
        · rw [if_pos hc', if_pos (hiff.mpr ⟨hc, hc'⟩)]; rfl
        · rw [if_neg hc', if_neg (by rw [hiff]; simp [hc'])]; rfl
    · rw [opensA_append, winSpec_opens_vals n hn, vals_term vs t h2]
      split <;> simp [opensA]
    · rw [endsA_append, hends, fin_map_term vs t h2]
      split <;> simp [endsA]

/-- Every value is in exactly one window: the windows, one after the other, are the source's values. -/
theorem windows_values (n : Nat) (hn : 1 ≤ n) (vs : List α) (N : Nat) (hN : vs.length ≤ N * n) :
    (List.range N).flatMap (fun k => (vs.drop (k * n)).take n) = vs := by
  have key : ∀ N, (List.range N).flatMap (fun k => (vs.drop (k * n)).take n) = vs.take (N * n) := by
    intro N
    induction N with
    | zero => simp
    | succ N ih => rw [List.range_succ, List.flatMap_append, ih, Nat.add_mul, Nat.one_mul, List.take_add]; simp
  rw [key, List.take_of_length_le hN]

theorem winOper_ok (count : Nat) : (winOper α ε count).Ok := by
  have hfill : ∀ n (q : WSt) (v : α), (winFill (ε := ε) n q v).2.all (fun i => !i.isCall) = true ∧
      hasEnd (winFill (ε := ε) n q v).2 = false ∧ endLast (winFill (ε := ε) n q v).2 = true := by
    intro n q v
    unfold winFill
    cases q.cur with
    | none => exact ⟨rfl, rfl, rfl⟩
    | some w => simp only; split <;> exact ⟨rfl, rfl, rfl⟩
  constructor
  · intro q g x
    cases x with
    | val v =>
      simp only [winOper, winAccept, List.all_append, Bool.and_eq_true]
      refine ⟨?_, (hfill _ _ _).1⟩
      unfold winOpen; split <;> rfl
    | err e => simp only [winOper, winAccept]; cases q.cur <;> rfl
    | done => simp only [winOper, winAccept]; cases q.cur <;> rfl
  · intro q g x
    cases x with
    | val v =>
      simp only [winOper, winAccept]
      have := (hfill (max 1 count) (winOpen (α := α) (ε := ε) (max 1 count) q).1 v).2.2
      revert this
      generalize (winFill (ε := ε) (max 1 count) (winOpen (α := α) (ε := ε) (max 1 count) q).1 v).2 = p
      intro this
      unfold winOpen; split <;> simpa [endLast] using this
    | err e => simp only [winOper, winAccept]; cases q.cur <;> rfl
    | done => simp only [winOper, winAccept]; cases q.cur <;> rfl
  · intro q g x
    cases x with
    | val v =>
      simp only [winOper, winAccept]
      have := (hfill (max 1 count) (winOpen (α := α) (ε := ε) (max 1 count) q).1 v).2.1
      revert this
      generalize (winFill (ε := ε) (max 1 count) (winOpen (α := α) (ε := ε) (max 1 count) q).1 v).2 = p
      intro this
      unfold winOpen; split <;> simp [hasEnd, this]
    | err e => intro _; rfl
    | done => intro _; rfl

end Rpp.Win
