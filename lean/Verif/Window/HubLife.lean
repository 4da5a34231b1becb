import Verif.Window.HubPlan

/-!
# The common machine of `window` and `group_by`: lifetime of the source's subscription, and progress
-/

namespace Rpp.Win
variable {σ ι α ε : Type}

/-- Observer `o` is listening after the events of a log: it has joined, and has neither unsubscribed nor
been told the end. -/
def listens (o : Nat) (l : List (Ev ι α ε)) : Bool :=
  l.foldl (fun b e => match e with
    | .sub p _ => b || decide (p = o)
    | .unsub p => b && !decide (p = o)
    | .got p x => b && !(decide (p = o) && x.term)
    | _ => b) false

/-- The main observer is listening after the events of a log: it has neither left nor been told the end. -/
def mainHere (l : List (Ev ι α ε)) : Bool :=
  l.all (fun e => match e with | .gone => false | .ended _ => false | _ => true)

/-- Invariant of the proofs; models no code. -/
structure InvS (s : St σ ι α ε) : Prop where
  m : s.mainRef = mainHere s.log
  a : ∀ o, aliveOb (s.ob o) = listens o s.log

theorem listens_snoc (o) (l : List (Ev ι α ε)) (e) : listens o (l ++ [e]) = (match e with
    | .sub p _ => listens o l || decide (p = o)
    | .unsub p => listens o l && !decide (p = o)
    | .got p x => listens o l && !(decide (p = o) && x.term)
    | _ => listens o l) := by
  unfold listens
  rw [List.foldl_append]
  rfl

theorem mainHere_snoc (l : List (Ev ι α ε)) (e) : mainHere (l ++ [e]) =
    (mainHere l && (match e with | .gone => false | .ended _ => false | _ => true)) := by
  simp [mainHere]

theorem settle_ob (s : St σ ι α ε) : s.settle.ob = s.ob := by unfold St.settle; split <;> rfl
theorem settle_log' (s : St σ ι α ε) : s.settle.log = s.log := by unfold St.settle; split <;> rfl
theorem settle_main (s : St σ ι α ε) : s.settle.mainRef = s.mainRef := by unfold St.settle; split <;> rfl
theorem settle_prog (s : St σ ι α ε) : s.settle.prog = s.prog := by unfold St.settle; split <;> rfl

theorem InvS.settle {s : St σ ι α ε} (h : InvS s) : InvS s.settle := by
  constructor
  · rw [settle_main, settle_log']; exact h.m
  · intro o; rw [settle_ob, settle_log']; exact h.a o

theorem InvS.same {s s' : St σ ι α ε} (h : InvS s) {e} (hl : s'.log = s.log ++ [e]) (ho : s'.ob = s.ob)
    (hr : s'.mainRef = s.mainRef) (h1 : mainHere (s.log ++ [e]) = mainHere s.log)
    (h2 : ∀ o, listens o (s.log ++ [e]) = listens o s.log) : InvS s' := by
  constructor
  · rw [hr, hl, h1]; exact h.m
  · intro o; rw [hl, ho, h2]; exact h.a o

theorem InvS.step {O : Oper σ ι α ε} {s : St σ ι α ε} (h : InvS s) (hR : InvR s) (l : Lbl ι) : InvS (step O s l) := by
  have hm := h.m
  have ha := h.a
  cases l with
  | notify i =>
    simp only [Win.step]
    split
    · split
      · exact h
      · exact h.same (e := .acc i (!s.mainRef)) rfl rfl rfl (by simp [mainHere_snoc]) (by simp [listens_snoc])
    · exact h
  | run =>
    simp only [Win.step]
    split
    · exact h
    · next i rest hp =>
      cases i with
      | create w => simp only [exec1]; split <;> exact ⟨hm, ha⟩
      | openW w =>
        simp only [exec1]
        split
        · exact h.same (e := .opened w) rfl rfl rfl (by simp [mainHere_snoc]) (by simp [listens_snoc])
        · exact ⟨hm, ha⟩
      | push w x =>
        simp only [exec1]
        split
        · exact h.same (e := .fed w x) rfl rfl rfl (by simp [mainHere_snoc]) (by simp [listens_snoc])
        · exact ⟨hm, ha⟩
      | call o x =>
        simp only [exec1]
        split
        · next b hb =>
          split
          · next hal =>
            split
            · next hx =>
              refine InvS.settle ⟨?_, ?_⟩
              · simp only [mainHere_snoc, Bool.and_true]; exact hm
              · intro p
                simp only [listens_snoc]
                by_cases hpo : p = o
                · simp [hpo, aliveOb, hx]
                · rw [if_neg hpo, ha]; simp [Ne.symm hpo]
            · next hx =>
              exact h.same (e := .got o x) rfl rfl rfl (by simp [mainHere_snoc]) (by intro p; simp [listens_snoc, hx])
          · exact ⟨hm, ha⟩
        · exact ⟨hm, ha⟩
      | drop w => exact ⟨hm, ha⟩
      | mainEnd x =>
        simp only [exec1]
        split
        · refine InvS.settle ⟨?_, ?_⟩
          · simp [mainHere_snoc]
          · intro p; simp only [listens_snoc]; exact ha p
        · exact ⟨hm, ha⟩
      | stopIfDown w => exact ⟨hm, ha⟩
  | sub o w =>
    have hlate : ∀ (es : List (Ev ι α ε)), s.ob o = none → mainHere (s.log ++ es) = mainHere s.log →
        (∀ p, listens p (s.log ++ es) = listens p s.log) →
        InvS { s with ob := fun j => if j = o then some ⟨w, false⟩ else s.ob j, log := s.log ++ es } := by
      intro es hn h1 h2
      refine ⟨h1 ▸ hm, ?_⟩
      intro p
      simp only [h2, ← ha]
      by_cases hpo : p = o
      · simp [hpo, hn, aliveOb]
      · simp [hpo]
    simp only [Win.step]
    split
    · exact h
    · next hn =>
      split
      · exact h
      · refine ⟨?_, ?_⟩
        · simp only [mainHere_snoc, Bool.and_true]; exact hm
        · intro p
          simp only [listens_snoc, ← ha]
          by_cases hpo : p = o
          · simp [hpo, aliveOb]
          · simp [hpo, Ne.symm hpo]
      · split
        · next x hx _ =>
          have hlo : listens o s.log = false := by rw [← ha, hn]; rfl
          refine hlate [.late o w, .got o x] hn (by simp [mainHere]) ?_
          intro p
          rw [show s.log ++ [.late o w, .got o x] = (s.log ++ [.late o w]) ++ [.got o x] by simp, listens_snoc, listens_snoc]
          by_cases hpo : p = o
          · simp [hpo, hlo]
          · simp [Ne.symm hpo]
        · exact hlate [.late o w] hn (by simp [mainHere]) (by simp [listens_snoc])
      · exact hlate [.late o w] hn (by simp [mainHere]) (by simp [listens_snoc])
  | unsub o =>
    simp only [Win.step]
    split
    · next b hb =>
      split
      · refine InvS.settle ⟨?_, ?_⟩
        · simp only [mainHere_snoc, Bool.and_true]; exact hm
        · intro p
          simp only [listens_snoc, ← ha]
          by_cases hpo : p = o
          · simp [hpo, aliveOb]
          · simp [hpo, Ne.symm hpo]
      · exact h
    · exact h
  | leave =>
    simp only [Win.step]
    split
    · refine InvS.settle ⟨?_, ?_⟩
      · simp [mainHere_snoc]
      · intro p; simp only [listens_snoc]; exact ha p
    · exact h
  | destroy =>
    simp only [Win.step]
    split
    · exact ⟨hm, ha⟩
    · exact h

theorem invS {O : Oper σ ι α ε} (hO : O.Ok) (ls : List (Lbl ι)) : InvS (exec O ls) := by
  refine (exec_induct O (P := fun s => InvR s ∧ InvS s) ⟨?_, ?_⟩ (fun s l h => ⟨h.1.step hO l, h.2.step h.1 l⟩) ls).2
  · constructor <;> simp [aliveOb, Phase.isLive, front]
  · constructor <;> simp [mainHere, listens, aliveOb]

theorem dead_iff {O : Oper σ ι α ε} (hO : O.Ok) (ls : List (Lbl ι)) :
    (exec O ls).dead = true ↔ mainHere (exec O ls).log = false ∧ ∀ o, listens o (exec O ls).log = false := by
  have hR := invR hO ls
  have hS := invS hO ls
  rw [← hS.m]
  simp only [← hS.a]
  constructor
  · intro hd
    obtain ⟨h1, h2⟩ := hR.r1 hd
    refine ⟨h1, fun o => ?_⟩
    cases ha : aliveOb ((exec O ls).ob o)
    · rfl
    · have := (hR.r2 o).mpr ha
      rw [h2] at this; cases this
  · rintro ⟨h1, h2⟩
    refine hR.r1' h1 ?_
    apply List.eq_nil_iff_forall_not_mem.mpr
    intro o ho
    have := (hR.r2 o).mp ho
    rw [h2 o] at this; cases this

/-! ## Progress -/

theorem run_prog {O : Oper σ ι α ε} {s : St σ ι α ε} {i rest} (hp : s.prog = i :: rest) :
    (∃ w x, ∃ l : List Nat, i = .push w x ∧ (step O s .run).prog = l.map (fun o => .call o x) ++ rest) ∨
      (step O s .run).prog = rest ∨ (i.isCall = false ∧ (step O s .run).prog = []) := by
  simp only [Win.step, hp]
  cases i with
  | create w => simp only [exec1]; split <;> exact .inr (.inl rfl)
  | openW w => simp only [exec1]; split <;> exact .inr (.inl rfl)
  | push w x =>
    simp only [exec1]
    split
    · next l _ => exact .inl ⟨w, x, l, rfl, rfl⟩
    · exact .inr (.inl rfl)
  | call o x =>
    simp only [exec1]
    split
    · split
      · split
        · exact .inr (.inl (settle_prog _))
        · exact .inr (.inl rfl)
      · exact .inr (.inl rfl)
    · exact .inr (.inl rfl)
  | drop w => exact .inr (.inl rfl)
  | mainEnd x =>
    simp only [exec1]
    split
    · exact .inr (.inl (settle_prog _))
    · exact .inr (.inl rfl)
  | stopIfDown w =>
    simp only [exec1]
    split
    · exact .inr (.inl rfl)
    · exact .inr (.inr ⟨rfl, rfl⟩)

/-- The number of instructions that are no calls. -/
def weight (p : List (Instr α ε)) : Nat := (p.filter (fun i => !i.isCall)).length

theorem weight_cons_call {i : Instr α ε} {r} (h : i.isCall = true) : weight (i :: r) = weight r := by
  simp [weight, h]

theorem weight_cons {i : Instr α ε} {r} (h : i.isCall = false) : weight (i :: r) = weight r + 1 := by
  simp [weight, h]

theorem weight_calls (x : Item α ε) (l : List Nat) (r : List (Instr α ε)) :
    weight (l.map (fun o => .call o x) ++ r) = weight r := by
  induction l with
  | nil => rfl
  | cons o l ih => simpa [weight, Instr.isCall] using ih

/-- Left alone, the operator finishes what it is doing. -/
theorem finishes (O : Oper σ ι α ε) (s : St σ ι α ε) :
    ∃ k, ((List.replicate k Lbl.run).foldl (step O) s).prog = [] := by
  generalize hw : weight s.prog = w
  induction w using Nat.strongRecOn generalizing s with
  | _ w ihw =>
    generalize hn : s.prog.length = n
    induction n generalizing s with
    | zero => exact ⟨0, List.length_eq_zero_iff.mp hn⟩
    | succ n ihn =>
      cases hp : s.prog with
      | nil => rw [hp] at hn; cases hn
      | cons i rest =>
        rw [hp] at hw hn
        have fin : (∃ k, ((List.replicate k Lbl.run).foldl (step O) (step O s .run)).prog = []) →
            ∃ k, ((List.replicate k Lbl.run).foldl (step O) s).prog = [] := by
          rintro ⟨k, hk⟩
          exact ⟨k + 1, by rw [List.replicate_succ, List.foldl_cons]; exact hk⟩
        apply fin
        rcases run_prog (O := O) hp with ⟨a, x, l, rfl, h⟩ | h | ⟨hc, h⟩
        · exact ihw (weight rest) (by rw [weight_cons rfl] at hw; omega) _ (by rw [h, weight_calls])
        · cases hc : i.isCall
          · exact ihw (weight rest) (by rw [weight_cons hc] at hw; omega) _ (by rw [h])
          · exact ihn _ (by rw [h, ← weight_cons_call hc]; exact hw) (by rw [h]; simpa using hn)
        · exact ⟨0, h⟩

end Rpp.Win
