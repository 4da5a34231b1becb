import Verif.Window.HubDeliver

/-!
# The common machine of `window` and `group_by`: what is done is what is planned
-/

namespace Rpp.Win
variable {σ ι α ε : Type}

/-- Used in the proofs; models no code. -/
def Phase.mode : Phase α ε → Option Bool
  | .absent => none
  | .live _ => some true
  | _ => some false

/-- What a program does when nobody interferes. -/
def sim (L : Nat → Option Bool) : List (Instr α ε) → List (Act α ε) × (Nat → Option Bool)
  | [] => ([], L)
  | .create w :: r =>
    sim (fun v => if v = w then (if L w = none then some true else L w) else L v) r
  | .openW w :: r => (.opened w :: (sim L r).1, (sim L r).2)
  | .push w x :: r =>
    if L w = some true then
      (.fed w x :: (sim (fun v => if v = w then some (!x.term) else L v) r).1,
        (sim (fun v => if v = w then some (!x.term) else L v) r).2)
    else sim L r
  | .call _ _ :: r => sim L r
  | .drop _ :: r => sim L r
  | .mainEnd x :: r => (.ended x :: (sim L r).1, (sim L r).2)
  | .stopIfDown w :: r => if L w = some true then sim L r else ([], L)

/-- Used in the proofs; models no code. -/
def planStep (O : Oper σ ι α ε) (p : σ × (Nat → Option Bool) × List (Act α ε)) (a : ι × Bool) :
    σ × (Nat → Option Bool) × List (Act α ε) :=
  ((O.accept p.1 a.2 a.1).1, (sim p.2.1 (O.accept p.1 a.2 a.1).2).2, p.2.2 ++ (sim p.2.1 (O.accept p.1 a.2 a.1).2).1)

/-- What an operator does with a list of notifications when nobody interferes. -/
def plan (O : Oper σ ι α ε) (as : List (ι × Bool)) : σ × (Nat → Option Bool) × List (Act α ε) :=
  as.foldl (planStep O) (O.init, fun _ => none, [])

theorem plan_snoc (O : Oper σ ι α ε) (as a) : plan O (as ++ [a]) = planStep O (plan O as) a := by
  simp [plan]

/-- The accepted notifications, with the flag whether the main observer had left. -/
def accs : List (Ev ι α ε) → List (ι × Bool)
  | [] => []
  | .acc i g :: r => (i, g) :: accs r
  | _ :: r => accs r

theorem accs_snoc (l : List (Ev ι α ε)) (e) : accs (l ++ [e]) = accs l ++ accs [e] := by
  induction l with
  | nil => rfl
  | cons a l ih => cases a <;> simp only [List.cons_append, accs, ih]

theorem acts_snoc (l : List (Ev ι α ε)) (e) : acts (l ++ [e]) = acts l ++ acts [e] := by
  induction l with
  | nil => rfl
  | cons a l ih => cases a <;> simp only [List.cons_append, acts, ih]

/-- The part about the subjects. -/
def fedPart : List (Act α ε) → List (Nat × Item α ε)
  | [] => []
  | .fed w x :: r => (w, x) :: fedPart r
  | _ :: r => fedPart r

theorem fedPart_append (l m : List (Act α ε)) : fedPart (l ++ m) = fedPart l ++ fedPart m := by
  induction l with
  | nil => rfl
  | cons a l ih => cases a <;> simp only [List.cons_append, fedPart, ih]

/-- Used in the proofs; models no code. -/
def modes (s : St σ ι α ε) : Nat → Option Bool := fun w => (s.phase w).mode

/-- Used in the proofs; models no code. -/
def clean (l : List (Ev ι α ε)) : Bool := l.all (fun e => match e with | .gone => false | _ => true)

/-- Invariant of the proofs; models no code. -/
structure InvP (O : Oper σ ι α ε) (s : St σ ι α ε) : Prop where
  p0 : (plan O (accs s.log)).1 = s.op
  p1 : clean s.log = true → (∀ a ∈ accs s.log, a.2 = false) ∧
    ((s.mainRef = true ∧ acts s.log ++ (sim (modes s) s.prog).1 = (plan O (accs s.log)).2.2) ∨
      (s.mainRef = false ∧ s.prog = [] ∧ s.over = true ∧ acts s.log = (plan O (accs s.log)).2.2))
  p2 : s.dead = false → fedPart (acts s.log ++ (sim (modes s) s.prog).1) = fedPart (plan O (accs s.log)).2.2 ∧
    (sim (modes s) s.prog).2 = (plan O (accs s.log)).2.1
  p3 : fedPart (acts s.log) <+: fedPart (plan O (accs s.log)).2.2
  p4 : endLast s.prog = true
  p5 : hasEnd s.prog = true → s.over = true

theorem InvP.quiet {O : Oper σ ι α ε} {s s' : St σ ι α ε} (h : InvP O s) {es} (hl : s'.log = s.log ++ es)
    (he : ∀ e ∈ es, acts [e] = [] ∧ accs [e] = [] ∧ clean [e] = true)
    (hop : s'.op = s.op) (hm : modes s' = modes s) (hs : sim (modes s) s'.prog = sim (modes s) s.prog)
    (hd : s'.dead = s.dead) (hr : s'.mainRef = s.mainRef) (ho : s'.over = s.over)
    (hn : s.prog = [] → s'.prog = [])
    (hel : endLast s'.prog = true) (hhe : hasEnd s'.prog = true → hasEnd s.prog = true) : InvP O s' := by
  have key : ∀ (l es : List (Ev ι α ε)), (∀ e ∈ es, acts [e] = [] ∧ accs [e] = [] ∧ clean [e] = true) →
      acts (l ++ es) = acts l ∧ accs (l ++ es) = accs l ∧ clean (l ++ es) = clean l := by
    intro l es
    induction es generalizing l with
    | nil => simp
    | cons e es ih =>
      intro h
      have h1 := h e (by simp)
      have := ih (l ++ [e]) (fun e' h' => h e' (by simp [h']))
      simp only [List.append_assoc, List.singleton_append] at this
      rw [this.1, this.2.1, this.2.2, acts_snoc, accs_snoc, h1.1, h1.2.1]
      refine ⟨by simp, by simp, ?_⟩
      have := h1.2.2
      simp only [clean, List.all_append] at this ⊢
      rw [this]; simp
  obtain ⟨a, b, c⟩ := key s.log es he
  constructor
  · rw [hl, b, hop]; exact h.p0
  · intro hc
    rw [hl, c] at hc
    rw [hl, a, b, hm, hs, hr, ho]
    obtain ⟨h1, h2⟩ := h.p1 hc
    refine ⟨h1, ?_⟩
    rcases h2 with h2 | ⟨h2, h3, h4⟩
    · exact .inl h2
    · exact .inr ⟨h2, hn h3, h4⟩
  · rw [hl, a, b, hm, hs, hd]; exact h.p2
  · rw [hl, a, b]; exact h.p3
  · exact hel
  · intro hx; rw [ho]; exact h.p5 (hhe hx)

/-- The last reference is given back. -/
theorem InvP.settle {O : Oper σ ι α ε} {s : St σ ι α ε} (h : InvP O s) :
    InvP O s.settle := by
  unfold St.settle
  split
  · exact h
  · next hh =>
    simp only [Bool.or_eq_true, not_or] at hh
    have hm : s.mainRef = false := by simpa using hh.1
    refine ⟨h.p0, ?_, ?_, h.p3, h.p4, h.p5⟩
    · intro hcl
      obtain ⟨h1, h2⟩ := h.p1 hcl
      refine ⟨h1, .inr ?_⟩
      rcases h2 with ⟨h2, _⟩ | h2
      · rw [hm] at h2; cases h2
      · exact h2
    · intro hd; cases hd

theorem modes_free0 (s : St σ ι α ε) (o b) : modes (s.free0 o b) = modes s := by
  funext w
  simp only [modes, St.free0]
  split
  · cases s.phase w <;> rfl
  · rfl

theorem sim_calls (L : Nat → Option Bool) (x : Item α ε) (os : List Nat) (r : List (Instr α ε)) :
    sim L (os.map (fun o => .call o x) ++ r) = sim L r := by
  induction os with
  | nil => rfl
  | cons o os ih => simpa [sim] using ih

theorem endLast_calls (x : Item α ε) (os : List Nat) (r : List (Instr α ε)) :
    endLast (os.map (fun o => .call o x) ++ r) = endLast r := by
  induction os with
  | nil => rfl
  | cons o os ih => simpa [endLast] using ih

theorem hasEnd_calls (x : Item α ε) (os : List Nat) (r : List (Instr α ε)) :
    hasEnd (os.map (fun o => .call o x) ++ r) = hasEnd r := by
  induction os with
  | nil => rfl
  | cons o os ih => simpa [hasEnd] using ih

theorem endLast_tail {i : Instr α ε} {r} (h : endLast (i :: r) = true) : endLast r = true := by
  cases i <;> simp only [endLast] at h <;> try exact h
  cases r <;> simp_all [endLast]

theorem hasEnd_tail {i : Instr α ε} {r} (h : hasEnd r = true) : hasEnd (i :: r) = true := by
  cases i <;> simp only [hasEnd] <;> exact h

theorem clean_snoc (l : List (Ev ι α ε)) (e) : clean (l ++ [e]) = (clean l && clean [e]) := by
  simp [clean]

theorem mode_live {p : Phase α ε} : p.mode = some true ↔ ∃ l, p = .live l := by
  cases p <;> simp [Phase.mode]

/-- An instruction does what it is planned to do. -/
theorem InvP.does {O : Oper σ ι α ε} {s s' : St σ ι α ε} (h : InvP O s) {e : Ev ι α ε}
    (hl : s'.log = s.log ++ [e]) (hac : accs [e] = []) (hcl : clean [e] = true)
    (hop : s'.op = s.op) (hs1 : (sim (modes s) s.prog).1 = acts [e] ++ (sim (modes s') s'.prog).1)
    (hs2 : (sim (modes s) s.prog).2 = (sim (modes s') s'.prog).2)
    (hd : s'.dead = s.dead) (hdd : s.dead = true → fedPart (acts [e]) = []) (ho : s'.over = s.over)
    (hpn : s.prog ≠ [])
    (hr : s'.mainRef = s.mainRef ∨ s'.mainRef = false ∧ s'.prog = [] ∧ s.over = true)
    (hel : endLast s'.prog = true) (hhe : hasEnd s'.prog = true → hasEnd s.prog = true) : InvP O s' := by
  have hacc : accs s'.log = accs s.log := by rw [hl, accs_snoc, hac, List.append_nil]
  constructor
  · rw [hacc, hop]; exact h.p0
  · intro hc
    rw [hl, clean_snoc, hcl, Bool.and_true] at hc
    obtain ⟨h1, h2⟩ := h.p1 hc
    rw [hacc]
    refine ⟨h1, ?_⟩
    rcases h2 with ⟨h2, h3⟩ | ⟨_, h3, _⟩
    · rw [hs1, ← List.append_assoc] at h3
      rcases hr with hr | ⟨hr, hr2, hr3⟩
      · exact .inl ⟨hr ▸ h2, by rw [hl, acts_snoc]; exact h3⟩
      · refine .inr ⟨hr, hr2, by rw [ho]; exact hr3, ?_⟩
        rw [hr2] at h3
        rw [hl, acts_snoc]
        simpa [sim] using h3
    · exact absurd h3 hpn
  · intro hd'
    rw [hd] at hd'
    obtain ⟨h1, h2⟩ := h.p2 hd'
    rw [hs1, ← List.append_assoc] at h1
    rw [hacc, hl, acts_snoc, ← hs2]
    exact ⟨h1, h2⟩
  · rw [hacc, hl, acts_snoc]
    cases hdx : s.dead
    · obtain ⟨h1, h2⟩ := h.p2 hdx
      rw [hs1, ← List.append_assoc, fedPart_append] at h1
      exact ⟨_, h1⟩
    · rw [fedPart_append, hdd hdx, List.append_nil]; exact h.p3
  · exact hel
  · intro hx; rw [ho]; exact h.p5 (hhe hx)

/-- A silent instruction. -/
theorem InvP.tau {O : Oper σ ι α ε} {s s' : St σ ι α ε} (h : InvP O s)
    (hl : s'.log = s.log) (hop : s'.op = s.op)
    (hs1 : s.mainRef = true → s.dead = false → (sim (modes s) s.prog).1 = (sim (modes s') s'.prog).1)
    (hs2 : s.dead = false → fedPart (sim (modes s) s.prog).1 = fedPart (sim (modes s') s'.prog).1 ∧
      (sim (modes s) s.prog).2 = (sim (modes s') s'.prog).2)
    (hpn : s.prog ≠ []) (hdm : s.mainRef = true → s.dead = false)
    (hd : s'.dead = s.dead) (ho : s'.over = s.over) (hr : s'.mainRef = s.mainRef)
    (hel : endLast s'.prog = true) (hhe : hasEnd s'.prog = true → hasEnd s.prog = true) : InvP O s' := by
  constructor
  · rw [hl, hop]; exact h.p0
  · intro hc
    rw [hl] at hc
    obtain ⟨h1, h2⟩ := h.p1 hc
    rw [hl]
    refine ⟨h1, ?_⟩
    rcases h2 with ⟨h2, h3⟩ | ⟨_, h3, _⟩
    · rw [hs1 h2 (hdm h2)] at h3
      exact .inl ⟨hr ▸ h2, h3⟩
    · exact absurd h3 hpn
  · intro hd'
    rw [hd] at hd'
    have := h.p2 hd'
    rw [fedPart_append, (hs2 hd').1, (hs2 hd').2, ← fedPart_append] at this
    rw [hl]; exact this
  · rw [hl]; exact h.p3
  · exact hel
  · intro hx; rw [ho]; exact h.p5 (hhe hx)

theorem InvP.exec1 {O : Oper σ ι α ε} {s : St σ ι α ε} (h : InvP O s) (hR : InvR s) {i rest}
    (hp : s.prog = i :: rest) : InvP O (exec1 s rest i) := by
  have hel : endLast rest = true := endLast_tail (hp ▸ h.p4)
  have hhe : hasEnd rest = true → hasEnd s.prog = true := fun hx => hp ▸ hasEnd_tail hx
  have hpn : s.prog ≠ [] := by rw [hp]; simp
  have hdm : s.mainRef = true → s.dead = false := by
    intro hm
    cases hd : s.dead
    · rfl
    · rw [(hR.r1 hd).1] at hm; cases hm
  cases i with
  | create w =>
    simp only [Win.exec1]
    have key : s.phase w = .absent → s.dead = false → sim (modes s) s.prog = sim (fun v => if v = w then some true else modes s v) rest := by
      intro hw _
      have : modes s w = none := by simp [modes, hw, Phase.mode]
      simp [hp, sim, this]
    have key2 : s.phase w ≠ .absent → sim (modes s) s.prog = sim (modes s) rest := by
      intro hw
      have : modes s w ≠ none := by
        simp only [modes]
        cases hx : s.phase w <;> simp_all [Phase.mode]
      rw [hp]
      simp only [sim, if_neg this]
      congr 1
      funext v
      split
      · next e => rw [e]
      · rfl
    split
    · next hw =>
      have hmo : s.dead = false → (modes { s with prog := rest, held := fun v => if v = w then true else s.held v, phase := fun v => if v = w then (if s.dead then .disposed else .live []) else s.phase v }) =
               fun v => if v = w then some true else modes s v := by
        intro hd
        funext v
        simp only [modes, hd]
        split
        · simp [Phase.mode]
        · rfl
      refine h.tau rfl rfl ?_ ?_ hpn hdm rfl rfl rfl hel hhe
      · intro _ hd
        rw [key hw hd, hmo hd]
      · intro hd
        rw [key hw hd, hmo hd]
        exact ⟨rfl, rfl⟩
    · next hw =>
      refine h.tau rfl rfl ?_ ?_ hpn hdm rfl rfl rfl hel hhe
      · intro _ hd
        rw [key2 hw]; rfl
      · intro hd
        rw [key2 hw]
        exact ⟨rfl, rfl⟩
  | openW w =>
    simp only [Win.exec1]
    split
    · refine h.does (e := .opened w) rfl rfl rfl rfl ?_ ?_ rfl (fun _ => rfl) rfl hpn (.inl rfl) hel hhe
      · rw [hp]; rfl
      · rw [hp]; rfl
    · next hm =>
      refine h.tau rfl rfl ?_ ?_ hpn hdm rfl rfl rfl hel hhe
      · intro hm'; exact absurd hm' hm
      · intro hd
        rw [hp]
        exact ⟨rfl, rfl⟩
  | push w x =>
    simp only [Win.exec1]
    split
    · next l hl =>
      have hd : s.dead = false := hR.r3 w (by rw [hl]; rfl)
      have hmw : modes s w = some true := by simp [modes, hl, Phase.mode]
      have hmo : (modes { s with prog := l.map (fun o => .call o x) ++ rest, log := s.log ++ [.fed w x], phase := fun v => if v = w then (if x.term then .ended x else .live l) else s.phase v }) =
               fun v => if v = w then some (!x.term) else modes s v := by
        funext v
        simp only [modes]
        split
        · cases x.term <;> simp [Phase.mode]
        · rfl
      refine h.does (e := .fed w x) rfl rfl rfl rfl ?_ ?_ rfl ?_ rfl hpn (.inl rfl) ?_ ?_
      · rw [hmo, hp]; simp only [sim, hmw, if_pos]
        rw [sim_calls]; rfl
      · rw [hmo, hp]; simp only [sim, hmw, if_pos]
        rw [sim_calls]
      · intro hd'; rw [hd] at hd'; cases hd'
      · rw [endLast_calls]; exact hel
      · rw [hasEnd_calls]; exact hhe
    · next hl =>
      have hmw : modes s w ≠ some true := by
        intro hm
        obtain ⟨l, hl'⟩ := mode_live.mp hm
        exact hl l hl'
      have : sim (modes s) s.prog = sim (modes s) rest := by rw [hp]; simp only [sim, if_neg hmw]
      refine h.tau rfl rfl ?_ ?_ hpn hdm rfl rfl rfl hel hhe
      · intro _ _; rw [this]; rfl
      · intro _; rw [this]; exact ⟨rfl, rfl⟩
  | call o x =>
    have hss : sim (modes s) rest = sim (modes s) s.prog := by rw [hp]; rfl
    have hn : s.prog = [] → rest = [] := fun h => absurd h hpn
    simp only [Win.exec1]
    split
    · next b hb =>
      split
      · split
        · refine InvP.settle (s := St.free0 { s with prog := rest, log := s.log ++ [.got o x] } o b) ?_
          refine h.quiet (es := [.got o x]) rfl (by simp [acts, accs, clean]) rfl ?_ hss rfl rfl rfl hn hel hhe
          rw [modes_free0]; rfl
        · exact h.quiet (es := [.got o x]) rfl (by simp [acts, accs, clean]) rfl rfl hss rfl rfl rfl hn hel hhe
      · exact h.quiet (es := []) (by simp) (by simp) rfl rfl hss rfl rfl rfl hn hel hhe
    · exact h.quiet (es := []) (by simp) (by simp) rfl rfl hss rfl rfl rfl hn hel hhe
  | drop w =>
    have hss : sim (modes s) rest = sim (modes s) s.prog := by rw [hp]; rfl
    exact h.quiet (es := []) (by simp [Win.exec1]) (by simp) rfl rfl hss rfl rfl rfl (fun h => absurd h hpn) hel hhe
  | mainEnd x =>
    have hr : rest = [] := by
      have := h.p4
      rw [hp] at this
      simpa [endLast] using this
    simp only [Win.exec1]
    split
    · next hm =>
      refine InvP.settle ?_
      refine h.does (e := .ended x) rfl rfl rfl rfl ?_ ?_ rfl (fun _ => rfl) rfl hpn (.inr ⟨rfl, hr, ?_⟩) hel hhe
      · rw [hp]; rfl
      · rw [hp]; rfl
      · exact h.p5 (by rw [hp]; rfl)
    · next hm =>
      refine h.tau rfl rfl ?_ ?_ hpn hdm rfl rfl rfl hel hhe
      · intro hm'; exact absurd hm' hm
      · intro hd
        rw [hp]
        exact ⟨rfl, rfl⟩
  | stopIfDown w =>
    have key : sim (modes s) s.prog = sim (modes s) (if (s.phase w).isLive then rest else []) := by
      have hiff : modes s w = some true ↔ (s.phase w).isLive = true := by
        simp only [modes]
        cases s.phase w <;> simp [Phase.mode, Phase.isLive]
      rw [hp]
      simp only [sim]
      by_cases hx : modes s w = some true
      · rw [if_pos hx, if_pos (hiff.mp hx)]
      · rw [if_neg hx, if_neg (fun h => hx (hiff.mpr h))]; rfl
    refine h.tau rfl rfl ?_ ?_ hpn hdm rfl rfl rfl ?_ ?_
    · intro _ _; rw [key]; rfl
    · intro _; rw [key]; exact ⟨rfl, rfl⟩
    · simp only [Win.exec1]; split
      · exact hel
      · rfl
    · simp only [Win.exec1]; split
      · exact hhe
      · intro hx; cases hx

theorem InvP.step {O : Oper σ ι α ε} (hO : O.Ok) {s : St σ ι α ε} (h : InvP O s) (hR : InvR s) (l : Lbl ι) :
    InvP O (step O s l) := by
  cases l with
  | notify i =>
    simp only [Win.step]
    split
    · next hp =>
      split
      · exact h
      · next hc =>
        simp only [Bool.or_eq_true, not_or, Bool.not_eq_true] at hc
        obtain ⟨hd, hov⟩ := hc
        have hacc : accs (s.log ++ [.acc i (!s.mainRef)]) = accs s.log ++ [(i, !s.mainRef)] := by rw [accs_snoc]; rfl
        have hact : acts (s.log ++ [.acc i (!s.mainRef)]) = acts s.log := by rw [acts_snoc]; simp [acts]
        have hcl : clean (s.log ++ [.acc i (!s.mainRef)]) = clean s.log := by rw [clean_snoc]; simp [clean]
        obtain ⟨h2a, h2b⟩ := h.p2 hd
        rw [hp] at h2a h2b
        simp only [sim, List.append_nil] at h2a h2b
        constructor
        · simp only [hacc, plan_snoc, planStep, h.p0]
        · simp only [hcl, hacc, hact, plan_snoc, planStep, h.p0]
          intro hcc
          obtain ⟨h1, h2⟩ := h.p1 hcc
          rcases h2 with ⟨h2, h3⟩ | ⟨_, _, h3, _⟩
          · rw [hp] at h3
            simp only [sim, List.append_nil] at h3
            refine ⟨?_, .inl ⟨h2, ?_⟩⟩
            · intro a ha
              simp only [List.mem_append, List.mem_singleton] at ha
              rcases ha with ha | ha
              · exact h1 a ha
              · rw [ha, h2]; rfl
            · rw [← h2b, h3]; rfl
          · rw [hov] at h3; cases h3
        · intro _
          simp only [hacc, hact, plan_snoc, planStep, h.p0]
          rw [← h2b, fedPart_append, h2a, ← fedPart_append]
          exact ⟨rfl, rfl⟩
        · simp only [hacc, hact, plan_snoc, planStep, h.p0]
          rw [fedPart_append]
          exact h.p3.trans (List.prefix_append _ _)
        · exact hO.endLast _ _ _
        · exact hO.onlyTerm _ _ _
    · exact h
  | run =>
    simp only [Win.step]
    split
    · exact h
    · next i rest hp => exact h.exec1 hR hp
  | sub o w =>
    simp only [Win.step]
    split
    · exact h
    · split
      · exact h
      · next l hl =>
        refine h.quiet (es := [.sub o w]) rfl (by simp [acts, accs, clean]) rfl ?_ rfl rfl rfl rfl id h.p4 id
        funext v
        simp only [modes]
        split
        · next e => rw [e, hl]; rfl
        · rfl
      · split
        · exact h.quiet (es := [.late o w, .got o _]) rfl (by simp [acts, accs, clean]) rfl rfl rfl rfl rfl rfl id h.p4 id
        · exact h.quiet (es := [.late o w]) rfl (by simp [acts, accs, clean]) rfl rfl rfl rfl rfl rfl id h.p4 id
      · exact h.quiet (es := [.late o w]) rfl (by simp [acts, accs, clean]) rfl rfl rfl rfl rfl rfl id h.p4 id
  | unsub o =>
    simp only [Win.step]
    split
    · next b hb =>
      split
      · refine InvP.settle (s := St.free0 { s with log := s.log ++ [.unsub o] } o b) ?_
        refine h.quiet (es := [.unsub o]) rfl (by simp [acts, accs, clean]) rfl ?_ rfl rfl rfl rfl id h.p4 id
        rw [modes_free0]; rfl
      · exact h
    · exact h
  | leave =>
    simp only [Win.step]
    split
    · next hm =>
      refine InvP.settle ?_
      have hacc : accs (s.log ++ [.gone]) = accs s.log := by rw [accs_snoc]; simp [accs]
      have hact : acts (s.log ++ [.gone]) = acts s.log := by rw [acts_snoc]; simp [acts]
      refine ⟨?_, ?_, ?_, ?_, h.p4, h.p5⟩
      · simp only [hacc]; exact h.p0
      · intro hc; simp [clean] at hc
      · simp only [hacc, hact]; exact h.p2
      · simp only [hacc, hact]; exact h.p3
    · exact h
  | destroy =>
    simp only [Win.step]
    split
    · exact ⟨h.p0, h.p1, h.p2, h.p3, h.p4, h.p5⟩
    · exact h

theorem invP {O : Oper σ ι α ε} (hO : O.Ok) (ls : List (Lbl ι)) : InvP O (exec O ls) := by
  refine (exec_induct O (P := fun s => InvR s ∧ InvP O s) ⟨?_, ?_⟩ (fun s l h => ⟨h.1.step hO l, h.2.step hO h.1 l⟩) ls).2
  · constructor <;> simp [aliveOb, Phase.isLive, front]
  · constructor <;> simp [plan, accs, acts, sim, clean, fedPart, endLast, hasEnd, modes, Phase.mode]
    rfl

end Rpp.Win
