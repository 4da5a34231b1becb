import Verif.Window.HubProofs

/-!
# The common machine of `window` and `group_by`: every observer is told what its subject is given
-/

namespace Rpp.Win
variable {σ ι α ε : Type}

/-- The subject observer `o` joined. -/
def joined (o : Nat) : List (Ev ι α ε) → Option Nat
  | [] => none
  | .sub p w :: r => if p = o then some w else joined o r
  | _ :: r => joined o r

theorem feds_snoc (w) (l : List (Ev ι α ε)) (e) : feds w (l ++ [e]) = feds w l ++ feds w [e] := by
  induction l with
  | nil => rfl
  | cons a l ih => cases a <;> simp only [List.cons_append, feds, ih]; split <;> simp

theorem received_snoc (o) (l : List (Ev ι α ε)) (e) : received o (l ++ [e]) = received o l ++ received o [e] := by
  induction l with
  | nil => rfl
  | cons a l ih => cases a <;> simp only [List.cons_append, received, ih]; split <;> simp

theorem joined_snoc (o) (l : List (Ev ι α ε)) (e) : joined o (l ++ [e]) = (joined o l).or (joined o [e]) := by
  induction l with
  | nil => simp [joined]
  | cons a l ih => cases a <;> simp only [List.cons_append, joined, ih]; split <;> simp

theorem due_none (o) (l : List (Ev ι α ε)) (h : joined o l = none) : due o l = [] := by
  induction l with
  | nil => rfl
  | cons a l ih =>
    cases a <;> simp only [joined, due] at h ⊢ <;> try exact ih h
    split
    · next e => simp [e] at h
    · next e => rw [if_neg e] at h; exact ih h

theorem due_snoc (o) (l : List (Ev ι α ε)) (e) :
    due o (l ++ [e]) = due o l ++ (match joined o l with | some w => feds w [e] | none => []) := by
  induction l with
  | nil => cases e <;> simp [due, joined, feds]
  | cons a l ih =>
    cases a <;> simp only [List.cons_append, due, joined, ih]
    split
    · rw [feds_snoc]
    · rfl

/-- A test on the constructor; models no code. -/
def Phase.isOver : Phase α ε → Bool
  | .ended _ => true
  | .disposed => true
  | _ => false

/-- Invariant of the proofs; models no code. -/
structure InvD (s : St σ ι α ε) : Prop where
  d0 : ∀ o, s.ob o = none → joined o s.log = none ∧ received o s.log = [] ∧ pend o s.prog = []
  d1 : ∀ o w, s.ob o = some ⟨w, true⟩ → joined o s.log = some w ∧ due o s.log = received o s.log ++ pend o s.prog ∧
    ((∃ l, s.phase w = .live l ∧ o ∈ l ∧ (pend o s.prog).all (fun x => !x.term) = true) ∨
      ∃ x, s.phase w = .ended x ∧ pend o s.prog = [x])
  d2 : ∀ o w, s.ob o = some ⟨w, false⟩ → joined o s.log = none ∨
    (joined o s.log = some w ∧ received o s.log <+: due o s.log ∧
      (.unsub o ∉ s.log → received o s.log = due o s.log ∧ (s.phase w).isOver = true))
  d3 : ∀ o, (pend o s.prog).length ≤ 1
  d4 : ∀ w x, s.phase w = .ended x → x.term = true ∧ .fed w x ∈ s.log
  d5 : ∀ o w, s.ob o = some ⟨w, false⟩ → joined o s.log = none →
    received o s.log = [] ∨ ∃ x, received o s.log = [x] ∧ x.term = true ∧ .fed w x ∈ s.log

/-- Nothing happens to any observer. -/
structure Quiet (s s' : St σ ι α ε) (es : List (Ev ι α ε)) : Prop where
  ob : s'.ob = s.ob
  log : s'.log = s.log ++ es
  ev : ∀ e ∈ es, (∀ o, received o [e] = []) ∧ (∀ o, joined o [e] = none) ∧ (∀ w, feds w [e] = []) ∧ ∀ o, e ≠ .unsub o
  pend : ∀ o, pend o s'.prog = pend o s.prog
  live : ∀ o w, s.ob o = some ⟨w, true⟩ → s'.phase w = s.phase w
  over : ∀ w, (s.phase w).isOver = true → (s'.phase w).isOver = true
  ended : ∀ w x, s'.phase w = .ended x → s.phase w = .ended x

theorem quiet_snocs {s : List (Ev ι α ε)} : ∀ (es : List (Ev ι α ε)),
    (∀ e ∈ es, (∀ o, received o [e] = []) ∧ (∀ o, joined o [e] = none) ∧ (∀ w, feds w [e] = []) ∧ ∀ o, e ≠ .unsub o) →
    (∀ o, received o (s ++ es) = received o s) ∧ (∀ o, joined o (s ++ es) = joined o s) ∧
      (∀ o, due o (s ++ es) = due o s) ∧ ∀ o, .unsub o ∈ s ++ es ↔ .unsub o ∈ s := by
  intro es
  induction es generalizing s with
  | nil => simp
  | cons e es ih =>
    intro h
    have he := h e (by simp)
    have := ih (s := s ++ [e]) (fun e' h' => h e' (by simp [h']))
    simp only [List.append_assoc, List.singleton_append] at this
    obtain ⟨a, b, c, d⟩ := this
    refine ⟨fun o => ?_, fun o => ?_, fun o => ?_, fun o => ?_⟩
    · rw [a, received_snoc, he.1, List.append_nil]
    · rw [b, joined_snoc, he.2.1]; simp
    · rw [c, due_snoc]; split <;> simp [he.2.2.1]
    · rw [d]; simp [he.2.2.2 o, Ne.symm (he.2.2.2 o)]

theorem InvD.quiet {s s' : St σ ι α ε} {es} (h : InvD s) (q : Quiet s s' es) : InvD s' := by
  obtain ⟨a, b, c, d⟩ := quiet_snocs (s := s.log) es q.ev
  have hl := q.log
  constructor
  · intro o ho
    rw [hl, a, b, q.pend]
    exact h.d0 o (q.ob ▸ ho)
  · intro o w ho
    have ho' : s.ob o = some ⟨w, true⟩ := q.ob ▸ ho
    rw [hl, a, b, c, q.pend, q.live o w ho']
    exact h.d1 o w ho'
  · intro o w ho
    rw [hl, a, b, c, d]
    rcases h.d2 o w (q.ob ▸ ho) with h1 | ⟨h1, h2, h3⟩
    · exact .inl h1
    · exact .inr ⟨h1, h2, fun hu => ⟨(h3 hu).1, q.over w (h3 hu).2⟩⟩
  · intro o; rw [q.pend]; exact h.d3 o
  · intro w x hx
    have := h.d4 w x (q.ended w x hx)
    exact ⟨this.1, by rw [hl]; simp [this.2]⟩
  · intro o w ho hj
    rw [hl, b] at hj
    rw [hl, a]
    rcases h.d5 o w (q.ob ▸ ho) hj with h1 | ⟨x, h1, h2, h3⟩
    · exact .inl h1
    · exact .inr ⟨x, h1, h2, by simp [h3]⟩

theorem settle_quiet {s : St σ ι α ε} (h : InvQ s) : Quiet s s.settle [] := by
  unfold St.settle
  split
  · exact ⟨rfl, by simp, by simp, fun _ => rfl, fun _ _ _ => rfl, fun _ h => h, fun _ _ h => h⟩
  · next hc =>
    simp only [Bool.or_eq_true, not_or] at hc
    have hr : s.refd = [] := by simpa using hc.2
    refine ⟨rfl, by simp, by simp, fun _ => rfl, ?_, ?_, ?_⟩
    · intro o w ho
      have := (h.r2 o).mpr (by rw [ho]; rfl)
      rw [hr] at this; cases this
    · intro w hw
      simp only
      cases hq : s.phase w <;> rw [hq] at hw <;> simp_all [Phase.disposeIt, Phase.isOver]
    · intro w x hw
      simp only at hw
      cases hq : s.phase w <;> rw [hq] at hw <;> simp_all [Phase.disposeIt]

theorem without_over (o) (p : Phase α ε) : (p.without o).isOver = p.isOver := by cases p <;> rfl
theorem without_ended (o) (p : Phase α ε) (x) : p.without o = .ended x ↔ p = .ended x := by
  cases p <;> simp [Phase.without]

/-- Observer `o` leaves. -/
theorem InvD.free0 {s : St σ ι α ε} (h : InvD s) {o w} (hb : s.ob o = some ⟨w, true⟩) {rest : List (Instr α ε)}
    {e : Ev ι α ε} (he : ∀ p, p ≠ o → received p [e] = [] ∧ e ≠ .unsub p) (hj : ∀ p, joined p [e] = none)
    (hf : ∀ w, feds w [e] = [])
    (hp : ∀ p, p ≠ o → pend p rest = pend p s.prog) (hp3 : (pend o rest).length ≤ 1)
    (hr : received o (s.log ++ [e]) <+: due o (s.log ++ [e]))
    (hu : .unsub o ∉ s.log ++ [e] → received o (s.log ++ [e]) = due o (s.log ++ [e]) ∧ (s.phase w).isOver = true) :
    InvD (St.free0 { s with prog := rest, log := s.log ++ [e] } o ⟨w, true⟩) := by
  have hjj : ∀ p, joined p (s.log ++ [e]) = joined p s.log := by intro p; rw [joined_snoc, hj]; simp
  have hdd : ∀ p, due p (s.log ++ [e]) = due p s.log := by
    intro p; rw [due_snoc]; split <;> simp [hf]
  have hrr : ∀ p, p ≠ o → received p (s.log ++ [e]) = received p s.log := by
    intro p hpo; rw [received_snoc, (he p hpo).1]; simp
  have huu : ∀ p, p ≠ o → (.unsub p ∈ s.log ++ [e] ↔ .unsub p ∈ s.log) := by
    intro p hpo
    have := (he p hpo).2
    simp [Ne.symm this]
  unfold St.free0
  constructor
  · intro p hpn
    simp only at hpn ⊢
    by_cases hpo : p = o
    · rw [if_pos hpo] at hpn; cases hpn
    · rw [if_neg hpo] at hpn
      rw [hjj, hrr p hpo, hp p hpo]
      exact h.d0 p hpn
  · intro p v hpv
    simp only at hpv ⊢
    by_cases hpo : p = o
    · rw [if_pos hpo] at hpv; cases hpv
    · rw [if_neg hpo] at hpv
      rw [hjj, hdd, hrr p hpo, hp p hpo]
      obtain ⟨a, b, c⟩ := h.d1 p v hpv
      refine ⟨a, b, ?_⟩
      split
      · next hvw =>
        rcases c with ⟨l, c1, c2, c3⟩ | ⟨x, c1, c2⟩
        · exact .inl ⟨_, by rw [c1]; rfl, by simp [c2, hpo], c3⟩
        · exact .inr ⟨x, by rw [c1]; rfl, c2⟩
      · exact c
  · intro p v hpv
    simp only at hpv ⊢
    by_cases hpo : p = o
    · rw [if_pos hpo] at hpv; cases hpv
      right
      rw [hpo, if_pos rfl, without_over]
      exact ⟨by rw [hjj]; exact (h.d1 o w hb).1, hr, hu⟩
    · rw [if_neg hpo] at hpv
      rw [hjj, hdd, hrr p hpo, huu p hpo]
      rcases h.d2 p v hpv with h1 | ⟨h1, h2, h3⟩
      · exact .inl h1
      · refine .inr ⟨h1, h2, fun hx => ⟨(h3 hx).1, ?_⟩⟩
        split
        · rw [without_over]; exact (h3 hx).2
        · exact (h3 hx).2
  · intro p
    simp only
    by_cases hpo : p = o
    · rw [hpo]; exact hp3
    · rw [hp p hpo]; exact h.d3 p
  · intro v x hv
    simp only at hv ⊢
    have : s.phase v = .ended x := by
      split at hv
      · exact (without_ended _ _ _).mp hv
      · exact hv
    have := h.d4 v x this
    exact ⟨this.1, by simp [this.2]⟩
  · intro p v hpv hpj
    simp only at hpv hpj ⊢
    rw [hjj] at hpj
    by_cases hpo : p = o
    · rw [hpo, (h.d1 o w hb).1] at hpj; cases hpj
    · rw [if_neg hpo] at hpv
      rw [hrr p hpo]
      rcases h.d5 p v hpv hpj with h1 | ⟨x, h1, h2, h3⟩
      · exact .inl h1
      · exact .inr ⟨x, h1, h2, by simp [h3]⟩

theorem pend_cons_ne {o} {i : Instr α ε} {r} (h : i.isCall = false) : pend o (i :: r) = pend o r := by
  cases i <;> first | rfl | cases h

theorem InvD.push {s : St σ ι α ε} (h : InvD s) (hR : InvR s) {w x rest l} (hp : s.prog = .push w x :: rest)
    (hl : s.phase w = .live l) :
    InvD { s with prog := l.map (fun o => .call o x) ++ rest, log := s.log ++ [.fed w x],
                  phase := fun v => if v = w then (if x.term then .ended x else .live l) else s.phase v } := by
  have hnc := front_rest (hp ▸ hR.fr) rfl
  have hp0 : ∀ o, pend o s.prog = [] := by
    intro o; rw [hp, pend_cons_ne rfl, pend_noCall o rest hnc]
  have hpn : ∀ o, pend o (l.map (fun o => .call o x) ++ rest) = if o ∈ l then [x] else [] := by
    intro o
    rw [pend_append, pend_noCall o rest hnc, List.append_nil, pend_calls o x l (hR.r6 w l hl)]
  have hjj : ∀ p, joined p (s.log ++ [.fed w x]) = joined p s.log := by intro p; rw [joined_snoc]; simp [joined]
  have hrr : ∀ p, received p (s.log ++ [.fed w x]) = received p s.log := by intro p; rw [received_snoc]; simp [received]
  have huu : ∀ p, (.unsub p ∈ s.log ++ [.fed w x] ↔ .unsub p ∈ s.log) := by intro p; simp
  constructor
  · intro o ho
    simp only at ho ⊢
    obtain ⟨a, b, c⟩ := h.d0 o ho
    rw [hjj, hrr, hpn]
    refine ⟨a, b, if_neg ?_⟩
    intro hol
    have := hR.r5 w l o hl hol
    rw [ho] at this; cases this
  · intro o v ho
    simp only at ho ⊢
    obtain ⟨a, b, c⟩ := h.d1 o v ho
    rw [hp0] at b c
    rw [hjj, hrr, hpn, due_snoc, a]
    refine ⟨rfl, ?_, ?_⟩
    · simp only [b, List.append_nil, feds]
      congr 1
      by_cases hvw : w = v
      · subst hvw
        rcases c with ⟨m, c1, c2, _⟩ | ⟨y, _, c2⟩
        · rw [hl] at c1; cases c1; simp [c2]
        · cases c2
      · rw [if_neg hvw, if_neg]
        intro hol
        have := hR.r5 w l o hl hol
        rw [ho] at this; cases this; exact hvw rfl
    · rcases c with ⟨m, c1, c2, _⟩ | ⟨y, _, c2⟩
      · by_cases hvw : v = w
        · subst hvw
          rw [hl] at c1; cases c1
          simp only [if_pos, c2]
          by_cases hx : x.term = true
          · exact .inr ⟨x, by simp [hx], rfl⟩
          · exact .inl ⟨l, by simp [hx], c2, by simp at hx; simp [hx]⟩
        · rw [if_neg hvw]
          refine .inl ⟨m, c1, c2, ?_⟩
          rw [if_neg]
          · rfl
          · intro hol
            have := hR.r5 w l o hl hol
            rw [ho] at this; cases this; exact hvw rfl
      · cases c2
  · intro o v ho
    simp only at ho ⊢
    rw [hjj, hrr, huu, due_snoc]
    rcases h.d2 o v ho with h1 | ⟨h1, h2, h3⟩
    · exact .inl h1
    · right
      refine ⟨h1, h2.trans (List.prefix_append _ _), fun hu => ?_⟩
      obtain ⟨h4, h5⟩ := h3 hu
      have hvw : w ≠ v := by
        intro e; subst e; rw [hl] at h5; cases h5
      simp only [h1, feds, if_neg hvw, List.append_nil]
      exact ⟨h4, by rw [if_neg (Ne.symm hvw)]; exact h5⟩
  · intro o
    simp only [hpn]
    split <;> simp
  · intro v y hv
    simp only at hv ⊢
    split at hv
    · next e =>
      split at hv
      · next hx => cases hv; exact ⟨hx, by simp [e]⟩
      · cases hv
    · have := h.d4 v y hv
      exact ⟨this.1, by simp [this.2]⟩
  · intro o v ho hj
    simp only at ho hj ⊢
    rw [hjj] at hj
    rw [hrr]
    rcases h.d5 o v ho hj with h1 | ⟨y, h1, h2, h3⟩
    · exact .inl h1
    · exact .inr ⟨y, h1, h2, by simp [h3]⟩

theorem InvD.exec1 {s : St σ ι α ε} (h : InvD s) (hR : InvR s) {i rest} (hp : s.prog = i :: rest) :
    InvD (exec1 s rest i) := by
  have hq : i.isCall = false → ∀ o, pend o rest = pend o s.prog := by
    intro hc o; rw [hp, pend_cons_ne hc]
  have hfr : front rest = true := front_tail (hp ▸ hR.fr)
  cases i with
  | create w =>
    simp only [Win.exec1]
    split
    · next hw =>
      refine h.quiet (es := []) ⟨rfl, by simp, by simp, hq rfl, ?_, ?_, ?_⟩
      · intro o v ho
        simp only
        rw [if_neg]
        intro e; subst e
        rcases (h.d1 o v ho).2.2 with ⟨l, c, _⟩ | ⟨x, c, _⟩ <;> rw [hw] at c <;> cases c
      · intro v hv
        simp only
        split
        · next e => rw [e, hw] at hv; cases hv
        · exact hv
      · intro v x hv
        simp only at hv
        split at hv
        · split at hv <;> cases hv
        · exact hv
    · exact h.quiet (es := []) ⟨rfl, by simp, by simp, hq rfl, fun _ _ _ => rfl, fun _ h => h, fun _ _ h => h⟩
  | openW w =>
    simp only [Win.exec1]
    split
    · exact h.quiet (es := [.opened w]) ⟨rfl, rfl, by simp [received, joined, feds], hq rfl, fun _ _ _ => rfl, fun _ h => h, fun _ _ h => h⟩
    · exact h.quiet (es := []) ⟨rfl, by simp, by simp, hq rfl, fun _ _ _ => rfl, fun _ h => h, fun _ _ h => h⟩
  | push w x =>
    simp only [Win.exec1]
    split
    · next l hl => exact h.push hR hp hl
    · exact h.quiet (es := []) ⟨rfl, by simp, by simp, hq rfl, fun _ _ _ => rfl, fun _ h => h, fun _ _ h => h⟩
  | call o x =>
    have hne : ∀ p, p ≠ o → pend p rest = pend p s.prog := by
      intro p hpo; rw [hp]; simp only [pend]; rw [if_neg (Ne.symm hpo)]
    have hoo : pend o s.prog = x :: pend o rest := by rw [hp]; simp [pend]
    have hnil : pend o rest = [] := by
      have := h.d3 o
      rw [hoo] at this
      simp only [List.length_cons] at this
      exact List.length_eq_zero_iff.mp (by omega)
    simp only [Win.exec1]
    split
    · next b hb =>
      split
      · next ha =>
        obtain ⟨w, al⟩ := b
        simp only at ha; subst ha
        obtain ⟨a, b, c⟩ := h.d1 o w hb
        rw [hoo, hnil] at b c
        split
        · next hx =>
          have hQ : InvQ ({ s with prog := rest, log := s.log ++ [.got o x] }) :=
            ⟨hR.r1, hR.r2, hR.r3, hR.r5, hR.r6, hfr⟩
          have hrd : received o (s.log ++ [.got o x]) = due o (s.log ++ [.got o x]) := by
            rw [received_snoc, due_snoc, a, b]; simp [received, feds]
          refine InvD.quiet ?_ (settle_quiet (hQ.free0 o ⟨w, true⟩ hb rfl))
          refine h.free0 hb ?_ ?_ ?_ hne ?_ ?_ ?_
          · intro p hpo; simp [received, Ne.symm hpo]
          · intro p; rfl
          · intro v; rfl
          · rw [hnil]; simp
          · rw [hrd]; exact List.prefix_refl _
          · intro _
            refine ⟨hrd, ?_⟩
            rcases c with ⟨l, c1, c2, c3⟩ | ⟨y, c1, c2⟩
            · simp [hx] at c3
            · rw [c1]; rfl
        · next hx =>
          simp only [Bool.not_eq_true] at hx
          have hjj : ∀ p, joined p (s.log ++ [.got o x]) = joined p s.log := by intro p; rw [joined_snoc]; simp [joined]
          have hdd : ∀ p, due p (s.log ++ [.got o x]) = due p s.log := by
            intro p; rw [due_snoc]; split <;> simp [feds]
          have hrr : ∀ p, p ≠ o → received p (s.log ++ [.got o x]) = received p s.log := by
            intro p hpo; rw [received_snoc]; simp [received, Ne.symm hpo]
          have huu : ∀ p, (.unsub p ∈ s.log ++ [.got o x] ↔ .unsub p ∈ s.log) := by intro p; simp
          constructor
          · intro p hpn
            simp only at hpn ⊢
            have hpo : p ≠ o := by intro e; rw [e, hb] at hpn; cases hpn
            rw [hjj, hrr p hpo, hne p hpo]
            exact h.d0 p hpn
          · intro p v hpv
            simp only at hpv ⊢
            by_cases hpo : p = o
            · subst hpo
              rw [hb] at hpv; cases hpv
              rw [hjj, hdd, received_snoc, hnil]
              refine ⟨a, by simp [b, received], ?_⟩
              rcases c with ⟨l, c1, c2, _⟩ | ⟨y, c1, c2⟩
              · exact .inl ⟨l, c1, c2, rfl⟩
              · cases c2
                have := (h.d4 _ _ c1).1
                rw [hx] at this; cases this
            · rw [hjj, hdd, hrr p hpo, hne p hpo]
              exact h.d1 p v hpv
          · intro p v hpv
            simp only at hpv ⊢
            have hpo : p ≠ o := by intro e; rw [e, hb] at hpv; cases hpv
            rw [hjj, hdd, hrr p hpo, huu]
            exact h.d2 p v hpv
          · intro p
            simp only
            by_cases hpo : p = o
            · rw [hpo, hnil]; simp
            · rw [hne p hpo]; exact h.d3 p
          · intro v y hv
            have := h.d4 v y hv
            exact ⟨this.1, by simp [this.2]⟩
          · intro p v hpv hpj
            simp only at hpv hpj ⊢
            have hpo : p ≠ o := by intro e; rw [e, hb] at hpv; cases hpv
            rw [hjj] at hpj
            rw [hrr p hpo]
            rcases h.d5 p v hpv hpj with h1 | ⟨x, h1, h2, h3⟩
            · exact .inl h1
            · exact .inr ⟨x, h1, h2, by simp [h3]⟩
      · next ha =>
        obtain ⟨w, al⟩ := b
        simp only [Bool.not_eq_true] at ha; subst ha
        refine ⟨?_, ?_, h.d2, ?_, h.d4, h.d5⟩
        · intro p hpn
          have hpo : p ≠ o := by intro e; simp only at hpn; rw [e, hb] at hpn; cases hpn
          simp only [hne p hpo]; exact h.d0 p hpn
        · intro p v hpv
          have hpo : p ≠ o := by intro e; simp only at hpv; rw [e, hb] at hpv; cases hpv
          simp only [hne p hpo]; exact h.d1 p v hpv
        · intro p
          simp only
          by_cases hpo : p = o
          · rw [hpo, hnil]; simp
          · rw [hne p hpo]; exact h.d3 p
    · next hb =>
      have := (h.d0 o hb).2.2
      rw [hoo] at this; cases this
  | drop w =>
    exact h.quiet (es := []) ⟨rfl, by simp [Win.exec1], by simp, hq rfl, fun _ _ _ => rfl, fun _ h => h, fun _ _ h => h⟩
  | mainEnd x =>
    simp only [Win.exec1]
    split
    · next hm =>
      have hQ : InvQ ({ s with prog := rest, log := s.log ++ [.ended x], mainRef := false }) :=
        ⟨fun hd => absurd ((hR.r1 hd).1.symm.trans hm) (by simp), hR.r2, hR.r3, hR.r5, hR.r6, hfr⟩
      refine InvD.quiet ?_ (settle_quiet hQ)
      exact h.quiet (es := [.ended x]) ⟨rfl, rfl, by simp [received, joined, feds], hq rfl, fun _ _ _ => rfl, fun _ h => h, fun _ _ h => h⟩
    · exact h.quiet (es := []) ⟨rfl, by simp, by simp, hq rfl, fun _ _ _ => rfl, fun _ h => h, fun _ _ h => h⟩
  | stopIfDown w =>
    refine h.quiet (es := []) ⟨rfl, by simp [Win.exec1], by simp, ?_, fun _ _ _ => rfl, fun _ h => h, fun _ _ h => h⟩
    intro o
    simp only [Win.exec1]
    split
    · exact hq rfl o
    · rw [← hq rfl o, pend_noCall o rest (front_rest (hp ▸ hR.fr) rfl)]; rfl

theorem InvD.step {O : Oper σ ι α ε} (hO : O.Ok) {s : St σ ι α ε} (h : InvD s) (hR : InvR s) (l : Lbl ι) :
    InvD (step O s l) := by
  cases l with
  | notify i =>
    simp only [Win.step]
    split
    · next hp =>
      split
      · exact h
      · refine h.quiet (es := [.acc i (!s.mainRef)]) ⟨rfl, rfl, by simp [received, joined, feds], ?_, fun _ _ _ => rfl, fun _ h => h, fun _ _ h => h⟩
        intro o; rw [hp, pend_noCall o _ (hO.noCall _ _ _)]; rfl
    · exact h
  | run =>
    simp only [Win.step]
    split
    · exact h
    · next i rest hp => exact h.exec1 hR hp
  | sub o w =>
    have hlate : ∀ (es : List (Ev ι α ε)), s.ob o = none →
        (∀ p, received p (s.log ++ es) = if p = o then received p es else received p s.log) →
        (∀ p, joined p (s.log ++ es) = joined p s.log) → (∀ p, due p (s.log ++ es) = due p s.log) →
        (∀ p, .unsub p ∉ es) →
        (received o es = [] ∨ ∃ x, received o es = [x] ∧ x.term = true ∧ .fed w x ∈ s.log) →
        InvD { s with ob := fun j => if j = o then some ⟨w, false⟩ else s.ob j, log := s.log ++ es } := by
      intro es hn hr hj hd hu h5
      have huu : ∀ p, (.unsub p ∈ s.log ++ es ↔ .unsub p ∈ s.log) := by intro p; simp [hu p]
      constructor
      · intro p hp
        simp only at hp ⊢
        by_cases hpo : p = o
        · rw [if_pos hpo] at hp; cases hp
        · rw [if_neg hpo] at hp
          rw [hj, hr, if_neg hpo]; exact h.d0 p hp
      · intro p v hp
        simp only at hp ⊢
        by_cases hpo : p = o
        · rw [if_pos hpo] at hp; cases hp
        · rw [if_neg hpo] at hp
          rw [hj, hr, hd, if_neg hpo]; exact h.d1 p v hp
      · intro p v hp
        simp only at hp ⊢
        by_cases hpo : p = o
        · left; rw [hj, hpo]; exact (h.d0 o hn).1
        · rw [if_neg hpo] at hp
          rw [hj, hr, hd, if_neg hpo, huu]; exact h.d2 p v hp
      · exact h.d3
      · intro v y hv
        have := h.d4 v y hv
        exact ⟨this.1, by simp [this.2]⟩
      · intro p v hp hpj
        simp only at hp hpj ⊢
        by_cases hpo : p = o
        · rw [if_pos hpo] at hp; cases hp
          rw [hr, if_pos hpo, hpo]
          rcases h5 with h1 | ⟨x, h1, h2, h3⟩
          · exact .inl h1
          · exact .inr ⟨x, h1, h2, by simp [h3]⟩
        · rw [if_neg hpo] at hp
          rw [hj] at hpj
          rw [hr, if_neg hpo]
          rcases h.d5 p v hp hpj with h1 | ⟨x, h1, h2, h3⟩
          · exact .inl h1
          · exact .inr ⟨x, h1, h2, by simp [h3]⟩
    have hlate1 : s.ob o = none →
        InvD { s with ob := fun j => if j = o then some ⟨w, false⟩ else s.ob j, log := s.log ++ [.late o w] } := by
      intro hn
      refine hlate [.late o w] hn ?_ ?_ ?_ (by simp) (.inl rfl)
      · intro p; rw [received_snoc]
        by_cases hpo : p = o
        · rw [if_pos hpo, hpo, (h.d0 o hn).2.1]; rfl
        · rw [if_neg hpo]; simp [received]
      · intro p; rw [joined_snoc]; simp [joined]
      · intro p; rw [due_snoc]; split <;> simp [feds]
    simp only [Win.step]
    split
    · exact h
    · next hn =>
      split
      · exact h
      · next l hl =>
        have hjj : ∀ p, joined p (s.log ++ [.sub o w]) = if p = o then some w else joined p s.log := by
          intro p; rw [joined_snoc]
          by_cases hpo : p = o
          · rw [hpo, (h.d0 o hn).1]; simp [joined]
          · simp [joined, hpo, Ne.symm hpo]
        have hdd : ∀ p, due p (s.log ++ [.sub o w]) = due p s.log := by
          intro p; rw [due_snoc]; split <;> simp [feds]
        have hrr : ∀ p, received p (s.log ++ [.sub o w]) = received p s.log := by
          intro p; rw [received_snoc]; simp [received]
        have huu : ∀ p, (.unsub p ∈ s.log ++ [.sub o w] ↔ .unsub p ∈ s.log) := by intro p; simp
        constructor
        · intro p hp
          simp only at hp ⊢
          by_cases hpo : p = o
          · rw [if_pos hpo] at hp; cases hp
          · rw [if_neg hpo] at hp
            rw [hjj, hrr, if_neg hpo]; exact h.d0 p hp
        · intro p v hp
          simp only at hp ⊢
          rw [hjj, hdd, hrr]
          by_cases hpo : p = o
          · rw [if_pos hpo] at hp; cases hp
            obtain ⟨a, b, c⟩ := h.d0 o hn
            rw [hpo, due_none o _ a, b, c]
            refine ⟨by simp, rfl, .inl ⟨l ++ [o], by simp, by simp, rfl⟩⟩
          · rw [if_neg hpo] at hp
            obtain ⟨a, b, c⟩ := h.d1 p v hp
            rw [if_neg hpo]
            refine ⟨a, b, ?_⟩
            split
            · next e =>
              subst e
              rcases c with ⟨m, c1, c2, c3⟩ | ⟨x, c1, c2⟩
              · rw [hl] at c1; cases c1
                exact .inl ⟨_, rfl, by simp [c2], c3⟩
              · rw [hl] at c1; cases c1
            · exact c
        · intro p v hp
          simp only at hp ⊢
          by_cases hpo : p = o
          · rw [if_pos hpo] at hp; cases hp
          · rw [if_neg hpo] at hp
            rw [hjj, hrr, hdd, if_neg hpo, huu]
            rcases h.d2 p v hp with h1 | ⟨h1, h2, h3⟩
            · exact .inl h1
            · refine .inr ⟨h1, h2, fun hx => ⟨(h3 hx).1, ?_⟩⟩
              rw [if_neg]
              · exact (h3 hx).2
              · intro e; have := (h3 hx).2; rw [e, hl] at this; cases this
        · exact h.d3
        · intro v y hv
          simp only at hv ⊢
          split at hv
          · cases hv
          · have := h.d4 v y hv
            exact ⟨this.1, by simp [this.2]⟩
        · intro p v hp hpj
          simp only at hp hpj ⊢
          rw [hjj] at hpj
          by_cases hpo : p = o
          · rw [if_pos hpo] at hpj; cases hpj
          · rw [if_neg hpo] at hp hpj
            rw [hrr]
            rcases h.d5 p v hp hpj with h1 | ⟨x, h1, h2, h3⟩
            · exact .inl h1
            · exact .inr ⟨x, h1, h2, by simp [h3]⟩
      · next x hx =>
        split
        · refine hlate [.late o w, .got o x] hn ?_ ?_ ?_ (by simp) (.inr ⟨x, by simp [received], h.d4 w x hx⟩)
          · intro p
            rw [show s.log ++ [.late o w, .got o x] = (s.log ++ [.late o w]) ++ [.got o x] by simp, received_snoc, received_snoc]
            by_cases hpo : p = o
            · rw [if_pos hpo, hpo, (h.d0 o hn).2.1]; simp [received]
            · rw [if_neg hpo]; simp [received, Ne.symm hpo]
          · intro p
            rw [show s.log ++ [.late o w, .got o x] = (s.log ++ [.late o w]) ++ [.got o x] by simp, joined_snoc, joined_snoc]
            simp [joined]
          · intro p
            rw [show s.log ++ [.late o w, .got o x] = (s.log ++ [.late o w]) ++ [.got o x] by simp, due_snoc, due_snoc]
            split <;> split <;> simp [feds]
        · exact hlate1 hn
      · exact hlate1 hn
  | unsub o =>
    simp only [Win.step]
    split
    · next b hb =>
      split
      · next ha =>
        obtain ⟨w, al⟩ := b
        simp only at ha; subst ha
        obtain ⟨a, b, c⟩ := h.d1 o w hb
        have hQ : InvQ ({ s with log := s.log ++ [.unsub o] }) := ⟨hR.r1, hR.r2, hR.r3, hR.r5, hR.r6, hR.fr⟩
        refine InvD.quiet ?_ (settle_quiet (hQ.free0 o ⟨w, true⟩ hb rfl))
        refine h.free0 (rest := s.prog) hb ?_ ?_ ?_ (fun _ _ => rfl) (h.d3 o) ?_ ?_
        · intro p hpo; simp [received, Ne.symm hpo]
        · intro p; rfl
        · intro v; rfl
        · rw [received_snoc, due_snoc, a, b]; simp [received, feds]
        · intro hx; simp at hx
      · exact h
    · exact h
  | leave =>
    simp only [Win.step]
    split
    · next hm =>
      have hQ : InvQ ({ s with mainRef := false, log := s.log ++ [.gone] }) :=
        ⟨fun hd => absurd ((hR.r1 hd).1.symm.trans hm) (by simp), hR.r2, hR.r3, hR.r5, hR.r6, hR.fr⟩
      refine InvD.quiet ?_ (settle_quiet hQ)
      exact h.quiet (es := [.gone]) ⟨rfl, rfl, by simp [received, joined, feds], fun _ => rfl, fun _ _ _ => rfl, fun _ h => h, fun _ _ h => h⟩
    · exact h
  | destroy =>
    simp only [Win.step]
    split
    · exact ⟨h.d0, h.d1, h.d2, h.d3, h.d4, h.d5⟩
    · exact h

theorem invD {O : Oper σ ι α ε} (hO : O.Ok) (ls : List (Lbl ι)) : InvD (exec O ls) := by
  refine (exec_induct O (P := fun s => InvR s ∧ InvD s) ⟨?_, ?_⟩ (fun s l h => ⟨h.1.step hO l, h.2.step hO h.1 l⟩) ls).2
  · constructor <;> simp [aliveOb, Phase.isLive, front]
  · constructor <;> simp [joined, received, pend]

theorem joined_of_sub {o w} {l : List (Ev ι α ε)} (h : .sub o w ∈ l) : joined o l ≠ none := by
  induction l with
  | nil => cases h
  | cons a l ih =>
    cases a with
    | sub p v =>
      simp only [joined]
      split
      · simp
      · next hp =>
        apply ih
        rcases List.mem_cons.mp h with h | h
        · cases h; exact absurd rfl hp
        · exact h
    | _ => exact ih (by simpa using h)

theorem InvD.observer {s : St σ ι α ε} (h : InvD s) {o w} (hs : .sub o w ∈ s.log) :
    received o s.log <+: due o s.log ∧ (s.prog = [] → .unsub o ∉ s.log → received o s.log = due o s.log) := by
  have hj := joined_of_sub hs
  cases hb : s.ob o with
  | none => exact absurd (h.d0 o hb).1 hj
  | some b =>
    obtain ⟨v, al⟩ := b
    cases al
    · rcases h.d2 o v hb with h1 | ⟨_, h2, h3⟩
      · exact absurd h1 hj
      · exact ⟨h2, fun _ hu => (h3 hu).1⟩
    · obtain ⟨_, h2, _⟩ := h.d1 o v hb
      rw [h2]
      refine ⟨List.prefix_append _ _, fun hp _ => ?_⟩
      rw [hp]; simp [pend]

/-- Those who come late are known, and never join. -/
structure InvL (s : St σ ι α ε) : Prop where
  l0 : ∀ o w, .late o w ∈ s.log → s.ob o = some ⟨w, false⟩ ∧ joined o s.log = none

theorem joined_append (o) (l m : List (Ev ι α ε)) : joined o (l ++ m) = (joined o l).or (joined o m) := by
  induction l with
  | nil => simp [joined]
  | cons a l ih => cases a <;> simp only [List.cons_append, joined, ih]; split <;> simp

theorem InvL.same {s s' : St σ ι α ε} (h : InvL s) {es} (hl : s'.log = s.log ++ es)
    (he : ∀ o w, .late o w ∉ es) (hj : ∀ o, s.ob o ≠ none → joined o es = none)
    (ho : ∀ o w, s.ob o = some ⟨w, false⟩ → s'.ob o = some ⟨w, false⟩) : InvL s' := by
  constructor
  intro o w hm
  rw [hl, List.mem_append] at hm
  have hm : .late o w ∈ s.log := hm.resolve_right (he o w)
  obtain ⟨h1, h2⟩ := h.l0 o w hm
  refine ⟨ho o w h1, ?_⟩
  rw [hl, joined_append, h2, hj o (by rw [h1]; simp)]; rfl

theorem settle_ob0 (s : St σ ι α ε) : s.settle.ob = s.ob := by unfold St.settle; split <;> rfl
theorem settle_log0 (s : St σ ι α ε) : s.settle.log = s.log := by unfold St.settle; split <;> rfl

theorem InvL.step {O : Oper σ ι α ε} {s : St σ ι α ε} (h : InvL s) (hD : InvD s) (l : Lbl ι) : InvL (step O s l) := by
  have hfree : ∀ (t : St σ ι α ε) (o : Nat) (b : Ob), b.alive = true → t.ob = s.ob → s.ob o = some b →
      ∀ p w, s.ob p = some ⟨w, false⟩ → (t.free o b).ob p = some ⟨w, false⟩ := by
    intro t o b ha ht hb p w hp
    unfold St.free
    rw [settle_ob0]
    simp only
    rw [if_neg]
    · rw [ht]; exact hp
    · intro e
      rw [e, hb] at hp
      cases hp; cases ha
  cases l with
  | notify i =>
    simp only [Win.step]
    split
    · split
      · exact h
      · exact h.same (es := [.acc i (!s.mainRef)]) rfl (by simp) (fun _ _ => rfl) (fun _ _ h => h)
    · exact h
  | run =>
    simp only [Win.step]
    split
    · exact h
    · next i rest hp =>
      cases i with
      | create w => simp only [Win.exec1]; split <;> exact ⟨h.l0⟩
      | openW w =>
        simp only [Win.exec1]
        split
        · exact h.same (es := [.opened w]) rfl (by simp) (fun _ _ => rfl) (fun _ _ h => h)
        · exact ⟨h.l0⟩
      | push w x =>
        simp only [Win.exec1]
        split
        · exact h.same (es := [.fed w x]) rfl (by simp) (fun _ _ => rfl) (fun _ _ h => h)
        · exact ⟨h.l0⟩
      | call o x =>
        simp only [Win.exec1]
        split
        · next b hb =>
          split
          · next ha =>
            split
            · exact h.same (es := [.got o x]) (settle_log0 _) (by simp) (fun _ _ => rfl) (hfree _ o b ha rfl hb)
            · exact h.same (es := [.got o x]) rfl (by simp) (fun _ _ => rfl) (fun _ _ h => h)
          · exact ⟨h.l0⟩
        · exact ⟨h.l0⟩
      | drop w => exact ⟨h.l0⟩
      | mainEnd x =>
        simp only [Win.exec1]
        split
        · exact h.same (es := [.ended x]) (settle_log0 _) (by simp) (fun _ _ => rfl) (fun _ _ h => by rw [settle_ob0]; exact h)
        · exact ⟨h.l0⟩
      | stopIfDown w => exact ⟨h.l0⟩
  | sub o w =>
    have hlate : ∀ (es : List (Ev ι α ε)), s.ob o = none → (∀ p v, .late p v ∈ es ↔ p = o ∧ v = w) → (∀ p, joined p es = none) →
        InvL { s with ob := fun j => if j = o then some ⟨w, false⟩ else s.ob j, log := s.log ++ es } := by
      intro es hn h1 h2
      constructor
      intro p v hm
      simp only [List.mem_append, h1] at hm ⊢
      rw [joined_append, h2, Option.or_none]
      by_cases hpo : p = o
      · subst hpo
        rw [if_pos rfl]
        refine ⟨?_, (hD.d0 p hn).1⟩
        rcases hm with hm | hm
        · have := (h.l0 p v hm).1; rw [hn] at this; cases this
        · rw [hm.2]
      · rw [if_neg hpo]
        exact h.l0 p v (hm.resolve_right (fun h => hpo h.1))
    simp only [Win.step]
    split
    · exact h
    · next hn =>
      split
      · exact h
      · refine h.same (es := [.sub o w]) rfl (by simp) ?_ ?_
        · intro p hp
          simp only [joined]
          rw [if_neg]
          intro e; rw [← e] at hp; exact hp hn
        · intro p v hp
          simp only
          rw [if_neg]
          · exact hp
          · intro e; rw [e, hn] at hp; cases hp
      · split
        · exact hlate [.late o w, .got o _] hn (by intro p v; simp) (fun _ => rfl)
        · exact hlate [.late o w] hn (by intro p v; simp) (fun _ => rfl)
      · exact hlate [.late o w] hn (by intro p v; simp) (fun _ => rfl)
  | unsub o =>
    simp only [Win.step]
    split
    · next b hb =>
      split
      · next ha => exact h.same (es := [.unsub o]) (settle_log0 _) (by simp) (fun _ _ => rfl) (hfree _ o b ha rfl hb)
      · exact h
    · exact h
  | leave =>
    simp only [Win.step]
    split
    · exact h.same (es := [.gone]) (settle_log0 _) (by simp) (fun _ _ => rfl) (fun _ _ h => by rw [settle_ob0]; exact h)
    · exact h
  | destroy =>
    simp only [Win.step]
    split
    · exact ⟨h.l0⟩
    · exact h

theorem lateOk {O : Oper σ ι α ε} (hO : O.Ok) (ls : List (Lbl ι)) {o w} (hs : .late o w ∈ (exec O ls).log) :
    received o (exec O ls).log = [] ∨
      ∃ x, received o (exec O ls).log = [x] ∧ x.term = true ∧ .fed w x ∈ (exec O ls).log := by
  have hall := exec_induct O (P := fun s => InvR s ∧ InvD s ∧ InvL s) ⟨?_, ?_, ?_⟩
    (fun s l h => ⟨h.1.step hO l, h.2.1.step hO h.1 l, h.2.2.step h.2.1 l⟩) ls
  · obtain ⟨h1, h2⟩ := hall.2.2.l0 o w hs
    exact hall.2.1.d5 o w h1 h2
  · constructor <;> simp [aliveOb, Phase.isLive, front]
  · constructor <;> simp [joined, received, pend]
  · constructor; simp

end Rpp.Win
