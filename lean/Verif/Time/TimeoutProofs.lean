import Verif.Time.Timeout

/-!
# Invariants of `timeout`
-/

namespace Rpp.Time.Timeout
variable {α ε : Type}

/-- How one step changes state and log (for the proofs); models no code. -/
inductive Tr (d : Nat) (s : St α ε) : St α ε → Prop
  | tick (k) : Tr d s { s with now := s.now + k }
  | dispose : Tr d s { s with gone := true, log := s.log ++ [.gone] }
  | shut (h : s.gone = true) : Tr d s { s with dead := true }
  | arrive (i x) (hi : s.calls i = .idle) (hd : s.dead = false) :
      Tr d s { s with log := s.log ++ [.enter i x],
                      calls := fun j => if j = i then .want x else s.calls j }
  | lockC (i x) (hi : s.calls i = .want x) (hl : s.lock = none) :
      Tr d s { s with lock := some (.call i), log := s.log ++ [.recv x],
                      calls := fun j => if j = i then .have x else s.calls j }
  | stale (i v) (hi : s.calls i = .have (.val v)) (hm : s.moved = true) :
      Tr d s { s with log := s.log ++ [.stale i v],
                      calls := fun j => if j = i then .stamp else s.calls j }
  | skip (i v) (hi : s.calls i = .have (.val v)) (hm : s.moved = false) (hg : s.gone = true) :
      Tr d s { s with calls := fun j => if j = i then .stamp else s.calls j }
  | begV (i v) (hi : s.calls i = .have (.val v)) (hm : s.moved = false) (hg : s.gone = false) :
      Tr d s { s with log := s.log ++ [.beg (.val v)],
                      calls := fun j => if j = i then .inCall (.val v) else s.calls j }
  | skipT (i x) (hi : s.calls i = .have x) (hx : x.term = true) (hg : s.dead = true ∨ s.gone = true) :
      Tr d s { s with calls := fun j => if j = i then .rel else s.calls j }
  | begT (i x) (hi : s.calls i = .have x) (hx : x.term = true) (hd : s.dead = false)
      (hg : s.gone = false) :
      Tr d s { s with log := s.log ++ [.beg x],
                      calls := fun j => if j = i then .inCall x else s.calls j }
  | finT (i x) (hi : s.calls i = .inCall x) (hx : x.term = true) :
      Tr d s { s with gone := true, dead := true, log := s.log ++ [.fin x],
                      calls := fun j => if j = i then .rel else s.calls j }
  | finV (i x) (hi : s.calls i = .inCall x) (hx : x.term = false) :
      Tr d s { s with log := s.log ++ [.fin x],
                      calls := fun j => if j = i then .stamp else s.calls j }
  | stamp (i) (hi : s.calls i = .stamp) :
      Tr d s { s with deadline := s.now + d, log := s.log ++ [.stamp s.now],
                      calls := fun j => if j = i then .rel else s.calls j }
  | rel (i) (hi : s.calls i = .rel) :
      Tr d s { s with lock := none, log := s.log ++ [.leave i],
                      calls := fun j => if j = i then .idle else s.calls j }
  | drop (tp) (ht : s.timer = .waiting tp) (hd : s.dead = true) : Tr d s { s with timer := .over }
  | start (tp) (ht : s.timer = .waiting tp) (hd : s.dead = false) : Tr d s { s with timer := .want }
  | lockT (ht : s.timer = .want) (hl : s.lock = none) :
      Tr d s { s with lock := some .timer, timer := .have }
  | again (ht : s.timer = .have) (hn : s.now < s.deadline) :
      Tr d s { s with lock := none, timer := .waiting s.deadline }
  | quit (ht : s.timer = .have) (hn : s.deadline ≤ s.now) (hd : s.dead = true) :
      Tr d s { s with lock := none, timer := .over }
  | pass (ht : s.timer = .have) (hn : s.deadline ≤ s.now) (hd : s.dead = false) :
      Tr d s { s with timer := .kill }
  | kill (ht : s.timer = .kill) : Tr d s { s with dead := true, timer := .sub }
  | sub (ht : s.timer = .sub) :
      Tr d s { s with moved := true, timer := .insub, log := s.log ++ [.switched s.now] }
  | insub (ht : s.timer = .insub) : Tr d s { s with lock := none, timer := .over }
  | fb (x) (hm : s.moved = true) (hg : s.gone = false) :
      Tr d s { s with gone := x.term, log := s.log ++ [.fb x] }

theorem step_tr (d : Nat) (s : St α ε) (l : Lbl α ε) : step d s l = s ∨ Tr d s (step d s l) := by
  cases l with
  | tick k => exact .inr (.tick k)
  | dispose => exact .inr .dispose
  | shut =>
    simp only [step]; split
    · next h => exact .inr (.shut h)
    · exact .inl rfl
  | arrive i x =>
    simp only [step]; split
    · next h =>
      split
      · exact .inl rfl
      · next h2 => exact .inr (.arrive i x h (by simpa using h2))
    · exact .inl rfl
  | call i =>
    simp only [step, stepCall]
    split
    · exact .inl rfl
    · next x h =>
      split
      · exact .inl rfl
      · next hl => exact .inr (.lockC i x h hl)
    · next x h =>
      split
      · next v =>
        split
        · next hm => exact .inr (.stale i v h hm)
        · next hm =>
          split
          · next hg => exact .inr (.skip i v h (by simpa using hm) hg)
          · next hg => exact .inr (.begV i v h (by simpa using hm) (by simpa using hg))
      · next hne =>
        have hx : x.term = true := by cases x <;> simp_all [Item.term]
        split
        · next hd => exact .inr (.skipT i x h hx (.inl hd))
        · next hd =>
          split
          · next hg => exact .inr (.skipT i x h hx (.inr hg))
          · next hg => exact .inr (.begT i x h hx (by simpa using hd) (by simpa using hg))
    · next x h =>
      split
      · next hx => exact .inr (.finT i x h hx)
      · next hx => exact .inr (.finV i x h (by simpa using hx))
    · next h => exact .inr (.stamp i h)
    · next h => exact .inr (.rel i h)
  | timer =>
    simp only [step, stepTimer]
    split
    · exact .inl rfl
    · next tp h =>
      split
      · next hd => exact .inr (.drop tp h hd)
      · next hd => exact .inr (.start tp h (by simpa using hd))
    · next h =>
      split
      · exact .inl rfl
      · next hl => exact .inr (.lockT h hl)
    · next h =>
      split
      · next hn => exact .inr (.again h hn)
      · next hn =>
        split
        · next hd => exact .inr (.quit h (by omega) hd)
        · next hd => exact .inr (.pass h (by omega) (by simpa using hd))
    · next h => exact .inr (.kill h)
    · next h => exact .inr (.sub h)
    · next h => exact .inr (.insub h)
  | fb x =>
    simp only [step]; split
    · next h =>
      simp only [Bool.and_eq_true, Bool.not_eq_true'] at h
      exact .inr (.fb x h.1 h.2)
    · exact .inl rfl

theorem exec_induct (d : Nat) {P : St α ε → Prop} (h0 : P (init d))
    (hs : ∀ s s', P s → Tr d s s' → P s') (ls : List (Lbl α ε)) : P (exec d ls) := by
  suffices h : ∀ s, P s → P (ls.foldl (step d) s) from h _ h0
  induction ls with
  | nil => exact fun s h => h
  | cons l ls ih =>
    intro s h
    apply ih
    rcases step_tr d s l with h1 | h1
    · rw [h1]; exact h
    · exact hs _ _ h h1

/-! ## Snoc lemmas -/

theorem received_append (l m : List (Ev α ε)) : received (l ++ m) = received l ++ received m := by
  induction l with
  | nil => rfl
  | cons e l ih => cases e <;> simp [received, ih]

theorem delivered_append (l m : List (Ev α ε)) :
    delivered (l ++ m) = delivered l ++ delivered m := by
  induction l with
  | nil => rfl
  | cons e l ih => cases e <;> simp [delivered, ih]

theorem lastAt_stamp (l : List (Ev α ε)) (t) : lastAt (l ++ [.stamp t]) = t := by
  simp [lastAt]
/-- A test on the constructor; models no code. -/
def Ev.isStamp : Ev α ε → Bool
  | .stamp _ => true
  | _ => false
theorem lastAt_other (l : List (Ev α ε)) (e) (h : e.isStamp = false) : lastAt (l ++ [e]) = lastAt l := by
  cases e <;> simp_all [lastAt, Ev.isStamp]

/-- Used in the proofs; models no code. -/
def CPc.holds : CPc α ε → Bool
  | .idle => false
  | .want _ => false
  | _ => true

/-- Used in the proofs; models no code. -/
def TPc.holds : TPc → Bool
  | .have => true
  | .kill => true
  | .sub => true
  | .insub => true
  | _ => false

/-- Not yet switched. -/
def TPc.before : TPc → Bool
  | .insub => false
  | .over => false
  | _ => true

/-- The timer has found the deadline passed. -/
def TPc.decided : TPc → Bool
  | .kill => true
  | .sub => true
  | _ => false

/-- A test on the constructor; models no code. -/
def Ev.isSwitched : Ev α ε → Bool
  | .switched _ => true
  | _ => false
/-- A test on the constructor; models no code. -/
def Ev.isGone : Ev α ε → Bool
  | .gone => true
  | _ => false

/-- Used in the proofs; models no code. -/
def CPc.termCall : CPc α ε → Bool
  | .inCall x => x.term
  | _ => false

/-- Used in the proofs; models no code. -/
def anyTerm (log : List (Ev α ε)) : Bool := (delivered log).any Item.term

/-- The mutex, the flags, the timer. -/
structure InvL (s : St α ε) : Prop where
  lc : ∀ i, (s.calls i).holds = true → s.lock = some (.call i)
  lc' : ∀ i, s.lock = some (.call i) → (s.calls i).holds = true
  lt : s.timer.holds = true → s.lock = some .timer
  lt' : s.lock = some .timer → s.timer.holds = true
  md : s.moved = true → s.dead = true
  mb : s.timer.before = true → s.moved = false
  mi : s.timer = .insub → s.moved = true
  ks : s.timer = .sub → s.dead = true
  kl : s.timer = .over → s.moved = true ∨ s.gone = true
  dm : s.dead = true → s.gone = true ∨ s.moved = true ∨ s.timer = .sub
  ms : s.moved = s.log.any Ev.isSwitched
  t1' : anyTerm s.log = true → s.dead = true ∨ ∃ i, (s.calls i).termCall = true
  t2 : ∀ i, (s.calls i).termCall = true → anyTerm s.log = true
  t3 : s.gone = true → s.moved = true ∨ s.log.any Ev.isGone = true ∨ anyTerm s.log = true
  k1 : s.timer.decided = true → anyTerm s.log = false

theorem anyTerm_append (l m : List (Ev α ε)) : anyTerm (l ++ m) = (anyTerm l || anyTerm m) := by
  simp [anyTerm, delivered_append]

theorem CPc.termCall_holds {p : CPc α ε} (h : p.termCall = true) : p.holds = true := by
  cases p <;> simp_all [CPc.termCall, CPc.holds]

theorem InvL.tr {d} {s s' : St α ε} (h : InvL s) (t : Tr d s s') : InvL s' := by
  have hth : ∀ i, (s.calls i).termCall = true → (s.calls i).holds = true :=
    fun i h => CPc.termCall_holds h
  obtain ⟨h1, h2, h3, h4, h5, h6, h7, h8, h9, h10, h11, h12, h13, h14, h15⟩ := h
  cases t
  all_goals
    constructor
    all_goals simp only [anyTerm_append, List.any_append, Bool.or_eq_true] at *
    all_goals try simp only [anyTerm, delivered, List.any_nil, List.any_cons, Ev.isSwitched, Ev.isGone,
      Bool.or_false, Bool.false_or, Bool.or_true] at *
    all_goals first
      | assumption
      | grind [CPc.holds, TPc.holds, TPc.before, CPc.termCall, TPc.decided, Item.term]

theorem invL (d) (ls : List (Lbl α ε)) : InvL (exec d ls) := by
  refine exec_induct d ?_ (fun _ _ h t => h.tr t) ls
  constructor <;> simp [init, CPc.holds, TPc.holds, TPc.before, anyTerm, delivered, CPc.termCall,
    TPc.decided]

/-! ## Deadlines -/

/-- Invariant of the proofs; models no code. -/
structure InvS (d : Nat) (s : St α ε) : Prop where
  dl : s.deadline = lastAt s.log + d
  past : lastAt s.log ≤ s.now
  dec : s.timer.decided = true → s.deadline ≤ s.now
  wait : ∀ tp, s.timer = .waiting tp → tp ≤ s.deadline
  sw : ∀ pre t rest, s.log = pre ++ .switched t :: rest →
    lastAt pre + d ≤ t ∧ anyTerm pre = false ∧ pre.any Ev.isSwitched = false

theorem split_snoc {l pre rest : List (Ev α ε)} {e f : Ev α ε} (h : l ++ [e] = pre ++ f :: rest) :
    (e = f ∧ rest = [] ∧ l = pre) ∨ ∃ r, rest = r ++ [e] ∧ l = pre ++ f :: r := by
  rcases List.eq_nil_or_concat rest with rfl | ⟨r, c, rfl⟩
  · left
    have := List.append_inj' h rfl
    exact ⟨by simpa using this.2, rfl, this.1⟩
  · right
    have he' : l ++ [e] = (pre ++ f :: r) ++ [c] := by simpa using h
    have := List.append_inj' he' rfl
    exact ⟨r, by simpa using this.2.symm, this.1⟩

theorem InvS.tr {d} {s s' : St α ε} (h : InvS d s) (hL : InvL s) (t : Tr d s s') : InvS d s' := by
  obtain ⟨h1, h2, h3, h4, h5⟩ := h
  have hlt := hL.lt
  have hlc := hL.lc
  have hk := hL.k1
  cases t
  case stamp i hi =>
    have : s.timer.decided = false := by
      cases hd : s.timer.decided
      · rfl
      · have e1 := hlt (by revert hd; cases s.timer <;> simp [TPc.decided, TPc.holds])
        have e2 := hlc i (by rw [hi]; rfl)
        rw [e1] at e2; cases e2
    constructor <;> simp only [lastAt_stamp] at *
    · exact Nat.le_refl _
    · simp [this]
    · intro tp htp; have := h4 tp htp; omega
    · intro pre t rest hl
      rcases split_snoc hl with ⟨e1, -, -⟩ | ⟨r, -, e2⟩
      · cases e1
      · exact h5 _ _ _ e2
  case sub ht =>
    have hm := hL.ms
    have hb := hL.mb (by rw [ht]; rfl)
    have hdec : s.timer.decided = true := by rw [ht]; rfl
    constructor <;> simp only [lastAt_other _ _ (show (Ev.switched s.now : Ev α ε).isStamp = false from rfl)] at *
    · exact h1
    · exact h2
    · simp [TPc.decided]
    · simp
    · intro pre t rest hl
      rcases split_snoc hl with ⟨e1, e2, e3⟩ | ⟨r, -, e2⟩
      · cases e1; subst e3
        exact ⟨by have := h3 hdec; omega, hk hdec, by rw [← hm]; exact hb⟩
      · exact h5 _ _ _ e2
  all_goals
    constructor
    all_goals try rw [lastAt_other _ _ (by rfl)]
    all_goals first
      | assumption
      | (intro pre t rest hl
         rcases split_snoc hl with ⟨e1, -, -⟩ | ⟨r, -, e2⟩
         · cases e1
         · exact h5 _ _ _ e2)
      | grind [TPc.decided]

theorem invS (d) (ls : List (Lbl α ε)) : InvS d (exec d ls) := by
  refine (exec_induct d (P := fun s => InvL s ∧ InvS d s) ⟨invL d [], ?_⟩
    (fun _ _ h t => ⟨h.1.tr t, h.2.tr h.1 t⟩) ls).2
  constructor <;> simp [init, TPc.decided, lastAt]

/-! ## What is delivered -/

/-- Invariant of the proofs; models no code. -/
structure InvD (s : St α ε) (pend : List (Item α ε)) : Prop where
  pre : delivered s.log <+: received s.log
  eq : s.gone = false → s.moved = false → received s.log = delivered s.log ++ pend
  has : ∀ i x, s.calls i = .have x → pend = [x]
  no : (∀ i x, s.calls i ≠ .have x) → pend = []
  last : ∀ pre x rest, delivered s.log = pre ++ x :: rest → x.term = true → rest = []

theorem InvD.tr {d} {s s' : St α ε} {pend} (h : InvD s pend) (hL : InvL s) (t : Tr d s s') :
    ∃ pend', InvD s' pend' := by
  obtain ⟨h1, h2, h3, h4, h5⟩ := h
  have huniq : ∀ i j, (s.calls i).holds = true → (s.calls j).holds = true → i = j := by
    intro i j h1 h2
    have h1 := hL.lc i h1
    have h2 := hL.lc j h2
    grind
  have htwo : ∀ i, (s.calls i).holds = true → s.timer.holds = false := by
    intro i h1
    have := hL.lc i h1
    cases hh : s.timer.holds
    · rfl
    · rw [hL.lt hh] at this; cases this
  have hlast : ∀ x, anyTerm s.log = false → ∀ pre y rest,
      delivered s.log ++ [x] = pre ++ y :: rest → y.term = true → rest = [] := by
    intro x hno pre y rest hp hy
    rcases List.eq_nil_or_concat rest with rfl | ⟨r, c, rfl⟩
    · rfl
    · exfalso
      have hp' : delivered s.log ++ [x] = (pre ++ y :: r) ++ [c] := by simpa using hp
      have := (List.append_inj' hp' rfl).1
      simp [anyTerm, this, hy] at hno
  have hbeg : ∀ i x, s.calls i = .have x → s.gone = false → s.moved = false →
      anyTerm s.log = false ∧ received s.log = delivered s.log ++ [x] ∧
      ∀ j y, j ≠ i → s.calls j ≠ .have y := by
    intro i x hi hg hm
    refine ⟨?_, ?_, ?_⟩
    · cases hb : anyTerm s.log
      · rfl
      · rcases hL.t1' hb with hd | ⟨j, hj⟩
        · rcases hL.dm hd with h | h | h
          · rw [hg] at h; cases h
          · rw [hm] at h; cases h
          · have := htwo i (by rw [hi]; rfl)
            rw [h] at this; cases this
        · have := huniq i j (by rw [hi]; rfl) (CPc.termCall_holds hj)
          subst this; rw [hi] at hj; cases hj
    · rw [h2 hg hm, h3 i x hi]
    · intro j y hj hy
      exact hj (huniq j i (by rw [hy]; rfl) (by rw [hi]; rfl))
  cases t
  case lockC i x hi hl =>
    have hno : ∀ j y, s.calls j ≠ .have y := by
      intro j y hj
      have := hL.lc j (by rw [hj]; rfl)
      rw [hl] at this; cases this
    have hp := h4 hno
    refine ⟨[x], ?_⟩
    constructor <;> simp only [delivered_append, received_append, delivered, received, List.append_nil]
    · exact h1.trans (List.prefix_append ..)
    · intro hg hm; rw [h2 hg hm, hp]; simp
    · grind
    · intro hh; exact absurd (by simp) (hh i x)
    · exact h5
  case begV i v hi hm hg =>
    obtain ⟨e1, e2, e3⟩ := hbeg i _ hi hg hm
    refine ⟨[], ?_⟩
    constructor <;> simp only [delivered_append, received_append, delivered, received, List.append_nil]
    · rw [e2]; exact List.prefix_refl _
    · intro _ _; exact e2
    · grind
    · simp
    · exact hlast _ e1
  case begT i x hi hx hd hg =>
    have hm : s.moved = false := by
      cases hm : s.moved
      · rfl
      · rw [hL.md hm] at hd; cases hd
    obtain ⟨e1, e2, e3⟩ := hbeg i _ hi hg hm
    refine ⟨[], ?_⟩
    constructor <;> simp only [delivered_append, received_append, delivered, received, List.append_nil]
    · rw [e2]; exact List.prefix_refl _
    · intro _ _; exact e2
    · grind
    · simp
    · exact hlast _ e1
  case stale i v hi hm =>
    refine ⟨[], ?_⟩
    constructor <;> simp only [delivered_append, received_append, delivered, received, List.append_nil]
    · exact h1
    · simp [hm]
    · intro j y hj
      by_cases hji : j = i
      · simp [hji] at hj
      · simp only [hji, if_false] at hj
        exact absurd (huniq j i (by rw [hj]; rfl) (by rw [hi]; rfl)) hji
    · simp
    · exact h5
  case skip i v hi hm hg =>
    refine ⟨[], ?_⟩
    constructor <;> simp only
    · exact h1
    · simp [hg]
    · intro j y hj
      by_cases hji : j = i
      · simp [hji] at hj
      · simp only [hji, if_false] at hj
        exact absurd (huniq j i (by rw [hj]; rfl) (by rw [hi]; rfl)) hji
    · simp
    · exact h5
  case skipT i x hi hx hg =>
    refine ⟨[], ?_⟩
    constructor <;> simp only
    · exact h1
    · intro hg' hm'
      exfalso
      rcases hg with hd | hg
      · rcases hL.dm hd with h | h | h
        · rw [hg'] at h; cases h
        · rw [hm'] at h; cases h
        · have := htwo i (by rw [hi]; rfl)
          rw [h] at this; cases this
      · rw [hg] at hg'; cases hg'
    · intro j y hj
      by_cases hji : j = i
      · simp [hji] at hj
      · simp only [hji, if_false] at hj
        exact absurd (huniq j i (by rw [hj]; rfl) (by rw [hi]; rfl)) hji
    · simp
    · exact h5
  all_goals
    refine ⟨pend, ?_⟩
    constructor
    all_goals try simp only [delivered_append, received_append, delivered, received, List.append_nil]
    all_goals first
      | assumption
      | (intro hh; apply h4; intro j y hj; have := hh j y; grind)
      | grind

theorem invD (d) (ls : List (Lbl α ε)) : ∃ pend, InvD (exec d ls) pend := by
  refine (exec_induct d (P := fun s => InvL s ∧ ∃ pend, InvD s pend) ⟨invL d [], [], ?_⟩
    (fun _ _ h t => ⟨h.1.tr t, h.2.elim fun _ h2 => h2.tr h.1 t⟩) ls).2
  constructor <;> simp [init, delivered, received]

end Rpp.Time.Timeout
