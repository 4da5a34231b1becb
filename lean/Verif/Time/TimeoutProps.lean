import Verif.Time.TimeoutProofs

/-!
# C39, C40: `timeout`

All statements are about every schedule `ls`: every pattern of calls of the source (also concurrent
ones), every interleaving with the timer, every passage of time.  The subscription happens at time 0.
-/

namespace Rpp.Time.Timeout
variable {α ε : Type}

/-- Items up to and including the first terminal one. -/
def upToTerm : List (Item α ε) → List (Item α ε)
  | [] => []
  | x :: r => if x.term then [x] else x :: upToTerm r

theorem upToTerm_none (l : List (Item α ε)) (h : ∀ x ∈ l, x.term = false) : upToTerm l = l := by
  induction l with
  | nil => rfl
  | cons x l ih => simp_all [upToTerm]

theorem upToTerm_prefix (l m : List (Item α ε)) (h : ∀ x ∈ l, x.term = false) (x : Item α ε)
    (hx : x.term = true) : upToTerm (l ++ x :: m) = l ++ [x] := by
  induction l with
  | nil => simp [upToTerm, hx]
  | cons y l ih => simp_all [upToTerm]

theorem any_gone {log : List (Ev α ε)} (h : .gone ∉ log) : log.any Ev.isGone = false := by
  rw [List.any_eq_false]
  intro e he
  cases e <;> simp [Ev.isGone]
  exact h he

theorem any_switched {log : List (Ev α ε)} (h : ∀ t, .switched t ∉ log) :
    log.any Ev.isSwitched = false := by
  rw [List.any_eq_false]
  intro e he
  cases e <;> simp [Ev.isSwitched]
  exact h _ he

/-! ## C39 -/

/-- What reaches the subscriber is, in order, the beginning of what the source sent. -/
theorem C39_prefix (d : Nat) (ls : List (Lbl α ε)) :
    delivered (exec d ls).log <+: received (exec d ls).log := by
  obtain ⟨pend, h⟩ := invD d ls
  exact h.pre

/-- Until the operator switches it mirrors the source: whenever no notification is being dealt with,
the subscriber has seen everything the source sent, up to its terminal event. -/
theorem C39_mirror (d : Nat) (ls : List (Lbl α ε)) (hs : ∀ t, .switched t ∉ (exec d ls).log)
    (hg : .gone ∉ (exec d ls).log)
    (hc : ∀ i, (exec d ls).calls i = .idle ∨ ∃ x, (exec d ls).calls i = .want x) :
    delivered (exec d ls).log = upToTerm (received (exec d ls).log) := by
  obtain ⟨pend, hD⟩ := invD d ls
  have hL := invL d ls
  generalize exec d ls = s at *
  have hm : s.moved = false := by rw [hL.ms]; exact any_switched hs
  have hno : ∀ i, (s.calls i).holds = false := by
    intro i; rcases hc i with h | ⟨x, h⟩ <;> rw [h] <;> rfl
  cases hgo : s.gone
  · have hp : pend = [] := hD.no fun i x hi => by
      have := hno i; rw [hi] at this; cases this
    have heq := hD.eq hgo hm
    rw [hp, List.append_nil] at heq
    rw [heq, upToTerm_none]
    intro x hx
    cases hxt : x.term
    · rfl
    · have hb : anyTerm s.log = true := by simp only [anyTerm, List.any_eq_true]; exact ⟨x, hx, hxt⟩
      rcases hL.t1' hb with hd | ⟨i, hi⟩
      · rcases hL.dm hd with h | h | h
        · rw [hgo] at h; cases h
        · rw [hm] at h; cases h
        · have := hL.k1 (by rw [h]; rfl); rw [hb] at this; cases this
      · have := hno i; rw [CPc.termCall_holds hi] at this; cases this
  · have hb : anyTerm s.log = true := by
      rcases hL.t3 hgo with h | h | h
      · rw [hm] at h; cases h
      · rw [any_gone hg] at h; cases h
      · exact h
    simp only [anyTerm, List.any_eq_true] at hb
    obtain ⟨x, hx, hxt⟩ := hb
    obtain ⟨p, q, hpq⟩ := List.append_of_mem hx
    have := hD.last p x q hpq hxt
    subst this
    obtain ⟨more, hmore⟩ := hD.pre
    rw [← hmore, hpq, List.append_assoc, List.singleton_append, upToTerm_prefix _ _ _ _ hxt]
    intro y hy
    cases hyt : y.term
    · rfl
    · obtain ⟨p', q', hpq'⟩ := List.append_of_mem hy
      have := hD.last p' y (q' ++ [x]) (by rw [hpq, hpq']; simp) hyt
      simp at this

/-- The operator never switches before a gap of `d`: at the switch at least `d` has passed since the
subscription and since the last value, and the source has not ended.  It switches at most once. -/
theorem C39_not_early (d : Nat) (ls : List (Lbl α ε)) (pre rest : List (Ev α ε)) (t : Nat)
    (h : (exec d ls).log = pre ++ .switched t :: rest) :
    lastAt pre + d ≤ t ∧ (∀ x ∈ delivered pre, x.term = false) ∧ ∀ u, .switched u ∉ pre := by
  obtain ⟨h1, h2, h3⟩ := (invS d ls).sw pre t rest h
  refine ⟨h1, ?_, ?_⟩
  · intro x hx
    simp only [anyTerm, List.any_eq_false] at h2
    simpa using h2 x hx
  · intro u hu
    rw [List.any_eq_false] at h3
    exact h3 _ hu rfl

/-- The timer is never asked for later than `d` after the last value (or the subscription): until the
operator switches, the source ends or the subscriber leaves, the timer is at work or queued for a time
not after that. -/
theorem C39_timer (d : Nat) (ls : List (Lbl α ε)) (hs : ∀ t, .switched t ∉ (exec d ls).log)
    (hg : .gone ∉ (exec d ls).log) (ht : ∀ x ∈ delivered (exec d ls).log, x.term = false) :
    (exec d ls).timer = .want ∨ (exec d ls).timer.holds = true ∨
      ∃ tp, (exec d ls).timer = .waiting tp ∧ tp ≤ lastAt (exec d ls).log + d := by
  have hL := invL d ls
  have hS := invS d ls
  generalize exec d ls = s at *
  have hm : s.moved = false := by rw [hL.ms]; exact any_switched hs
  cases htm : s.timer with
  | waiting tp => exact .inr (.inr ⟨tp, rfl, by have := hS.wait tp htm; have := hS.dl; omega⟩)
  | want => exact .inl rfl
  | over =>
    exfalso
    rcases hL.kl htm with h | h
    · rw [hm] at h; cases h
    · rcases hL.t3 h with h | h | h
      · rw [hm] at h; cases h
      · rw [any_gone hg] at h; cases h
      · simp only [anyTerm, List.any_eq_true] at h
        obtain ⟨x, hx, hxt⟩ := h
        rw [ht x hx] at hxt; cases hxt
  | _ => exact .inr (.inl rfl)

/-! ### A prompt scheduler -/

/-- A scheduler is prompt if it lets no time pass while the timer is due or at work, except that the
timer may have to wait for a callback of the subscriber that is running. -/
def tickOk (s : St α ε) (k : Nat) : Bool :=
  match s.timer with
  | .waiting tp => s.now + k ≤ tp
  | .over => true
  | .want =>
    match s.lock with
    | some (.call i) => match s.calls i with | .inCall _ => true | _ => false
    | _ => false
  | _ => false

/-- Used in the statements and proofs of this file; models no code. -/
def promptFrom (d : Nat) (s : St α ε) : List (Lbl α ε) → Bool
  | [] => true
  | .tick k :: ls => tickOk s k && promptFrom d (step d s (.tick k)) ls
  | l :: ls => promptFrom d (step d s l) ls

/-- All the time steps of the run are those of a prompt scheduler. -/
def Prompt (d : Nat) (ls : List (Lbl α ε)) : Prop := promptFrom d (init d) ls = true

/-- Used in the statements and proofs of this file; models no code. -/
def CPc.late : CPc α ε → Bool
  | .inCall _ => true
  | .stamp => true
  | _ => false

/-- Under a prompt scheduler the clock never passes the deadline unobserved. -/
structure InvP (d : Nat) (s : St α ε) : Prop where
  wait : ∀ tp, s.timer = .waiting tp → s.now ≤ tp
  want : s.timer = .want → s.now ≤ s.deadline ∨ s.gone = true ∨ ∃ i, (s.calls i).late = true
  busy : s.timer.before = true → s.timer.holds = true → s.now ≤ s.deadline ∨ s.gone = true
  sw : ∀ pre t rest, s.log = pre ++ .switched t :: rest → t ≤ lastAt pre + d ∨ pre.any Ev.isGone = true

theorem InvP.tr {d} {s s' : St α ε} (h : InvP d s) (hL : InvL s) (hS : InvS d s) (t : Tr d s s')
    (hn : s'.now = s.now) : InvP d s' := by
  obtain ⟨h1, h2, h3, h4⟩ := h
  have hlt := hL.lt
  have hlc := hL.lc
  have hdl := hS.dl
  have hw := hS.wait
  have hlh : ∀ i, (s.calls i).late = true → (s.calls i).holds = true := by
    intro i; cases s.calls i <;> simp [CPc.late, CPc.holds]
  have hsn : ∀ e : Ev α ε, e.isSwitched = false → ∀ pre t rest, s.log ++ [e] = pre ++ .switched t :: rest →
      t ≤ lastAt pre + d ∨ pre.any Ev.isGone = true := by
    intro e he pre t rest hl
    rcases split_snoc hl with ⟨e1, -, -⟩ | ⟨r, -, e2⟩
    · subst e1; cases he
    · exact h4 _ _ _ e2
  cases t
  case sub ht =>
    refine ⟨by simp, by simp, by simp [TPc.before], ?_⟩
    intro pre t rest hl
    rcases split_snoc hl with ⟨e1, -, e3⟩ | ⟨r, -, e2⟩
    · cases e1; subst e3
      rcases h3 (by rw [ht]; rfl) (by rw [ht]; rfl) with h | h
      · left; omega
      · right
        have hm := hL.mb (by rw [ht]; rfl)
        have hk := hL.k1 (by rw [ht]; rfl)
        rcases hL.t3 h with h | h | h
        · rw [hm] at h; cases h
        · exact h
        · rw [hk] at h; cases h
    · exact h4 _ _ _ e2
  case stamp i hi =>
    refine ⟨h1, fun _ => .inl (Nat.le_add_right ..), fun _ hh => ?_, hsn _ rfl⟩
    have e1 := hlt hh
    rw [hlc i (by rw [hi]; rfl)] at e1
    cases e1
  all_goals
    constructor
    all_goals first
      | assumption
      | exact hsn _ rfl
      | (intro hw; cases hw; done)
      | (intro _ hw; cases hw; done)
      | (refine fun hw => (h2 hw).imp id (Or.imp ?_ ?_)
         · intro h; simp_all
         · rintro ⟨j, hj⟩
           exact ⟨j, by grind [CPc.late]⟩)
      | (simp only at *; grind [TPc.before, TPc.holds, CPc.late])

theorem InvP.tick {d} {s : St α ε} {k} (h : InvP d s) (hL : InvL s) (hk : tickOk s k = true) :
    InvP d { s with now := s.now + k } := by
  obtain ⟨h1, h2, h3, h4⟩ := h
  refine ⟨?_, ?_, ?_, h4⟩
  · intro tp htp
    simp only at htp ⊢
    simpa [tickOk, htp] using hk
  · intro hw
    simp only at hw
    right; right
    simp only [tickOk, hw] at hk
    split at hk
    · next i hl =>
      split at hk
      · next x hc => exact ⟨i, by simp only; rw [hc]; rfl⟩
      · cases hk
    · cases hk
  · intro hb hh
    exfalso
    simp only at hb hh
    revert hb hh hk
    simp only [tickOk]
    cases s.timer <;> simp [TPc.before, TPc.holds]

theorem step_now {d} (s : St α ε) (l : Lbl α ε) (h : ∀ k, l ≠ .tick k) : (step d s l).now = s.now := by
  cases l with
  | tick k => exact absurd rfl (h k)
  | dispose => rfl
  | shut => simp only [step]; split <;> rfl
  | arrive i x => simp only [step]; repeat' split
                  all_goals rfl
  | call i => simp only [step, stepCall]; repeat' split
              all_goals rfl
  | timer => simp only [step, stepTimer]; repeat' split
             all_goals rfl
  | fb x => simp only [step]; split <;> rfl

theorem invP (d) (ls : List (Lbl α ε)) (h : Prompt d ls) : InvP d (exec d ls) := by
  suffices hh : ∀ s : St α ε, InvL s → InvS d s → InvP d s → promptFrom d s ls = true →
      InvP d (ls.foldl (step d) s) from
    hh (init d) (invL d []) (invS d []) (by constructor <;> simp [init, TPc.holds]) h
  clear h
  induction ls with
  | nil => exact fun s _ _ h _ => h
  | cons l ls ih =>
    intro s hL hS hP hp
    have hstep : InvP d (step d s l) := by
      by_cases hl : ∃ k, l = .tick k
      · obtain ⟨k, rfl⟩ := hl
        simp only [promptFrom, Bool.and_eq_true] at hp
        exact hP.tick hL hp.1
      · rcases step_tr d s l with e | e
        · rw [e]; exact hP
        · exact hP.tr hL hS e (step_now s l fun k hk => hl ⟨k, hk⟩)
    have hp' : promptFrom d (step d s l) ls = true := by
      cases l <;> simp_all [promptFrom]
    rcases step_tr d s l with e | e
    · rw [List.foldl_cons]; rw [e] at hp' ⊢; exact ih s hL hS hP hp'
    · exact ih _ (hL.tr e) (hS.tr hL e) hstep hp'

/-- With a prompt scheduler the operator switches exactly `d` after the last value (or the
subscription), unless the subscriber left. -/
theorem C39_exact (d : Nat) (ls : List (Lbl α ε)) (hp : Prompt d ls) (pre rest : List (Ev α ε)) (t : Nat)
    (h : (exec d ls).log = pre ++ .switched t :: rest) (hg : .gone ∉ pre) : t = lastAt pre + d := by
  have h1 := (C39_not_early d ls pre rest t h).1
  rcases (invP d ls hp).sw pre t rest h with h2 | h2
  · omega
  · rw [any_gone hg] at h2; cases h2

/-- With a prompt scheduler a gap longer than `d` always makes the operator switch: as long as it has
not switched, the source has not ended, the subscriber has not left and is not being called, at most
`d` has passed since the last value (or the subscription). -/
theorem C39_switches (d : Nat) (ls : List (Lbl α ε)) (hp : Prompt d ls)
    (hs : ∀ t, .switched t ∉ (exec d ls).log) (hg : .gone ∉ (exec d ls).log)
    (ht : ∀ x ∈ delivered (exec d ls).log, x.term = false)
    (hc : ∀ i, (exec d ls).calls i = .idle ∨ ∃ x, (exec d ls).calls i = .want x) :
    (exec d ls).now ≤ lastAt (exec d ls).log + d := by
  have hT := C39_timer d ls hs hg ht
  have hL := invL d ls
  have hS := invS d ls
  have hP := invP d ls hp
  generalize exec d ls = s at *
  have hm : s.moved = false := by rw [hL.ms]; exact any_switched hs
  have hgo : s.gone = false := by
    cases hgo : s.gone
    · rfl
    · rcases hL.t3 hgo with h | h | h
      · rw [hm] at h; cases h
      · rw [any_gone hg] at h; cases h
      · simp only [anyTerm, List.any_eq_true] at h
        obtain ⟨x, hx, hxt⟩ := h
        rw [ht x hx] at hxt; cases hxt
  have hdl := hS.dl
  rcases hT with h | h | ⟨tp, h, h'⟩
  · rcases hP.want h with h | h | ⟨i, h⟩
    · omega
    · rw [hgo] at h; cases h
    · rcases hc i with e | ⟨x, e⟩ <;> rw [e] at h <;> cases h
  · have hb : s.timer.before = true := by
      cases htm : s.timer <;> try rfl
      · have := hL.mi htm; rw [hm] at this; cases this
      · rw [htm] at h; cases h
    rcases hP.busy hb h with h | h
    · omega
    · rw [hgo] at h; cases h
  · have := hP.wait tp h
    omega

/-! ### The fallback -/

/-- A terminal notification of the fallback. -/
def Ev.fbEnd : Ev α ε → Bool
  | .fb x => x.term
  | _ => false

/-- Invariant of the proofs; models no code. -/
structure InvF (s : St α ε) : Prop where
  no : s.moved = false → ∀ x, .fb x ∉ s.log
  g1 : .gone ∈ s.log → s.gone = true
  g2 : s.log.any Ev.fbEnd = true → s.gone = true
  g3 : s.gone = true → .gone ∈ s.log ∨ s.log.any Ev.fbEnd = true ∨ anyTerm s.log = true
  sp : ∀ pre x rest, s.log = pre ++ .fb x :: rest → pre.any Ev.isSwitched = true ∧ .gone ∉ pre ∧
    pre.any Ev.fbEnd = false

theorem InvF.tr {d} {s s' : St α ε} (h : InvF s) (hL : InvL s) (t : Tr d s s') : InvF s' := by
  obtain ⟨h1, h2, h3, h4, h5⟩ := h
  have hsn : ∀ e : Ev α ε, (∀ x, e ≠ .fb x) → ∀ pre x rest, s.log ++ [e] = pre ++ .fb x :: rest →
      pre.any Ev.isSwitched = true ∧ .gone ∉ pre ∧ pre.any Ev.fbEnd = false := by
    intro e he pre x rest hl
    rcases split_snoc hl with ⟨e1, -, -⟩ | ⟨r, e1, e2⟩
    · exact absurd e1 (fun h => he x (by first | exact h | exact h.symm))
    · exact h5 _ _ _ e2
  cases t
  case fb x hm hg =>
    refine ⟨?_, ?_, ?_, ?_, ?_⟩
    · intro h; rw [hm] at h; cases h
    · intro h; simp at h; rw [h2 h] at hg; cases hg
    · intro h
      simp only [List.any_append, List.any_cons, List.any_nil, Bool.or_false, Bool.or_eq_true,
        Ev.fbEnd] at h
      rcases h with h | h
      · rw [h3 h] at hg; cases hg
      · exact h
    · intro h
      have h' : x.term = true := h
      exact .inr (.inl (by simp only [List.any_append]; simp [Ev.fbEnd, h']))
    · intro pre y rest hl
      rcases split_snoc hl with ⟨-, -, e⟩ | ⟨r, e1, e2⟩
      · subst e
        refine ⟨by rw [← hL.ms]; exact hm, fun h => ?_, ?_⟩
        · rw [h2 h] at hg; cases hg
        · cases he : s.log.any Ev.fbEnd
          · rfl
          · rw [h3 he] at hg; cases hg
      · exact h5 _ _ _ e2
  case finT i x hi hx =>
    have := hL.t2 i (by rw [hi]; exact hx)
    refine ⟨?_, ?_, ?_, ?_, ?_⟩
    · intro h; simpa using h1 h
    · intro _; rfl
    · intro _; rfl
    · intro _; rw [anyTerm_append, this]; simp
    · exact hsn _ (by simp)
  all_goals
    constructor
    all_goals first
      | assumption
      | exact hsn _ (by simp)
      | (simp only [anyTerm_append, List.any_append, Bool.or_eq_true, List.mem_append,
          List.mem_singleton] at *
         simp only [anyTerm, delivered, List.any_nil, List.any_cons, Ev.fbEnd] at *
         grind [Item.term])

theorem invF (d) (ls : List (Lbl α ε)) : InvF (exec d ls) := by
  refine (exec_induct d (P := fun s => InvL s ∧ InvF s) ⟨invL d [], ?_⟩
    (fun _ _ h t => ⟨h.1.tr t, h.2.tr h.1 t⟩) ls).2
  constructor <;> simp [init]

theorem nothing_after (d : Nat) (ls : List (Lbl α ε)) (pre rest : List (Ev α ε)) (t : Nat)
    (h : (exec d ls).log = pre ++ .switched t :: rest) : delivered rest = [] := by
  refine (exec_induct d (P := fun s => InvL s ∧ ∀ pre t rest, s.log = pre ++ .switched t :: rest →
    delivered rest = []) ⟨invL d [], by simp [init]⟩ ?_ ls).2 pre t rest h
  rintro s s' ⟨hL, hI⟩ t
  refine ⟨hL.tr t, ?_⟩
  have hm : ∀ pre t rest, s.log = pre ++ .switched t :: rest → s.moved = true := by
    intro pre t rest hl; rw [hL.ms, hl]; simp [Ev.isSwitched]
  have hsn : ∀ e : Ev α ε, delivered [e] = [] → ∀ pre t rest, s.log ++ [e] = pre ++ .switched t :: rest →
      delivered rest = [] := by
    intro e he pre t rest hl
    rcases split_snoc hl with ⟨-, e1, -⟩ | ⟨r, e1, e2⟩
    · rw [e1]; rfl
    · rw [e1, delivered_append, he, hI _ _ _ e2]; rfl
  cases t
  case begV i v hi hmv hg =>
    intro pre t rest hl
    rcases split_snoc hl with ⟨e1, -, -⟩ | ⟨r, e1, e2⟩
    · cases e1
    · rw [hm _ _ _ e2] at hmv; cases hmv
  case begT i x hi hx hd hg =>
    intro pre t rest hl
    rcases split_snoc hl with ⟨e1, -, -⟩ | ⟨r, e1, e2⟩
    · cases e1
    · rw [hL.md (hm _ _ _ e2)] at hd; cases hd
  all_goals first | exact hI | exact hsn _ rfl

/-- What the fallback has sent to the subscriber. -/
def fallback : List (Ev α ε) → List (Item α ε)
  | [] => []
  | .fb x :: r => x :: fallback r
  | _ :: r => fallback r

/-- Everything the subscriber hears, from the source and from the fallback. -/
def heard : List (Ev α ε) → List (Item α ε)
  | [] => []
  | .beg x :: r => x :: heard r
  | .fb x :: r => x :: heard r
  | _ :: r => heard r

theorem heard_append (l m : List (Ev α ε)) : heard (l ++ m) = heard l ++ heard m := by
  induction l with
  | nil => rfl
  | cons e l ih => cases e <;> simp [heard, ih]

theorem heard_no_fb (l : List (Ev α ε)) (h : ∀ x, .fb x ∉ l) : heard l = delivered l := by
  induction l with
  | nil => rfl
  | cons e l ih =>
    have := ih fun x hx => h x (List.mem_cons_of_mem _ hx)
    cases e <;> simp [heard, delivered, this]
    exact absurd (List.mem_cons_self ..) (h _)

theorem heard_no_beg (l : List (Ev α ε)) (h : delivered l = []) : heard l = fallback l := by
  induction l with
  | nil => rfl
  | cons e l ih =>
    cases e <;> simp_all [heard, delivered, fallback]

theorem fallback_mem {l : List (Ev α ε)} {x} (h : x ∈ fallback l) : .fb x ∈ l := by
  induction l with
  | nil => cases h
  | cons e l ih =>
    cases e <;> simp_all [fallback]
    exact h.imp_right ih

theorem fallback_split {l : List (Ev α ε)} {p x q} (h : fallback l = p ++ x :: q) :
    ∃ a b, l = a ++ .fb x :: b ∧ fallback b = q := by
  induction l generalizing p with
  | nil => simp [fallback] at h
  | cons e l ih =>
    have hs : ∀ {p}, fallback l = p ++ x :: q → ∃ a b, e :: l = a ++ .fb x :: b ∧ fallback b = q := by
      intro p hp
      obtain ⟨a, b, h1, h2⟩ := ih hp
      exact ⟨e :: a, b, by rw [h1]; rfl, h2⟩
    cases e
    case fb y =>
      cases p with
      | nil =>
        have := List.cons.inj h
        exact ⟨[], l, by rw [this.1]; rfl, this.2⟩
      | cons z p => exact hs (List.cons.inj h).2
    all_goals exact hs h

/-- The fallback is heard only once the operator has switched, and neither after it has ended nor
after the subscriber has left. -/
theorem C39_fallback_when (d : Nat) (ls : List (Lbl α ε)) (pre rest : List (Ev α ε)) (x : Item α ε)
    (h : (exec d ls).log = pre ++ .fb x :: rest) :
    (∃ t, .switched t ∈ pre) ∧ .gone ∉ pre ∧ ∀ y, .fb y ∈ pre → y.term = false := by
  obtain ⟨h1, h2, h3⟩ := (invF d ls).sp pre x rest h
  refine ⟨?_, h2, ?_⟩
  · obtain ⟨e, he, h4⟩ := List.any_eq_true.mp h1
    cases e <;> simp [Ev.isSwitched] at h4
    exact ⟨_, he⟩
  · intro y hy
    simpa [Ev.fbEnd] using List.any_eq_false.mp h3 _ hy

/-- And then all of it is heard: a notification of the fallback, sent after the switch to a
subscriber who has not left and before the fallback has ended, is the next thing to happen. -/
theorem C39_fallback_passed (d : Nat) (ls : List (Lbl α ε)) (t : Nat) (x : Item α ε)
    (hs : .switched t ∈ (exec d ls).log) (hg : .gone ∉ (exec d ls).log)
    (he : ∀ y, .fb y ∈ (exec d ls).log → y.term = false) :
    (exec d (ls ++ [.fb x])).log = (exec d ls).log ++ [.fb x] := by
  have hF := invF d ls
  have hL := invL d ls
  obtain ⟨pre, rest, hpr⟩ := List.append_of_mem hs
  have ht : anyTerm (exec d ls).log = false := by
    have h1 := (C39_not_early d ls pre rest t hpr).2.1
    have h2 : delivered rest = [] := nothing_after d ls pre rest t hpr
    rw [hpr, anyTerm_append, Bool.or_eq_false_iff]
    refine ⟨List.any_eq_false.mpr fun y hy => by simp [h1 y hy], ?_⟩
    simp [anyTerm, delivered, h2]
  have hgo : (exec d ls).gone = false := by
    cases hgo : (exec d ls).gone
    · rfl
    · rcases hF.g3 hgo with h | h | h
      · exact absurd h hg
      · obtain ⟨e, he', h4⟩ := List.any_eq_true.mp h
        cases e <;> simp [Ev.fbEnd] at h4
        rw [he _ he'] at h4; cases h4
      · rw [ht] at h; cases h
  have hm : (exec d ls).moved = true := by
    rw [hL.ms]; exact List.any_eq_true.mpr ⟨_, hs, rfl⟩
  have : exec d (ls ++ [.fb x]) = step d (exec d ls) (.fb x) := by simp [exec]
  rw [this]
  simp [step, hm, hgo, St.emit]

/-- So what the subscriber hears after a switch is what the source had delivered by then, none of it
terminal, followed by what the fallback sends, which ends with its terminal event. -/
theorem C39_heard (d : Nat) (ls : List (Lbl α ε)) (pre rest : List (Ev α ε)) (t : Nat)
    (h : (exec d ls).log = pre ++ .switched t :: rest) :
    heard (exec d ls).log = delivered pre ++ fallback rest ∧
    (∀ x ∈ delivered pre, x.term = false) ∧
    ∀ p x q, fallback rest = p ++ x :: q → x.term = true → q = [] := by
  have hn := C39_not_early d ls pre rest t h
  refine ⟨?_, hn.2.1, ?_⟩
  · have h1 : ∀ x, .fb x ∉ pre := by
      intro x hx
      obtain ⟨a, b, hab⟩ := List.append_of_mem hx
      obtain ⟨⟨u, hu⟩, -⟩ := C39_fallback_when d ls a (b ++ .switched t :: rest) x
        (by rw [h, hab]; simp)
      exact hn.2.2 u (by rw [hab]; simp [hu])
    rw [h, heard_append, heard_no_fb _ h1]
    simp only [heard]
    rw [heard_no_beg _ (nothing_after d ls pre rest t h)]
  · intro p x q hp hx
    obtain ⟨a, b, hab, hb⟩ := fallback_split hp
    cases q with
    | nil => rfl
    | cons y q =>
      obtain ⟨a', b', hab', -⟩ := fallback_split (p := []) hb
      have := (C39_fallback_when d ls (pre ++ .switched t :: (a ++ .fb x :: a')) b' y
        (by rw [h, hab, hab']; simp)).2.2 x (by simp)
      rw [hx] at this; cases this

/-! ## C40 -/

/-- Claim C40: once switched, no value of the source reaches the subscriber. -/
def AtomicHandover (α ε : Type) : Prop :=
  ∀ d (ls : List (Lbl α ε)) pre t rest, (exec d ls).log = pre ++ .switched t :: rest →
    delivered rest = [] ∧ ∀ i v, .stale i v ∉ rest

/-- A source thread that is between the check of `is_disposed` (observer.hpp) and the mutex
(timeout.hpp 83) when the timer fires calls `on_next` of the observer although the fallback has taken
over. -/
theorem C40_refutes : ¬ AtomicHandover Nat Nat := by
  intro h
  have := h 5 [.tick 5, .timer, .arrive 0 (.val 7), .timer, .timer, .timer, .timer, .timer, .call 0, .call 0]
    [.enter 0 (.val 7)] 5 [.recv (.val 7), .stale 0 7] (by decide)
  exact this.2 0 7 (by decide)

/-- Apart from such a call on the observer given away, nothing of the source gets through after the
switch: neither values nor terminal events. -/
theorem C40_nothing_partial (d : Nat) (ls : List (Lbl α ε)) (pre rest : List (Ev α ε)) (t : Nat)
    (h : (exec d ls).log = pre ++ .switched t :: rest) : delivered rest = [] :=
  nothing_after d ls pre rest t h

/-- Call `i` with value `x` has been made in `log` and has not returned. -/
def InFlight (i : Nat) (x : Item α ε) (log : List (Ev α ε)) : Prop :=
  ∃ p q, log = p ++ .enter i x :: q ∧ .leave i ∉ q

/-- Used in the statements and proofs of this file; models no code. -/
def CPc.item? : CPc α ε → Option (Item α ε)
  | .want x => some x
  | .have x => some x
  | _ => none

/-- A test on the constructor; models no code. -/
def Ev.isStale (i : Nat) : Ev α ε → Bool
  | .stale j _ => j == i
  | _ => false

theorem InFlight.snoc {i x} {log : List (Ev α ε)} (h : InFlight i x log) {e} (he : e ≠ .leave i) :
    InFlight i x (log ++ [e]) := by
  obtain ⟨p, q, rfl, hq⟩ := h
  exact ⟨p, q ++ [e], by simp, by simp [hq]; exact fun h => he h.symm⟩

/-- Where a late value comes from. -/
structure InvC (s : St α ε) : Prop where
  c1 : ∀ i x, (s.calls i).item? = some x → InFlight i x s.log
  c2 : ∀ pre t rest, s.log = pre ++ .switched t :: rest → ∀ i x, (s.calls i).item? = some x →
    InFlight i x pre ∧ rest.any (Ev.isStale i) = false
  c3 : ∀ pre t rest, s.log = pre ++ .switched t :: rest → ∀ i v, .stale i v ∈ rest →
    InFlight i (.val v) pre
  c4 : ∀ pre t rest, s.log = pre ++ .switched t :: rest → ∀ i,
    (rest.filter (Ev.isStale i)).length ≤ 1

theorem InvC.tr {d} {s s' : St α ε} (h : InvC s) (hL : InvL s) (t : Tr d s s') : InvC s' := by
  obtain ⟨h1, h2, h3, h4⟩ := h
  have hm : ∀ pre t rest, s.log = pre ++ .switched t :: rest → s.moved = true := by
    intro pre t rest hl; rw [hL.ms, hl]; simp [Ev.isSwitched]
  have hone : ∀ e : Ev α ε, e.isSwitched = false → (∀ i, e.isStale i = false) →
      (∀ pre t rest, s.log ++ [e] = pre ++ .switched t :: rest → ∀ i x, (s.calls i).item? = some x →
        InFlight i x pre ∧ rest.any (Ev.isStale i) = false) ∧
      (∀ pre t rest, s.log ++ [e] = pre ++ .switched t :: rest → ∀ i v, .stale i v ∈ rest →
        InFlight i (.val v) pre) ∧
      ∀ pre t rest, s.log ++ [e] = pre ++ .switched t :: rest → ∀ i,
        (rest.filter (Ev.isStale i)).length ≤ 1 := by
    intro e he1 he2
    refine ⟨?_, ?_, ?_⟩ <;> intro pre t rest hl <;>
      rcases split_snoc hl with ⟨e1, -, -⟩ | ⟨r, e1, e2⟩ <;> try (subst e1; cases he1; done)
    · intro i x hx
      have := h2 _ _ _ e2 i x hx
      exact ⟨this.1, by rw [e1]; simp only [List.any_append, this.2, List.any_cons, he2, List.any_nil, Bool.or_false]⟩
    · intro i v hv
      rw [e1, List.mem_append, List.mem_singleton] at hv
      rcases hv with hv | hv
      · exact h3 _ _ _ e2 i v hv
      · subst hv; have := he2 i; simp [Ev.isStale] at this
    · intro i
      rw [e1, List.filter_append]
      simp only [List.filter_cons, he2, List.filter_nil, Bool.false_eq_true, if_false, List.append_nil]
      exact h4 _ _ _ e2 i
  have hit : ∀ (i j : Nat) (p : CPc α ε) x, p.item? = none →
      (if j = i then p else s.calls j).item? = some x → j ≠ i ∧ (s.calls j).item? = some x := by
    intro i j p x hp hx
    by_cases hji : j = i
    · simp [hji, hp] at hx
    · exact ⟨hji, by simpa [hji] using hx⟩
  have fin1 : ∀ (i : Nat) (p : CPc α ε) (e : Ev α ε), p.item? = none → e.isSwitched = false →
      (∀ j, e.isStale j = false) → (∀ j, e = .leave j → j = i) → ∀ s2 : St α ε,
      s2.calls = (fun j => if j = i then p else s.calls j) → s2.log = s.log ++ [e] → InvC s2 := by
    intro i p e hp e1 e2 e3 s2 hc hl
    obtain ⟨k2, k3, k4⟩ := hone e e1 e2
    constructor
    · intro j x hx
      rw [hc] at hx
      obtain ⟨hji, hx⟩ := hit i j p x hp hx
      rw [hl]; exact (h1 j x hx).snoc fun he => hji (e3 j he)
    · rw [hl, hc]
      intro pre t rest hl j x hx
      exact k2 pre t rest hl j x (hit i j p x hp hx).2
    · rw [hl]; exact k3
    · rw [hl]; exact k4
  have fin0 : ∀ (i : Nat) (p : CPc α ε), p.item? = none → ∀ s2 : St α ε,
      s2.calls = (fun j => if j = i then p else s.calls j) → s2.log = s.log → InvC s2 := by
    intro i p hp s2 hc hl
    constructor
    · intro j x hx
      rw [hc] at hx
      rw [hl]; exact h1 j x (hit i j p x hp hx).2
    · rw [hl, hc]
      intro pre t rest hl j x hx
      exact h2 pre t rest hl j x (hit i j p x hp hx).2
    · rw [hl]; exact h3
    · rw [hl]; exact h4
  have fin2 : ∀ (e : Ev α ε), e.isSwitched = false →
      (∀ j, e.isStale j = false) → (∀ j, e ≠ .leave j) → ∀ s2 : St α ε,
      s2.calls = s.calls → s2.log = s.log ++ [e] → InvC s2 := by
    intro e e1 e2 e3 s2 hc hl
    obtain ⟨k2, k3, k4⟩ := hone e e1 e2
    constructor
    · intro j x hx
      rw [hc] at hx
      rw [hl]; exact (h1 j x hx).snoc (e3 j)
    · rw [hl, hc]; exact k2
    · rw [hl]; exact k3
    · rw [hl]; exact k4
  cases t
  case arrive i x hi hd =>
    have hns : ∀ pre t rest, s.log ++ [.enter i x] ≠ pre ++ .switched t :: rest := by
      intro pre t rest hl
      rcases split_snoc hl with ⟨e1, -, -⟩ | ⟨r, -, e2⟩
      · cases e1
      · rw [hL.md (hm _ _ _ e2)] at hd; cases hd
    constructor
    · intro j y hy
      by_cases hji : j = i
      · subst hji
        simp only [if_true, CPc.item?, Option.some.injEq] at hy
        subst hy
        exact ⟨s.log, [], rfl, by simp⟩
      · simp only [hji, if_false] at hy
        exact (h1 j y hy).snoc (by simp)
    · exact fun pre t rest hl => absurd hl (hns pre t rest)
    · exact fun pre t rest hl => absurd hl (hns pre t rest)
    · exact fun pre t rest hl => absurd hl (hns pre t rest)
  case lockC i x hi hl =>
    obtain ⟨k2, k3, k4⟩ := hone (.recv x) rfl (fun _ => rfl)
    have hh : ∀ j y, (if j = i then CPc.have x else s.calls j).item? = some y →
        (s.calls j).item? = some y := by
      intro j y hy
      by_cases hji : j = i
      · subst hji; rw [hi]; simpa [CPc.item?] using hy
      · simpa [hji] using hy
    constructor
    · intro j y hy
      exact (h1 j y (hh j y hy)).snoc (by simp)
    · intro pre t rest hl j y hy
      exact k2 pre t rest hl j y (hh j y hy)
    · exact k3
    · exact k4
  case stale i v hi hmv =>
    constructor
    · intro j y hy
      exact (h1 j y (hit i j .stamp y rfl hy).2).snoc (by simp)
    · intro pre t rest hl j y hy
      obtain ⟨hji, hy⟩ := hit i j .stamp y rfl hy
      rcases split_snoc hl with ⟨e1, -, -⟩ | ⟨r, e1, e2⟩
      · cases e1
      · have := h2 _ _ _ e2 j y hy
        refine ⟨this.1, ?_⟩
        rw [e1, List.any_append, this.2]
        simp [Ev.isStale, Ne.symm hji]
    · intro pre t rest hl j w hw
      rcases split_snoc hl with ⟨e1, -, -⟩ | ⟨r, e1, e2⟩
      · cases e1
      · rw [e1, List.mem_append, List.mem_singleton] at hw
        rcases hw with hw | hw
        · exact h3 _ _ _ e2 j w hw
        · cases hw
          exact (h2 _ _ _ e2 i (.val v) (by rw [hi]; rfl)).1
    · intro pre t rest hl j
      rcases split_snoc hl with ⟨e1, -, -⟩ | ⟨r, e1, e2⟩
      · cases e1
      · rw [e1, List.filter_append]
        by_cases hji : j = i
        · subst hji
          have := (h2 _ _ _ e2 j (.val v) (by rw [hi]; rfl)).2
          rw [List.any_eq_false] at this
          rw [List.filter_eq_nil_iff.2 (fun a ha => this a ha)]
          simp [List.filter_cons]
          split <;> simp
        · have := h4 _ _ _ e2 j
          simp [List.filter_cons, Ev.isStale, Ne.symm hji]
          exact this
  case sub ht =>
    have hns : ∀ pre t rest, s.log ≠ pre ++ .switched t :: rest := by
      intro pre t rest hl
      have := hL.mb (by rw [ht]; rfl)
      rw [hm _ _ _ hl] at this; cases this
    constructor
    · intro j y hy
      exact (h1 j y hy).snoc (by simp)
    · intro pre t rest hl j y hy
      rcases split_snoc hl with ⟨-, e1, e3⟩ | ⟨r, -, e2⟩
      · subst e3; rw [e1]; exact ⟨h1 j y hy, rfl⟩
      · exact absurd e2 (hns _ _ _)
    · intro pre t rest hl j y hy
      rcases split_snoc hl with ⟨-, e1, e3⟩ | ⟨r, -, e2⟩
      · rw [e1] at hy; simp at hy
      · exact absurd e2 (hns _ _ _)
    · intro pre t rest hl j
      rcases split_snoc hl with ⟨-, e1, e3⟩ | ⟨r, -, e2⟩
      · rw [e1]; simp
      · exact absurd e2 (hns _ _ _)
  case rel i hi => exact fin1 i .idle (.leave i) rfl rfl (fun _ => rfl) (fun j h => by cases h; rfl) _ rfl rfl
  case dispose => exact fin2 .gone rfl (fun _ => rfl) (fun _ h => by cases h) _ rfl rfl
  case fb x _ _ => exact fin2 (.fb x) rfl (fun _ => rfl) (fun _ h => by cases h) _ rfl rfl
  case skip i _ _ _ _ => exact fin0 i .stamp rfl _ rfl rfl
  case skipT i _ _ _ _ => exact fin0 i .rel rfl _ rfl rfl
  case begV i _ _ _ _ => exact fin1 i _ _ rfl rfl (fun _ => rfl) (fun j h => by cases h) _ rfl rfl
  case begT i _ _ _ _ _ => exact fin1 i _ _ rfl rfl (fun _ => rfl) (fun j h => by cases h) _ rfl rfl
  case finT i _ _ _ => exact fin1 i _ _ rfl rfl (fun _ => rfl) (fun j h => by cases h) _ rfl rfl
  case finV i _ _ _ => exact fin1 i _ _ rfl rfl (fun _ => rfl) (fun j h => by cases h) _ rfl rfl
  case stamp i _ => exact fin1 i _ _ rfl rfl (fun _ => rfl) (fun j h => by cases h) _ rfl rfl
  all_goals exact ⟨h1, h2, h3, h4⟩

theorem invC (d) (ls : List (Lbl α ε)) : InvC (exec d ls) := by
  refine (exec_induct d (P := fun s => InvL s ∧ InvC s) ⟨invL d [], ?_⟩
    (fun _ _ h t => ⟨h.1.tr t, h.2.tr h.1 t⟩) ls).2
  constructor <;> simp [init, CPc.item?]

/-- A value of the source can get through after the switch only in a call that was already under way
at the switch. -/
theorem C40_in_flight_partial (d : Nat) (ls : List (Lbl α ε)) (pre rest : List (Ev α ε)) (t : Nat)
    (h : (exec d ls).log = pre ++ .switched t :: rest) (i : Nat) (v : α) (hv : .stale i v ∈ rest) :
    InFlight i (.val v) pre :=
  (invC d ls).c3 pre t rest h i v hv

/-- Every thread of the source gets at most one value through after the switch. -/
theorem C40_at_most_one_partial (d : Nat) (ls : List (Lbl α ε)) (pre rest : List (Ev α ε)) (t : Nat)
    (h : (exec d ls).log = pre ++ .switched t :: rest) (i : Nat) :
    (rest.filter (Ev.isStale i)).length ≤ 1 :=
  (invC d ls).c4 pre t rest h i

/-- If the source's call is not concurrent with the timer, the hand-over is atomic. -/
theorem C40_serial_partial (d : Nat) (ls : List (Lbl α ε)) (pre rest : List (Ev α ε)) (t : Nat)
    (h : (exec d ls).log = pre ++ .switched t :: rest) (hs : ∀ i x, ¬ InFlight i x pre) :
    delivered rest = [] ∧ ∀ i v, .stale i v ∉ rest :=
  ⟨C40_nothing_partial d ls pre rest t h, fun i v hv => hs i _ (C40_in_flight_partial d ls pre rest t h i v hv)⟩

/-! ## Concrete runs -/

/-- Values at times 2 and 6 with period 5; the timer runs at 5 (too early), 7 and 11. -/
def demo : List (Lbl Nat Nat) :=
  let v (a : Nat) : List (Lbl Nat Nat) := [.arrive 0 (.val a), .call 0, .call 0, .call 0, .call 0, .call 0]
  [.tick 2] ++ v 1 ++ [.tick 3, .timer, .timer, .timer, .tick 1] ++ v 2 ++
  [.tick 1, .timer, .timer, .timer, .tick 4, .timer, .timer, .timer, .timer, .timer, .timer, .fb (.val 9), .fb .done]

example : (exec 5 demo).log = [.enter 0 (.val 1), .recv (.val 1), .beg (.val 1), .fin (.val 1), .stamp 2, .leave 0,
    .enter 0 (.val 2), .recv (.val 2), .beg (.val 2), .fin (.val 2), .stamp 6, .leave 0,
    .switched 11, .fb (.val 9), .fb .done] := by decide
example : Prompt 5 demo := by unfold Prompt; decide
/-- The hypotheses of `C39_fallback_passed` are met after the first notification of the fallback, and
`C39_heard` reads as it should. -/
example : (exec 5 (demo.take 30)).log.any Ev.isSwitched = true ∧
    (∀ e ∈ (exec 5 (demo.take 30)).log, e.isGone = false ∧ e.fbEnd = false) ∧
    fallback (exec 5 (demo.take 30)).log ≠ [] ∧
    heard (exec 5 demo).log = [.val 1, .val 2, .val 9, .done] := by decide
/-- Before the switch the hypotheses of `C39_mirror`, `C39_timer` and `C39_switches` are met. -/
example : (∀ e ∈ (exec 5 (demo.take 21)).log, e.isSwitched = false ∧ e.isGone = false) ∧
    (∀ x ∈ delivered (exec 5 (demo.take 21)).log, x.term = false) ∧
    delivered (exec 5 (demo.take 21)).log = [.val 1, .val 2] ∧
    Prompt 5 (demo.take 21) ∧ (exec 5 (demo.take 21)).calls 0 = .idle := by unfold Prompt; decide

/-- Used in the statements and proofs of this file; models no code. -/
def Lbl.caller : Lbl α ε → Option Nat
  | .arrive i _ => some i
  | .call i => some i
  | _ => none

/-- A thread that never moves stays idle. -/
theorem calls_other (d) (ls : List (Lbl α ε)) (j : Nat) (h : ∀ l ∈ ls, l.caller ≠ some j) :
    (exec d ls).calls j = .idle := by
  suffices hh : ∀ s : St α ε, s.calls j = .idle → (ls.foldl (step d) s).calls j = .idle from hh _ rfl
  induction ls with
  | nil => exact fun s h => h
  | cons l ls ih =>
    intro s hs
    apply ih (fun l hl => h l (by simp [hl]))
    have hl := h l (by simp)
    cases l with
    | arrive i x =>
      have : j ≠ i := by rintro rfl; exact hl rfl
      simp only [step]; repeat' split
      all_goals simp [St.setCall, St.emit, this, hs]
    | call i =>
      have : j ≠ i := by rintro rfl; exact hl rfl
      simp only [step, stepCall]; repeat' split
      all_goals simp [St.setCall, St.emit, this, hs]
    | _ =>
      simp only [step, stepTimer]; repeat' split
      all_goals simp [St.emit, hs]

example (i : Nat) : (exec 5 (demo.take 21)).calls i = .idle := by
  by_cases h : i = 0
  · subst h; decide
  · refine calls_other 5 _ i ?_
    have : ∀ l ∈ demo.take 21, l.caller = none ∨ l.caller = some 0 := by decide
    intro l hl
    rcases this l hl with e | e <;> rw [e] <;> simp
    exact fun h' => h h'.symm

end Rpp.Time.Timeout
