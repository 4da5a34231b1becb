import Verif.Combine.Spec

/-! Invariants of the combining machine. -/

namespace Rpp.Comb

variable {α β ε σ : Type}

/-! ## The steps, one by one -/

/-- A test on the constructor; models no code. -/
def Sig.isTerm : Sig α ε → Bool
  | .next _ => false
  | .term _ => true

/-- Used in the proofs; models no code. -/
def Pc.holds : Pc α β ε → Bool
  | .inn _ | .cb _ | .err _ | .cbErr | .mark | .rel | .relThrow _ => true
  | _ => false

/-- A pending notification and the event that tells it is processed. -/
def Pending (s : St α β ε σ) (i : Nat) (c : Sig α ε) (ev : Ev α β ε) : Prop :=
  (s.calls i = .pre c ∧ ev = .act i c) ∨ ∃ e, s.calls i = .preE e ∧ c = .term (.error e) ∧ ev = .actE i e

/-- Where a processed notification goes. -/
def after (early : Bool) : Act β ε → Pc α β ε
  | .silent => if early then .idle else .rel
  | .out o => if early then .out o else .inn o
  | .throw e => if early then .preE e else .relThrow e

/-- How one step changes state and log (for the proofs); models no code. -/
inductive Tr (H : Hub α β ε σ) (s : St α β ε σ) : St α β ε σ → Prop where
  | recv (i : Nat) (c : Sig α ε) (h : s.calls i = .idle) (ha : s.active i = true) (hd : s.done i = false) (hs : s.shut = false) :
      Tr H s ({ s with done := fun j => if j = i ∧ c.isTerm then true else s.done j }.goto i (.pre c) |>.emit (.recv i c))
  | opn (k) (h : s.calls 0 = .idle) (ha : s.active 0 = true) (hd : s.done 0 = false) (hs : s.shut = false) (hk : s.active k = false)
      (hdy : H.dyn = true) :
      Tr H s ({ s with st := H.opn k s.st, active := fun j => if j = k then true else s.active j }.goto 0 .opening |>.emit (.opened k))
  | early (i c ev) (h : Pending s i c ev) (he : H.early i c = true) :
      Tr H s ({ s with st := (H.act i c s.st).2 }.emit ev |>.goto i (after true (H.act i c s.st).1))
  | late (i c ev) (h : Pending s i c ev) (he : H.early i c = false) (hl : s.lock = none) :
      Tr H s ({ s with st := (H.act i c s.st).2, lock := some i }.emit ev |>.goto i (after false (H.act i c s.st).1))
  | drop (i e) (h : s.calls i = .preE e) (hs : s.shut = true) : Tr H s (s.goto i .idle)
  | enter (i o) (h : s.calls i = .out o) (hl : s.lock = none) : Tr H s ({ s with lock := some i }.goto i (.inn o))
  | skip (i) (h : (∃ o, s.calls i = .inn o) ∨ ∃ e, s.calls i = .err e) (hg : s.gone = true) : Tr H s (s.goto i .rel)
  | beg (i o) (h : s.calls i = .inn o) (hg : s.gone = false) : Tr H s ((s.goto i (.cb o)).emit (.beg i o))
  | own (i e) (h : s.calls i = .err e) (hg : s.gone = false) : Tr H s ((s.goto i .cbErr).emit (.own i e))
  | mark (i) (h : s.calls i = .mark) : Tr H s ({ s with gone := true }.goto i .rel)
  | rel (i) (h : s.calls i = .rel) : Tr H s ({ s with lock := none }.goto i .idle)
  | relThrow (i e) (h : s.calls i = .relThrow e) : Tr H s ({ s with lock := none }.goto i (.preE e))
  | opened (i) (h : s.calls i = .opening) : Tr H s (s.goto i .idle)
  | finNext (i v p) (h : s.calls i = .cb (.next v)) (hp : p = .rel ∨ ∃ e, p = .err e) : Tr H s ((s.goto i p).emit (.fin i))
  | finTerm (i) (h : (∃ t, s.calls i = .cb (.term t)) ∨ s.calls i = .cbErr) : Tr H s ((s.goto i .mark).emit (.fin i))
  | gone (hg : s.gone = false) : Tr H s ({ s with gone := true }.emit .gone)
  | shut (hg : s.gone = true) : Tr H s { s with shut := true }

theorem process_tr (H : Hub α β ε σ) (s : St α β ε σ) {i : Nat} {c : Sig α ε} {ev : Ev α β ε} (h : Pending s i c ev) :
    s.process H i c ev = s ∨ Tr H s (s.process H i c ev) := by
  unfold St.process
  split
  · next he =>
    right
    have := Tr.early i c ev h he (H := H)
    dsimp only; revert this
    cases (H.act i c s.st).1 <;> exact id
  · next he =>
    split
    · exact .inl rfl
    · next hl =>
      right
      have := Tr.late i c ev h (by simpa using he) hl (H := H)
      dsimp only; revert this
      cases (H.act i c s.st).1 <;> exact id

theorem isIdle_eq {p : Pc α β ε} (h : p.isIdle = true) : p = .idle := by cases p <;> first | rfl | cases h

theorem step_tr (H : Hub α β ε σ) (s : St α β ε σ) (l : Lbl α ε) : step H s l = s ∨ Tr H s (step H s l) := by
  cases l with
  | next i v =>
    simp only [step]; split
    · next h =>
      right
      simp only [Bool.and_eq_true, Bool.not_eq_true'] at h
      obtain ⟨⟨⟨h1, h2⟩, h3⟩, h4⟩ := h
      have h1 : s.calls i = .idle := isIdle_eq h1
      have := Tr.recv i (.next v) h1 h2 h3 h4 (H := H)
      have e : (fun j => if j = i ∧ (Sig.next v : Sig α ε).isTerm then true else s.done j) = s.done := by
        funext j; simp [Sig.isTerm]
      rw [e] at this; exact this
    · exact .inl rfl
  | term i t =>
    simp only [step]; split
    · next h =>
      right
      simp only [Bool.and_eq_true, Bool.not_eq_true'] at h
      obtain ⟨⟨⟨h1, h2⟩, h3⟩, h4⟩ := h
      have h1 : s.calls i = .idle := isIdle_eq h1
      have := Tr.recv i (.term t) h1 h2 h3 h4 (H := H)
      have e : (fun j => if j = i ∧ (Sig.term t : Sig α ε).isTerm then true else s.done j) =
          fun j => if j = i then true else s.done j := by
        funext j; simp [Sig.isTerm]
      rw [e] at this; exact this
    · exact .inl rfl
  | opn k =>
    simp only [step]; split
    · next h =>
      right
      simp only [Bool.and_eq_true, Bool.not_eq_true'] at h
      obtain ⟨⟨⟨⟨⟨h0, h1⟩, h2⟩, h3⟩, h4⟩, h5⟩ := h
      have h1 : s.calls 0 = .idle := isIdle_eq h1
      exact Tr.opn k h1 h2 h3 h4 h5 h0
    · exact .inl rfl
  | run i =>
    simp only [step]
    unfold St.advance
    split
    · exact .inl rfl
    · exact .inl rfl
    · exact .inl rfl
    · next c h => exact process_tr H s (.inl ⟨h, rfl⟩)
    · next e h =>
      split
      · next hs => exact .inr (.drop i e h hs)
      · exact process_tr H s (.inr ⟨e, h, rfl, rfl⟩)
    · next o h =>
      split
      · exact .inl rfl
      · next hl => exact .inr (.enter i o h hl)
    · next o h =>
      split
      · next hg => exact .inr (.skip i (.inl ⟨o, h⟩) hg)
      · next hg => exact .inr (.beg i o h (by simpa using hg))
    · next e h =>
      split
      · next hg => exact .inr (.skip i (.inr ⟨e, h⟩) hg)
      · next hg => exact .inr (.own i e h (by simpa using hg))
    · next h => exact .inr (.mark i h)
    · next h => exact .inr (.rel i h)
    · next e h => exact .inr (.relThrow i e h)
    · next h => exact .inr (.opened i h)
  | ret i r =>
    simp only [step]
    split
    · next v h => exact .inr (.finNext i v _ h (.inl rfl))
    · next v e h => exact .inr (.finNext i v _ h (.inr ⟨_, rfl⟩))
    · next t h => exact .inr (.finTerm i (.inl ⟨_, h⟩))
    · next h => exact .inr (.finTerm i (.inr h))
    · exact .inl rfl
  | gone =>
    simp only [step]; split
    · exact .inl rfl
    · next hg => exact .inr (.gone (by simpa using hg))
  | shut =>
    simp only [step]; split
    · next hg => exact .inr (.shut hg)
    · exact .inl rfl

/-- Induction over all histories. -/
theorem exec_induct (H : Hub α β ε σ) {P : St α β ε σ → Prop} (h0 : P H.initSt) (hs : ∀ s s', P s → Tr H s s' → P s')
    (ls : List (Lbl α ε)) : P (exec H ls) := by
  unfold exec
  have : ∀ (ls : List (Lbl α ε)) (s : St α β ε σ), P s → P (ls.foldl (step H) s) := by
    intro ls
    induction ls with
    | nil => exact fun s h => h
    | cons l ls ih =>
      intro s h
      refine ih _ ?_
      rcases step_tr H s l with e | e
      · rw [e]; exact h
      · exact hs _ _ h e
  exact this ls _ h0

/-! ## Reading the log -/

section snoc
variable (H : Hub α β ε σ) (l : List (Ev α β ε)) (ev : Ev α β ε)

theorem replay_snoc : replay H (l ++ [ev]) = replayStep H (replay H l) ev := by simp [replay, List.foldl_append]

theorem received_snoc (i : Nat) : received i (l ++ [ev]) = received i l ++ (match ev with | .recv j c => if j = i then [c] else [] | _ => []) := by
  unfold received; rw [List.filterMap_append]; cases ev <;> simp
  split <;> simp [*]

theorem processed_snoc (i : Nat) : processed i (l ++ [ev]) = processed i l ++ (match ev with | .act j c => if j = i then [c] else [] | _ => []) := by
  unfold processed; rw [List.filterMap_append]; cases ev <;> simp
  split <;> simp [*]

theorem begs_snoc : begs (l ++ [ev]) = begs l ++ (match ev with | .beg i o => [(i, o)] | _ => []) := by
  unfold begs; rw [List.filterMap_append]; cases ev <;> simp

theorem busy_snoc : busy (l ++ [ev]) = (match ev with | .beg _ _ | .own _ _ => true | .fin _ => false | _ => busy l) := by
  simp only [busy, List.foldl_append, List.foldl_cons, List.foldl_nil]; cases ev <;> rfl

end snoc

/-- Used in the proofs; models no code. -/
def Pc.pend : Pc α β ε → List (Sig α ε)
  | .pre c => [c]
  | _ => []

/-- Used in the proofs; models no code. -/
def Pc.wait : Pc α β ε → List (Sig β ε)
  | .out o | .inn o => [o]
  | _ => []

/-- Used in the proofs; models no code. -/
def Pc.inCb : Pc α β ε → Bool
  | .cb _ | .cbErr => true
  | _ => false

/-- The end is being told, or has just been told. -/
def Pc.ending : Pc α β ε → Bool
  | .cb (.term _) | .cbErr | .mark => true
  | _ => false

theorem ofSrc_append (i : Nat) (l l' : List (Nat × Sig β ε)) : ofSrc i (l ++ l') = ofSrc i l ++ ofSrc i l' := by
  simp [ofSrc]

/-- The operator threw `e` when processing a notification of source `i`. -/
def Threw (H : Hub α β ε σ) (log : List (Ev α β ε)) (i : Nat) (e : ε) : Prop :=
  ∃ p q c ev, log = p ++ ev :: q ∧ (ev = .act i c ∨ ∃ e', c = .term (.error e') ∧ ev = .actE i e') ∧ (H.act i c (replay H p).2).1 = .throw e

/-- What must precede an event. -/
def Ok (H : Hub α β ε σ) (pre : List (Ev α β ε)) : Ev α β ε → Prop
  | .recv i _ => (i ∈ H.start ∨ .opened i ∈ pre) ∧ ∀ t, .recv i (.term t) ∉ pre
  | .opened k => k ∉ H.start ∧ .opened k ∉ pre ∧ ∀ t, .recv 0 (.term t) ∉ pre
  | .act i c => .recv i c ∈ pre
  | .actE i e => Threw H pre i e
  | .beg _ _ | .own _ _ => busy pre = false ∧ .gone ∉ pre ∧ ¬ Ended pre
  | .fin _ => busy pre = true
  | .gone => True

/-! ## Mutual exclusion and bookkeeping -/

theorem holds_of_inCb {p : Pc α β ε} (h : p.inCb = true) : p.holds = true := by cases p <;> first | rfl | cases h

theorem holds_of_ending {p : Pc α β ε} (h : p.ending = true) : p.holds = true := by
  cases p <;> first | rfl | cases h

/-- Invariant of the proofs; models no code. -/
structure Inv1 (H : Hub α β ε σ) (s : St α β ε σ) : Prop where
  lock : ∀ i, s.lock = some i ↔ (s.calls i).holds = true
  st : s.st = (replay H s.log).2
  gone : .gone ∈ s.log → s.gone = true
  shut : s.shut = true → s.gone = true
  busy : busy s.log = true ↔ ∃ i, (s.calls i).inCb = true
  done : ∀ i, s.done i = true ↔ ∃ t, .recv i (.term t) ∈ s.log
  active : ∀ i, s.active i = true ↔ i ∈ H.start ∨ .opened i ∈ s.log
  ended : Ended s.log → s.gone = true ∨ ∃ i, (s.calls i).ending = true
  recv : ∀ i, received i s.log = processed i s.log ++ (s.calls i).pend

theorem Inv1.unique {H : Hub α β ε σ} {s : St α β ε σ} (h : Inv1 H s) {i j : Nat} (hi : (s.calls i).holds = true)
    (hj : (s.calls j).holds = true) : i = j := by
  have h1 := (h.lock i).2 hi
  rw [(h.lock j).2 hj] at h1
  exact (Option.some.inj h1).symm

theorem Inv1.init (H : Hub α β ε σ) : Inv1 H H.initSt := by
  constructor <;> simp [Hub.initSt, Pc.holds, replay, Comb.busy, Pc.inCb, Ended, received, processed, Pc.pend]

set_option maxHeartbeats 1000000 in
theorem Inv1.tr {H : Hub α β ε σ} {s s' : St α β ε σ} (h : Inv1 H s) (t : Tr H s s') : Inv1 H s' := by
  obtain ⟨h1, h2, h3, h4, h5, h6, h7, h8, h9⟩ := h
  cases t with
  | recv i c hc ha hd hs =>
    constructor <;> simp only [St.goto, St.emit, replay_snoc, replayStep, busy_snoc, received_snoc, processed_snoc, List.mem_append, List.mem_singleton, Ended]
    · grind [Pc.holds]
    · grind
    · grind
    · grind
    · grind [Pc.inCb]
    · intro j; cases c <;> grind [Sig.isTerm]
    · grind
    · grind [Ended, Pc.ending]
    · grind [Pc.pend]
  | opn k hc ha hd hs hk hdy =>
    constructor <;> simp only [St.goto, St.emit, replay_snoc, replayStep, busy_snoc, received_snoc, processed_snoc, List.mem_append, List.mem_singleton, Ended] <;>
      grind [Pc.holds, Pc.inCb, Pc.pend, Pc.ending, Ended]
  | early i c ev hp he =>
    rcases hp with ⟨hp, rfl⟩ | ⟨e, hp, rfl, rfl⟩ <;> rcases ha : (H.act i _ s.st) with ⟨a, x⟩ <;> cases a <;>
    constructor <;> simp only [after, St.goto, St.emit, replay_snoc, replayStep, ← h2, ha, busy_snoc, received_snoc, processed_snoc, List.mem_append, List.mem_singleton, Ended] <;>
      grind [Pc.holds, Pc.inCb, Pc.pend, Pc.ending, Ended]
  | late i c ev hp he hl =>
    rcases hp with ⟨hp, rfl⟩ | ⟨e, hp, rfl, rfl⟩ <;> rcases ha : (H.act i _ s.st) with ⟨a, x⟩ <;> cases a <;>
    constructor <;> simp only [after, St.goto, St.emit, replay_snoc, replayStep, ← h2, ha, busy_snoc, received_snoc, processed_snoc, List.mem_append, List.mem_singleton, Ended] <;>
      grind [Pc.holds, Pc.inCb, Pc.pend, Pc.ending, Ended]
  | skip i hc hg =>
    rcases hc with ⟨o, hc⟩ | ⟨e, hc⟩ <;>
    constructor <;> simp only [St.goto, Ended] <;>
      grind [Pc.holds, Pc.inCb, Pc.pend, Pc.ending, Ended]
  | finNext i v p hc hp =>
    rcases hp with rfl | ⟨e, rfl⟩ <;>
    constructor <;> simp only [St.goto, St.emit, replay_snoc, replayStep, busy_snoc, received_snoc, processed_snoc, List.mem_append, List.mem_singleton, Ended] <;>
      grind [Pc.holds, Pc.inCb, Pc.pend, Pc.ending, Ended, holds_of_inCb]
  | finTerm i hc =>
    rcases hc with ⟨t, hc⟩ | hc <;>
    constructor <;> simp only [St.goto, St.emit, replay_snoc, replayStep, busy_snoc, received_snoc, processed_snoc, List.mem_append, List.mem_singleton, Ended] <;>
      grind [Pc.holds, Pc.inCb, Pc.pend, Pc.ending, Ended, holds_of_inCb]
  | _ =>
    constructor <;> simp only [St.goto, St.emit, replay_snoc, replayStep, busy_snoc, received_snoc, processed_snoc, List.mem_append, List.mem_singleton, Ended] <;>
      grind [Pc.holds, Pc.inCb, Pc.pend, Pc.ending, Ended]

theorem inv1 (H : Hub α β ε σ) (ls : List (Lbl α ε)) : Inv1 H (exec H ls) := exec_induct H (.init H) (fun _ _ h t => h.tr t) ls

/-! ## Legality of the log -/

/-- What the logs satisfy (for the proofs); models no code. -/
def Legal (H : Hub α β ε σ) (log : List (Ev α β ε)) : Prop := ∀ pre ev post, log = pre ++ ev :: post → Ok H pre ev

theorem Legal.snoc {H : Hub α β ε σ} {log : List (Ev α β ε)} {ev : Ev α β ε} (h : Legal H log) (ho : Ok H log ev) : Legal H (log ++ [ev]) := by
  intro pre e post he
  rcases List.eq_nil_or_concat post with rfl | ⟨post', x, rfl⟩
  · obtain ⟨rfl, h2⟩ := List.append_inj' he rfl
    cases h2; exact ho
  · rw [List.concat_eq_append, ← List.cons_append, ← List.append_assoc] at he
    exact h pre e post' (List.append_inj_left' he rfl)

theorem Threw.snoc {H : Hub α β ε σ} {log : List (Ev α β ε)} {i : Nat} {e : ε} (h : Threw H log i e) (ev : Ev α β ε) : Threw H (log ++ [ev]) i e := by
  obtain ⟨p, q, c, ev', h1, h2⟩ := h
  exact ⟨p, q ++ [ev], c, ev', by rw [h1]; simp, h2⟩

/-- Invariant of the proofs; models no code. -/
structure Inv2 (H : Hub α β ε σ) (s : St α β ε σ) : Prop extends Inv1 H s where
  thrown : ∀ i e, (s.calls i = .preE e ∨ s.calls i = .relThrow e) → Threw H s.log i e
  legal : Legal H s.log

theorem mem_received {i : Nat} {c : Sig α ε} {log : List (Ev α β ε)} : c ∈ received i log ↔ .recv i c ∈ log := by
  unfold received
  rw [List.mem_filterMap]
  constructor
  · rintro ⟨ev, h1, h2⟩
    cases ev <;> simp at h2
    obtain ⟨rfl, rfl⟩ := h2; exact h1
  · intro h; exact ⟨_, h, by simp⟩

theorem Inv2.tr {H : Hub α β ε σ} {s s' : St α β ε σ} (h : Inv2 H s) (t : Tr H s s') : Inv2 H s' := by
  refine ⟨h.toInv1.tr t, ?_, ?_⟩
  · have h1 := h.thrown
    cases t with
    | early i c ev hp he =>
      simp only [St.goto, St.emit]
      intro j e hj
      split at hj
      · next e' =>
        subst e'
        rcases ha : (H.act j c s.st).1 with _ | o | x <;> rw [ha] at hj <;> simp [after] at hj
        subst hj
        rw [h.st] at ha
        refine ⟨s.log, [], c, ev, rfl, ?_, ha⟩
        rcases hp with ⟨_, rfl⟩ | ⟨e', _, rfl, rfl⟩
        · exact .inl rfl
        · exact .inr ⟨e', rfl, rfl⟩
      · exact (h1 j e hj).snoc _
    | late i c ev hp he hl =>
      simp only [St.goto, St.emit]
      intro j e hj
      split at hj
      · next e' =>
        subst e'
        rcases ha : (H.act j c s.st).1 with _ | o | x <;> rw [ha] at hj <;> simp [after] at hj
        subst hj
        rw [h.st] at ha
        refine ⟨s.log, [], c, ev, rfl, ?_, ha⟩
        rcases hp with ⟨_, rfl⟩ | ⟨e', _, rfl, rfl⟩
        · exact .inl rfl
        · exact .inr ⟨e', rfl, rfl⟩
      · exact (h1 j e hj).snoc _
    | finNext i v p hc hp => rcases hp with rfl | ⟨e, rfl⟩ <;> simp only [St.goto, St.emit] <;> grind [Threw.snoc]
    | _ => simp only [St.goto, St.emit] <;> grind [Threw.snoc]
  · have hl := h.legal
    cases t with
    | recv i c hc ha hd hs =>
      refine hl.snoc ⟨(h.active i).1 ha, fun t ht => ?_⟩
      have := (h.done i).2 ⟨t, ht⟩; rw [hd] at this; cases this
    | opn k hc ha hd hs hk hdy =>
      have h1 : ¬ (k ∈ H.start ∨ .opened k ∈ s.log) := fun hh => by have := (h.active k).2 hh; rw [hk] at this; cases this
      refine hl.snoc ⟨fun hh => h1 (.inl hh), fun hh => h1 (.inr hh), fun t ht => ?_⟩
      have := (h.done 0).2 ⟨t, ht⟩; rw [hd] at this; cases this
    | early i c ev hp he =>
      refine hl.snoc ?_
      rcases hp with ⟨hp, rfl⟩ | ⟨e, hp, rfl, rfl⟩
      · have := h.recv i; rw [hp] at this
        exact mem_received.1 (by rw [this]; simp [Pc.pend])
      · exact h.thrown i e (.inl hp)
    | late i c ev hp he hlk =>
      refine hl.snoc ?_
      rcases hp with ⟨hp, rfl⟩ | ⟨e, hp, rfl, rfl⟩
      · have := h.recv i; rw [hp] at this
        exact mem_received.1 (by rw [this]; simp [Pc.pend])
      · exact h.thrown i e (.inl hp)
    | beg i o hc hg =>
      refine hl.snoc ⟨?_, ?_, ?_⟩
      · cases hb : busy s.log
        · rfl
        · obtain ⟨j, hj⟩ := h.busy.1 hb
          have := h.unique (i := i) (by rw [hc]; rfl) (holds_of_inCb hj)
          subst this; rw [hc] at hj; cases hj
      · exact fun hh => by rw [h.gone hh] at hg; cases hg
      · intro hh
        rcases h.ended hh with h1 | ⟨j, hj⟩
        · rw [hg] at h1; cases h1
        · have := h.unique (i := i) (by rw [hc]; rfl) (holds_of_ending hj)
          subst this; rw [hc] at hj; cases hj
    | own i e hc hg =>
      refine hl.snoc ⟨?_, ?_, ?_⟩
      · cases hb : busy s.log
        · rfl
        · obtain ⟨j, hj⟩ := h.busy.1 hb
          have := h.unique (i := i) (by rw [hc]; rfl) (holds_of_inCb hj)
          subst this; rw [hc] at hj; cases hj
      · exact fun hh => by rw [h.gone hh] at hg; cases hg
      · intro hh
        rcases h.ended hh with h1 | ⟨j, hj⟩
        · rw [hg] at h1; cases h1
        · have := h.unique (i := i) (by rw [hc]; rfl) (holds_of_ending hj)
          subst this; rw [hc] at hj; cases hj
    | finNext i v p hc hp => exact hl.snoc (h.busy.2 ⟨i, by rw [hc]; rfl⟩)
    | finTerm i hc => exact hl.snoc (h.busy.2 ⟨i, by rcases hc with ⟨t, hc⟩ | hc <;> rw [hc] <;> rfl⟩)
    | gone hg => exact hl.snoc trivial
    | _ => exact hl

theorem inv2 (H : Hub α β ε σ) (ls : List (Lbl α ε)) : Inv2 H (exec H ls) :=
  exec_induct H ⟨.init H, by simp [Hub.initSt], by intro pre ev post h; simp [Hub.initSt] at h⟩ (fun _ _ h t => h.tr t) ls

end Rpp.Comb
