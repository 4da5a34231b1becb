import Verif.Time.Stages

/-!
# Proofs about pipelines cut into stages
-/

namespace Rpp.Stages
open Rpp.Time (Delay.St Delay.Item Delay.CPc Delay.TPc)
open Rpp.Time.Delay (upToTerm arrivals delivered Last)

/-! ## Pieces -/

theorem opTrans_append {ε α β σ : Type} (P : OpStrategy α β ε σ) (a b : List (Call α ε)) :
    ∀ s, P.trans s a <+: P.trans s (a ++ b) := by
  induction a with
  | nil => intro s; exact List.nil_prefix
  | cons c a ih =>
    intro s
    simp only [List.cons_append, OpStrategy.trans]
    exact List.prefix_append_right_inj _ |>.2 (ih _)

theorem trans_mono {ε : Type} : {α β : Type} → (p : Pipe ε α β) → (a b : List (Call α ε)) → a <+: b →
    p.trans a <+: p.trans b
  | _, _, .nil, _, _, h => h
  | _, _, .cons o p, a, b, h => by
    obtain ⟨m, rfl⟩ := h
    exact trans_mono p _ _ ((List.prefix_append_right_inj _).2 (opTrans_append _ _ _ _))

theorem outs_mono {ε α β : Type} (p : Pipe ε α β) {a b : List (Delay.Item α ε)} (h : a <+: b) :
    outs p a <+: outs p b := by
  have h1 : a.map toCall <+: b.map toCall := by
    obtain ⟨m, rfl⟩ := h; simp
  obtain ⟨m, hm⟩ := trans_mono p _ _ h1
  exact ⟨m.filterMap ofCall, by rw [outs, outs, ← hm, List.filterMap_append]⟩

theorem upToTerm_append_of_term {α ε : Type} (a b : List (Delay.Item α ε))
    (h : a.any Time.Delay.Item.term = true) : upToTerm (a ++ b) = upToTerm a := by
  induction a with
  | nil => simp at h
  | cons x a ih =>
    simp only [List.cons_append, upToTerm]
    by_cases hx : x.term = true
    · simp [hx]
    · simp only [hx, Bool.false_eq_true, if_false]
      rw [ih (by simpa [hx] using h)]

theorem upToTerm_eq {α ε : Type} (a : List (Delay.Item α ε))
    (h : a.any Time.Delay.Item.term = false) : upToTerm a = a :=
  Time.Delay.upToTerm_none a (by
    intro x hx
    rw [List.any_eq_false] at h
    simpa using h x hx)

theorem upToTerm_self {α ε : Type} (a : List (Delay.Item α ε)) : upToTerm a <+: a := by
  induction a with
  | nil => exact List.nil_prefix
  | cons x a ih =>
    simp only [upToTerm]
    by_cases hx : x.term = true
    · simp [hx]
    · simp only [hx, Bool.false_eq_true, if_false]
      exact (List.prefix_cons_inj x).2 ih

theorem upToTerm_mono {α ε : Type} {a b : List (Delay.Item α ε)} (h : a <+: b) : upToTerm a <+: upToTerm b := by
  obtain ⟨m, rfl⟩ := h
  cases ht : a.any Time.Delay.Item.term with
  | true => rw [upToTerm_append_of_term a m ht]; exact List.prefix_rfl
  | false =>
    rw [upToTerm_eq a ht]
    induction a with
    | nil => exact List.nil_prefix
    | cons x a ih =>
      rw [List.any_cons, Bool.or_eq_false_iff] at ht
      simp only [List.cons_append, upToTerm, ht.1, Bool.false_eq_true, if_false]
      exact (List.prefix_cons_inj x).2 (ih ht.2)

/-- A beginning in which nothing follows a terminal notification. -/
theorem prefix_upToTerm {α ε : Type} {a b : List (Delay.Item α ε)} (h : a <+: b)
    (hl : ∀ pre x rest, a = pre ++ x :: rest → x.term = true → rest = []) : a <+: upToTerm b := by
  have : upToTerm a = a := by
    clear h
    induction a with
    | nil => rfl
    | cons x a ih =>
      simp only [upToTerm]
      by_cases hx : x.term = true
      · simp [hx, hl [] x a rfl hx]
      · simp only [hx, Bool.false_eq_true, if_false]
        rw [ih (fun pre y rest h hy => hl (x :: pre) y rest (by simp [h]) hy)]
  rw [← this]
  exact upToTerm_mono h

/-- What a piece's notifications denote. -/
theorem traceOf_items {α ε : Type} (cs : List (Call α ε)) :
    traceOf ((upToTerm (cs.filterMap ofCall)).map toCall) = traceOf cs := by
  induction cs with
  | nil => rfl
  | cons c cs ih =>
    cases c with
    | next a =>
      simp only [List.filterMap_cons, ofCall, upToTerm, Time.Delay.Item.term, Bool.false_eq_true, if_false,
        List.map_cons, toCall, traceOf_next, ih]
    | error e => simp [ofCall, upToTerm, Time.Delay.Item.term, toCall]
    | completed => simp [ofCall, upToTerm, Time.Delay.Item.term, toCall]
    | up d => exact ih

theorem outs_spec {ε α β : Type} (p : Pipe ε α β) (hp : p.WF) (ins : List (Delay.Item α ε)) :
    traceOf ((upToTerm (outs p ins)).map toCall) = p.spec (traceOf (ins.map toCall)) := by
  rw [outs, traceOf_items, Pipe.trans_spec p hp]

/-! ## What the subscriber would see if every cut were transparent -/

/-- Used in the proofs; models no code. -/
def Chain.sees {ε : Type} [DecidableEq ε] (ov : ε) : {α γ : Type} → [DecidableEq γ] → (react : List (Call γ ε) → Reaction ε) →
    (c : Chain ε α γ) → List (Delay.Item α ε) → List (Call γ ε)
  | _, _, _, react, .last p, ins => subscriberSees none ov react p (ins.map toCall)
  | _, _, _, react, .stage p _ _ rest, ins => rest.sees ov react (upToTerm (outs p ins))

theorem user_run_mono {γ ε : Type} [DecidableEq γ] [DecidableEq ε] (ov : ε) (react : List (Call γ ε) → Reaction ε)
    (cs : List (Call γ ε)) : ∀ s : UserSt γ ε, evsOf s.log <+: evsOf ((userObs none ov react).run s cs).log := by
  induction cs with
  | nil => intro s; exact List.prefix_rfl
  | cons c cs ih => intro s; exact (Cross.user_mono ov c s).trans (ih _)

theorem subscriberSees_mono {ε α γ : Type} [DecidableEq γ] [DecidableEq ε] (ov : ε) (react : List (Call γ ε) → Reaction ε)
    (p : Pipe ε α γ) {a b : List (Call α ε)} (h : a <+: b) :
    subscriberSees none ov react p a <+: subscriberSees none ov react p b := by
  unfold subscriberSees subscriber
  rw [Pipe.final_run userObs_lawful {} p a, Pipe.final_run userObs_lawful {} p b]
  obtain ⟨m, hm⟩ := trans_mono p _ _ h
  rw [← hm, Obs.run_append]
  exact user_run_mono ov react m _

theorem subscriber_disposed {ε α γ : Type} [DecidableEq γ] [DecidableEq ε] (ov : ε) (react : List (Call γ ε) → Reaction ε)
    (p : Pipe ε α γ) {a b : List (Call α ε)} (h : a <+: b) (hd : (subscriber none ov react p a).disposed = true) :
    subscriberSees none ov react p b = subscriberSees none ov react p a := by
  unfold subscriberSees
  unfold subscriber at *
  rw [Pipe.final_run userObs_lawful {} p a] at *
  rw [Pipe.final_run userObs_lawful {} p b]
  obtain ⟨m, hm⟩ := trans_mono p _ _ h
  rw [← hm, Obs.run_append]
  exact (run_of_disposed hd m).1

theorem Chain.sees_mono {ε : Type} [DecidableEq ε] (ov : ε) : {α γ : Type} → [DecidableEq γ] →
    (react : List (Call γ ε) → Reaction ε) → (c : Chain ε α γ) → (a b : List (Delay.Item α ε)) → a <+: b →
    c.sees ov react a <+: c.sees ov react b
  | _, _, _, react, .last p, a, b, h => subscriberSees_mono ov react p (by obtain ⟨m, rfl⟩ := h; simp)
  | _, _, _, react, .stage p _ _ rest, a, b, h => rest.sees_mono ov react _ _ (upToTerm_mono (outs_mono p h))

theorem Chain.flat_WF {ε : Type} : {α γ : Type} → (c : Chain ε α γ) → c.WF → c.flat.WF
  | _, _, .last _, h => h.1
  | _, _, .stage p _ _ rest, h => p.append_WF _ h.1 (rest.flat_WF h.2.2)

theorem Chain.sees_deliver {ε : Type} [DecidableEq ε] (ov : ε) : {α γ : Type} → [DecidableEq γ] →
    (react : List (Call γ ε) → Reaction ε) → (c : Chain ε α γ) → c.WF → (a : List (Delay.Item α ε)) →
    c.sees ov react a = deliver react [] (c.flat.spec (traceOf (a.map toCall))).vals (c.flat.spec (traceOf (a.map toCall))).fin
  | _, _, _, react, .last p, h, a => by
    classical exact C04_pipeline none ov react p h.1 _ (fun _ h => by cases h)
  | _, _, _, react, .stage p _ _ rest, h, a => by
    show rest.sees ov react (upToTerm (outs p a)) = _
    rw [rest.sees_deliver ov react h.2.2, outs_spec p h.1]
    show _ = deliver react [] ((p.append rest.flat).spec _).vals ((p.append rest.flat).spec _).fin
    rw [Pipe.append_spec]

theorem Chain.sees_flat {ε α γ : Type} [DecidableEq ε] (ov : ε) [DecidableEq γ]
    (react : List (Call γ ε) → Reaction ε) (c : Chain ε α γ) (h : c.WF) (a : List (Delay.Item α ε)) :
    c.sees ov react a = subscriberSees none ov react c.flat (a.map toCall) := by
  classical
  rw [c.sees_deliver ov react h, C04_pipeline none ov react c.flat (c.flat_WF h) _ (fun _ h => by cases h)]

/-- Whatever else the chain is given, the subscriber sees nothing more. -/
def Chain.Final {ε α γ : Type} [DecidableEq ε] (ov : ε) [DecidableEq γ] (react : List (Call γ ε) → Reaction ε)
    (c : Chain ε α γ) (s : c.State) : Prop :=
  ∀ b, c.ins s <+: b → c.sees ov react b = c.sees ov react (c.ins s)

/-! ## Invariant -/

/-- The notification a call is bringing; models no code. -/
def flying {α ε : Type} : Delay.CPc α ε → List (Delay.Item α ε)
  | .checked x => [x]
  | _ => []

/-- Used in the proofs; models no code. -/
structure LinkOk {ε α β : Type} (p : Pipe ε α β) (clr : Bool) (d : Nat) (k : Link α β ε) : Prop where
  reach : ∃ ls, k.st = Time.Delay.exec clr d ls
  one : ∀ i, i ≠ 0 → k.st.calls i = .idle
  sent : k.sent ≤ (outs p k.ins).length
  acc : (∀ e t, .failed e t ∉ k.st.log) → ∃ lost,
    (arrivals k.st.log).map (·.1) ++ flying (k.st.calls 0) ++ lost = (outs p k.ins).take k.sent ∧
    (lost ≠ [] → k.st.disposed = true)

/-- Used in the proofs; `u`: somebody may have disposed.  Models no code. -/
def Chain.Good {ε : Type} [DecidableEq ε] (ov : ε) (u : Bool) : {α γ : Type} → [DecidableEq γ] →
    (react : List (Call γ ε) → Reaction ε) → (c : Chain ε α γ) → c.State → Prop
  | _, _, _, _, .last _, _ => True
  | _, _, _, react, .stage p clr d rest, s =>
    LinkOk p clr d s.1 ∧ rest.ins s.2 = (delivered s.1.st.log).map (·.1) ∧
    (.gone ∈ s.1.st.log → u = true ∨ (rest.NoError s.2 → rest.Final ov react s.2)) ∧ rest.Good ov u react s.2

/-! ## Lemmas about one cut -/

section
variable {α ε : Type}

theorem delivered_step (clr d) (s : Delay.St α ε) (l) :
    (delivered (Time.Delay.step clr d s l).log).map (·.1) =
      (delivered s.log).map (·.1) ++ (starts s l).toList := by
  cases l with
  | tick k => simp [Time.Delay.step, starts]
  | dispose => simp [Time.Delay.step, starts, Time.Delay.St.emit, Time.Delay.delivered_append, delivered]
  | arrive i x =>
    simp only [Time.Delay.step, starts, Option.toList, List.append_nil]
    split
    · split <;> rfl
    · rfl
  | call i =>
    simp only [Time.Delay.step, Time.Delay.stepCall, starts]
    split
    · next h => simp [h]
    · next x h =>
      simp only [h]
      split
      · simp
      · split
        · simp [Time.Delay.St.emit, Time.Delay.St.setCall, Time.Delay.delivered_append, delivered]
        · simp only [Time.Delay.St.emplace]
          split <;> simp [Time.Delay.St.emit, Time.Delay.St.setCall, Time.Delay.delivered_append, delivered]
    · next h => simp [h, Time.Delay.St.setTask, Time.Delay.St.setCall]
    · next e h =>
      simp only [h]
      split <;> simp [Time.Delay.St.emit, Time.Delay.St.setCall, Time.Delay.delivered_append, delivered]
    · next e h => simp [h, Time.Delay.St.emit, Time.Delay.St.setCall, Time.Delay.delivered_append, delivered]
  | task t =>
    simp only [Time.Delay.step, Time.Delay.stepTask, starts]
    split
    · next h => simp [h]
    · next h => simp [h]
    · next h => simp [h, Time.Delay.St.setTask]
    · next h =>
      simp only [h]
      split
      · simp
      · split
        · simp [Time.Delay.St.setTask]
        · split <;> simp [Time.Delay.St.emit, Time.Delay.St.setTask, Time.Delay.delivered_append, delivered]
    · next x tp h =>
      simp only [h]
      split <;> simp [Time.Delay.St.emit, Time.Delay.St.setTask, Time.Delay.delivered_append, delivered]
    · next x h => simp [h, Time.Delay.St.emit, Time.Delay.St.setTask, Time.Delay.delivered_append, delivered]

/-- The steps of a cut other than an arrival; models no code. -/
def plain : Time.Delay.Lbl α ε → Bool
  | .arrive .. => false
  | .call i => i == 0
  | _ => true

theorem tr_log {clr d} {s s' : Delay.St α ε} (h : Time.Delay.Tr clr d s s') : s.log <+: s'.log := by
  cases h <;> simp

theorem step_log (clr d) (s : Delay.St α ε) (l) : s.log <+: (Time.Delay.step clr d s l).log := by
  rcases Time.Delay.step_tr clr d s l with h | h
  · rw [h]; exact List.prefix_rfl
  · exact tr_log h

theorem arrivals_append (l m : List (Time.Delay.Ev α ε)) : arrivals (l ++ m) = arrivals l ++ arrivals m := by
  induction l with
  | nil => rfl
  | cons e l ih => cases e <;> simp [arrivals, ih]

theorem step_disposed (clr d) (s : Delay.St α ε) (l) (h : s.disposed = true) :
    (Time.Delay.step clr d s l).disposed = true := by
  rcases Time.Delay.step_tr clr d s l with h' | h'
  · rw [h']; exact h
  · revert h'
    generalize Time.Delay.step clr d s l = s'
    intro h'
    cases h' <;> simp_all

theorem step_gone (clr d) (s : Delay.St α ε) (l) (h : .gone ∈ (Time.Delay.step clr d s l).log) (hl : l ≠ .dispose) :
    .gone ∈ s.log := by
  cases l with
  | tick k => exact h
  | dispose => exact absurd rfl hl
  | arrive i x =>
    simp only [Time.Delay.step] at h
    split at h
    · split at h <;> exact h
    · exact h
  | call i =>
    simp only [Time.Delay.step, Time.Delay.stepCall] at h
    split at h
    · exact h
    · split at h
      · exact h
      · split at h
        · simpa [Time.Delay.St.emit, Time.Delay.St.setCall] using h
        · simp only [Time.Delay.St.emplace] at h
          split at h <;> simpa [Time.Delay.St.emit, Time.Delay.St.setCall] using h
    · exact h
    · split at h <;> simpa [Time.Delay.St.emit, Time.Delay.St.setCall] using h
    · simpa [Time.Delay.St.emit, Time.Delay.St.setCall] using h
  | task t =>
    simp only [Time.Delay.step, Time.Delay.stepTask] at h
    split at h
    · exact h
    · exact h
    · exact h
    · split at h
      · exact h
      · split at h
        · exact h
        · split at h <;> simpa [Time.Delay.St.emit, Time.Delay.St.setTask] using h
    · split at h <;> simpa [Time.Delay.St.emit, Time.Delay.St.setTask] using h
    · simpa [Time.Delay.St.emit, Time.Delay.St.setTask] using h

theorem step_arrivals (clr d) (s : Delay.St α ε) (l) (hl : plain l = true)
    (hf : ∀ e t, .failed e t ∉ (Time.Delay.step clr d s l).log) :
    (arrivals (Time.Delay.step clr d s l).log).map (·.1) ++ flying ((Time.Delay.step clr d s l).calls 0) =
      (arrivals s.log).map (·.1) ++ flying (s.calls 0) := by
  cases l with
  | tick k => rfl
  | dispose => simp [Time.Delay.step, Time.Delay.St.emit, arrivals_append, arrivals]
  | arrive i x => cases hl
  | call i =>
    have : i = 0 := by simpa [plain] using hl
    subst this
    revert hf
    simp only [Time.Delay.step, Time.Delay.stepCall]
    split
    · next h => intro _; rfl
    · next x h =>
      split
      · intro _; rfl
      · split
        · intro hf
          exfalso
          exact hf _ _ (by simp only [Time.Delay.St.emit, Time.Delay.St.setCall]; exact List.mem_append_right _ (List.mem_singleton.2 rfl))
        · intro _
          simp only [Time.Delay.St.emplace]
          split <;> simp [Time.Delay.St.emit, Time.Delay.St.setCall, arrivals_append, arrivals, flying, h]
    · next h => intro _; simp [h, Time.Delay.St.setTask, Time.Delay.St.setCall, flying]
    · next e h =>
      intro _
      split <;> simp [h, Time.Delay.St.emit, Time.Delay.St.setCall, arrivals_append, arrivals, flying]
    · next e h => intro _; simp [h, Time.Delay.St.emit, Time.Delay.St.setCall, arrivals_append, arrivals, flying]
  | task t =>
    clear hf
    simp only [Time.Delay.step, Time.Delay.stepTask]
    split
    · rfl
    · rfl
    · rfl
    · split
      · rfl
      · split
        · rfl
        · split <;> simp [Time.Delay.St.emit, Time.Delay.St.setTask, arrivals_append, arrivals]
    · split <;> simp [Time.Delay.St.emit, Time.Delay.St.setTask, arrivals_append, arrivals]
    · simp [Time.Delay.St.emit, Time.Delay.St.setTask, arrivals_append, arrivals]

theorem step_one (clr d) (s : Delay.St α ε) (l) (hl : plain l = true ∨ ∃ y, l = .arrive 0 y)
    (h : ∀ i, i ≠ 0 → s.calls i = .idle) : ∀ i, i ≠ 0 → (Time.Delay.step clr d s l).calls i = .idle := by
  intro i hi
  have := h i hi
  cases l with
  | tick k => exact this
  | dispose => exact this
  | arrive j x =>
    have : j = 0 := by rcases hl with hl | ⟨y, hl⟩ <;> cases hl; rfl
    subst this
    simp only [Time.Delay.step]
    split
    · split
      · exact h i hi
      · simp [Time.Delay.St.setCall, hi, h i hi]
    · exact h i hi
  | call j =>
    have : j = 0 := by rcases hl with hl | ⟨y, hl⟩ <;> simp_all [plain]
    subst this
    rw [← h i hi]
    exact Time.Delay.stepCall_other hi
  | task t =>
    simp only [Time.Delay.step, Time.Delay.stepTask]
    split
    · exact this
    · exact this
    · exact this
    · split
      · exact this
      · split
        · exact this
        · split <;> exact this
    · split <;> exact this
    · exact this

/-- An error got to the cut and threw away the queue. -/
def Failed (s : Delay.St α ε) : Prop := ∃ e t, Time.Delay.Ev.failed e t ∈ s.log

theorem Failed.tr {clr d} {s s' : Delay.St α ε} (h : Failed s) (t : Time.Delay.Tr clr d s s') : Failed s' := by
  obtain ⟨e, u, h⟩ := h
  exact ⟨e, u, (tr_log t).subset h⟩

/-- Callbacks made by the error path belong to an error that got to the cut. -/
structure InvE (clr : Bool) (s : Delay.St α ε) : Prop where
  locks : ∀ i, (s.calls i).locks = true → Failed s
  queued : Failed s ∨ ∀ b ∈ delivered s.log, Time.Delay.queued clr b = true

theorem InvE.of_failed {clr} {s : Delay.St α ε} (h : Failed s) : InvE clr s := ⟨fun _ _ => h, .inl h⟩

theorem InvE.tr {clr d} {s s' : Delay.St α ε} {held lost} (h : InvE clr s) (hD : Time.Delay.InvD clr d s held lost)
    (t : Time.Delay.Tr clr d s s') : InvE clr s' := by
  have hk : ∀ i, (s.calls i).locks = true → Failed s' := fun i hi => (h.locks i hi).tr t
  by_cases hf : Failed s
  · exact ⟨fun _ _ => hf.tr t, .inl (hf.tr t)⟩
  · have hq : ∀ b ∈ delivered s.log, Time.Delay.queued clr b = true := by
      rcases h.queued with h | h
      · exact absurd h hf
      · exact h
    have hnl : ∀ i, (s.calls i).locks = false := fun i => by
      cases hc : (s.calls i).locks
      · rfl
      · exact absurd (h.locks i hc) hf
    cases t
    case clear i e hi hm hc =>
      exact .of_failed ⟨e, s.now, List.mem_append_right _ (List.mem_singleton.2 rfl)⟩
    case errDrop i e hi hd => have := hnl i; rw [hi] at this; cases this
    case errBeg i e hi hd => have := hnl i; rw [hi] at this; cases this
    case errFin i e hi => have := hnl i; rw [hi] at this; cases this
    case beg t x tp ht hd =>
      refine ⟨hk, .inr ?_⟩
      intro b hb
      simp only [Time.Delay.delivered_append, delivered, List.mem_append, List.mem_singleton] at hb
      rcases hb with hb | rfl
      · exact hq b hb
      · have hh := hD.heldT t x tp ht hd
        have := hD.nerr (x, tp) (by rw [hh]; simp)
        exact this
    all_goals
      refine ⟨?_, .inr ?_⟩
      · first
          | exact hk
          | (intro j hj
             have := hnl j
             simp only at hj
             split at hj
             · cases hj
             · rw [this] at hj; cases hj)
      · simpa [Time.Delay.delivered_append, delivered] using hq

theorem invE (clr d) (ls : List (Time.Delay.Lbl α ε)) : InvE clr (Time.Delay.exec clr d ls) := by
  refine (Time.Delay.exec_induct clr d (P := fun s => InvE clr s ∧ Time.Delay.InvF s ∧ (∃ own, Time.Delay.InvO clr s own) ∧
    (∃ held lost, Time.Delay.InvD clr d s held lost)) ?_ ?_ ls).1
  · obtain ⟨h1, h2, h3, -⟩ := Time.Delay.all_inv (α := α) (ε := ε) clr d []
    refine ⟨⟨?_, .inr ?_⟩, h1, h2, h3⟩
    · intro i hi; cases hi
    · intro b hb; cases hb
  · rintro s s' ⟨h, hf, ⟨own, ho⟩, held, lost, hD⟩ t
    exact ⟨h.tr hD t, hf.tr t, ho.tr hf t, hD.tr ho hf t⟩

theorem drained_eq (clr d) (ls : List (Time.Delay.Lbl α ε)) (hf : ∀ e t, .failed e t ∉ (Time.Delay.exec clr d ls).log) :
    Time.Delay.drained clr (Time.Delay.exec clr d ls).log = delivered (Time.Delay.exec clr d ls).log := by
  have h := (invE clr d ls).queued
  rcases h with ⟨e, t, h⟩ | h
  · exact absurd h (hf e t)
  · exact List.filter_eq_self.2 h

theorem last_of (clr d) (ls : List (Time.Delay.Lbl α ε)) (hf : ∀ e t, .failed e t ∉ (Time.Delay.exec clr d ls).log) :
    Last (Time.Delay.exec clr d ls).log := by
  cases clr with
  | false => exact Time.Delay.last_inv d ls
  | true =>
    refine Time.Delay.C37_terminal_last_partial d ls ?_
    rintro ⟨pre, e, t, rest, h, -⟩
    exact hf e t (by rw [h]; simp)

/-- What the observer behind the cut was given is a beginning of what was handed to the cut. -/
theorem delivered_prefix (clr d) (ls : List (Time.Delay.Lbl α ε)) (hf : ∀ e t, .failed e t ∉ (Time.Delay.exec clr d ls).log) :
    (delivered (Time.Delay.exec clr d ls).log).map (·.1) <+: (arrivals (Time.Delay.exec clr d ls).log).map (·.1) := by
  obtain ⟨-, -, ⟨held, lost, hD⟩, -⟩ := Time.Delay.all_inv clr d ls
  have := hD.mat.prefix
  rwa [drained_eq clr d ls hf] at this

theorem last_items {log : List (Time.Delay.Ev α ε)} (h : Last log) : ∀ pre x rest,
    (delivered log).map (·.1) = pre ++ x :: rest → x.term = true → rest = [] := by
  intro pre x rest hp hx
  obtain ⟨a, b, h1, h2, h3⟩ := List.map_eq_append_iff.1 hp
  cases b with
  | nil => cases h3
  | cons y b =>
    rw [List.map_cons] at h3
    injection h3 with h4 h5
    have := h a y b h1 (by rw [h4]; exact hx)
    rw [← h5, this]; rfl

end

/-! ## One cut, seen from the chain -/

section
variable {ε α β : Type} {p : Pipe ε α β} {clr : Bool} {d : Nat} {k : Link α β ε}

theorem LinkOk.prefix (h : LinkOk p clr d k) (hf : ∀ e t, .failed e t ∉ k.st.log) :
    (delivered k.st.log).map (·.1) <+: outs p k.ins := by
  obtain ⟨ls, hr⟩ := h.reach
  obtain ⟨lost, ha, -⟩ := h.acc hf
  have h1 : (delivered k.st.log).map (·.1) <+: (arrivals k.st.log).map (·.1) := by
    rw [hr] at hf ⊢; exact delivered_prefix clr d ls hf
  refine h1.trans (List.IsPrefix.trans ?_ (List.take_prefix k.sent _))
  rw [← ha, List.append_assoc]
  exact List.prefix_append ..

theorem LinkOk.prefix_term (h : LinkOk p clr d k) (hf : ∀ e t, .failed e t ∉ k.st.log) :
    (delivered k.st.log).map (·.1) <+: upToTerm (outs p k.ins) := by
  refine prefix_upToTerm (h.prefix hf) (last_items ?_)
  obtain ⟨ls, hr⟩ := h.reach
  rw [hr] at hf ⊢
  exact last_of clr d ls hf

/-- Everything was handed over. -/
theorem LinkOk.all (h : LinkOk p clr d k) (hf : ∀ e t, .failed e t ∉ k.st.log) (hp : pending p k = [])
    (hq : Time.Delay.Quiescent k.st) (hg : .gone ∉ k.st.log) :
    (delivered k.st.log).map (·.1) = upToTerm (outs p k.ins) := by
  obtain ⟨ls, hr⟩ := h.reach
  obtain ⟨lost, ha, hlost⟩ := h.acc hf
  have hsent : (outs p k.ins).take k.sent = outs p k.ins := by
    exact List.take_of_length_le (List.drop_eq_nil_iff.1 hp)
  rw [hsent, hq.1 0] at ha
  simp only [flying, List.append_nil] at ha
  have hl : (delivered k.st.log).map (·.1) = upToTerm ((arrivals k.st.log).map (·.1)) := by
    rw [hr] at hf hq hg ⊢
    exact Time.Delay.lossless clr d ls hq hg (last_of clr d ls hf) (drained_eq clr d ls hf)
  rw [hl, ← ha]
  cases lost with
  | nil => simp
  | cons y lost =>
    have hd := hlost (by simp)
    symm
    apply upToTerm_append_of_term
    have hT : Time.Delay.anyTerm k.st.log = true := by
      obtain ⟨-, -, -, -, hT⟩ := Time.Delay.all_inv clr d ls
      rw [← hr] at hT
      rcases hT.t2 hd with h | h
      · exact h
      · rw [List.any_eq_true] at h
        obtain ⟨e, he, h⟩ := h
        cases e <;> simp [Time.Delay.Ev.isGone] at h
        exact absurd he hg
    have h1 : (delivered k.st.log).map (·.1) <+: (arrivals k.st.log).map (·.1) := by
      rw [hr] at hf ⊢; exact delivered_prefix clr d ls hf
    obtain ⟨m, hm⟩ := h1
    rw [← hm, List.any_append, List.any_map, Bool.or_eq_true]
    exact .inl hT

theorem LinkOk.disposed_term (h : LinkOk p clr d k) (hf : ∀ e t, .failed e t ∉ k.st.log) (hd : k.st.disposed = true)
    (hg : .gone ∉ k.st.log) : (outs p k.ins).any Time.Delay.Item.term = true := by
  obtain ⟨ls, hr⟩ := h.reach
  obtain ⟨-, -, -, -, hT⟩ := Time.Delay.all_inv clr d ls
  rw [← hr] at hT
  have : Time.Delay.anyTerm k.st.log = true := by
    rcases hT.t2 hd with h | h
    · exact h
    · rw [List.any_eq_true] at h
      obtain ⟨e, he, h⟩ := h
      cases e <;> simp [Time.Delay.Ev.isGone] at h
      exact absurd he hg
  obtain ⟨m, hm⟩ := h.prefix hf
  rw [← hm, List.any_append, List.any_map, Bool.or_eq_true]
  exact .inl this

theorem LinkOk.step (h : LinkOk p clr d k) (l : Time.Delay.Lbl β ε) (hl : plain l = true) :
    LinkOk p clr d { k with st := Time.Delay.step clr d k.st l } := by
  obtain ⟨ls, hr⟩ := h.reach
  refine ⟨⟨ls ++ [l], by rw [Time.Delay.exec_snoc, ← hr]⟩, step_one clr d _ l (.inl hl) h.one, h.sent, ?_⟩
  intro hf
  have hf0 : ∀ e t, .failed e t ∉ k.st.log := fun e t hm => hf e t ((step_log clr d k.st l).subset hm)
  obtain ⟨lost, ha, hlost⟩ := h.acc hf0
  refine ⟨lost, ?_, fun hn => step_disposed clr d _ l (hlost hn)⟩
  show List.map _ (arrivals (Time.Delay.step clr d k.st l).log) ++ flying ((Time.Delay.step clr d k.st l).calls 0) ++ lost = _
  rw [step_arrivals clr d k.st l hl hf]
  exact ha

theorem LinkOk.push (h : LinkOk p clr d k) (y : Delay.Item β ε) (r : List (Delay.Item β ε)) (hp : pending p k = y :: r)
    (hi : k.st.calls 0 = .idle) :
    LinkOk p clr d { k with sent := k.sent + 1, st := Time.Delay.step clr d k.st (.arrive 0 y) } := by
  obtain ⟨ls, hr⟩ := h.reach
  have hlt : k.sent < (outs p k.ins).length := by
    rcases Nat.lt_or_ge k.sent (outs p k.ins).length with h | h
    · exact h
    · rw [pending, List.drop_eq_nil_iff.2 h] at hp; cases hp
  have hy : (outs p k.ins).take (k.sent + 1) = (outs p k.ins).take k.sent ++ [y] := by
    rw [List.take_succ]
    have : (outs p k.ins)[k.sent]? = some y := by
      have := congrArg (·[0]?) hp
      simpa [pending, List.getElem?_drop] using this
    rw [this]; rfl
  refine ⟨⟨ls ++ [.arrive 0 y], by rw [Time.Delay.exec_snoc, ← hr]⟩, step_one clr d _ _ (.inr ⟨y, rfl⟩) h.one, hlt, ?_⟩
  intro hf
  have hf0 : ∀ e t, .failed e t ∉ k.st.log := fun e t hm => hf e t ((step_log clr d k.st _).subset hm)
  obtain ⟨lost, ha, hlost⟩ := h.acc hf0
  rw [hi] at ha
  simp only [flying, List.append_nil] at ha
  simp only [hy, ← ha]
  cases hd : k.st.disposed with
  | true =>
    have : Time.Delay.step clr d k.st (.arrive 0 y) = k.st := by simp [Time.Delay.step, hi, hd]
    rw [this, hi]
    exact ⟨lost ++ [y], by simp [flying], fun _ => hd⟩
  | false =>
    have hl0 : lost = [] := by
      cases lost with
      | nil => rfl
      | cons z m => have := hlost (by simp); rw [hd] at this; cases this
    have : Time.Delay.step clr d k.st (.arrive 0 y) = k.st.setCall 0 (.checked y) := by simp [Time.Delay.step, hi, hd]
    rw [this, hl0]
    exact ⟨[], by simp [flying, Time.Delay.St.setCall], fun h => absurd rfl h⟩

theorem LinkOk.offer (h : LinkOk p clr d k) (x : Delay.Item α ε) : LinkOk p clr d { k with ins := k.ins ++ [x] } := by
  obtain ⟨m, hm⟩ := outs_mono p (List.prefix_append k.ins [x])
  refine ⟨h.reach, h.one, ?_, fun hf => ?_⟩
  · show k.sent ≤ (outs p (k.ins ++ [x])).length
    rw [← hm, List.length_append]
    have := h.sent
    omega
  · obtain ⟨lost, ha, hlost⟩ := h.acc hf
    refine ⟨lost, ?_, hlost⟩
    show _ = List.take k.sent (outs p (k.ins ++ [x]))
    rw [← hm, List.take_append_of_le_length h.sent]
    exact ha

theorem LinkOk.init : LinkOk p clr d ({} : Link α β ε) :=
  ⟨⟨[], rfl⟩, fun _ _ => rfl, Nat.zero_le _, fun _ => ⟨[], by simp [arrivals, flying], fun h => absurd rfl h⟩⟩

end

/-! ## The chain -/

theorem Chain.ins_offer {ε : Type} : {α γ : Type} → (c : Chain ε α γ) → (s : c.State) → (x : Delay.Item α ε) →
    c.ins (c.offer s x) = c.ins s ++ [x]
  | _, _, .last _, _, _ => rfl
  | _, _, .stage .., _, _ => rfl

theorem Chain.noError_offer {ε : Type} : {α γ : Type} → (c : Chain ε α γ) → (s : c.State) → (x : Delay.Item α ε) →
    (c.NoError (c.offer s x) ↔ c.NoError s)
  | _, _, .last _, _, _ => Iff.rfl
  | _, _, .stage .., _, _ => Iff.rfl

theorem Chain.seen_le {ε : Type} [DecidableEq ε] (ov : ε) : {α γ : Type} → [DecidableEq γ] →
    (react : List (Call γ ε) → Reaction ε) → (c : Chain ε α γ) → (s : c.State) → (x : Delay.Item α ε) →
    c.seen ov react s <+: c.seen ov react (c.offer s x)
  | _, _, _, react, .last p, s, x => subscriberSees_mono ov react p (by
      show List.map toCall (s : List _) <+: List.map toCall ((show List (Delay.Item _ ε) from s) ++ [x])
      rw [List.map_append]; exact List.prefix_append ..)
  | _, _, _, _, .stage .., _, _ => List.prefix_rfl

section
variable {ε : Type} [DecidableEq ε] {ov : ε}

theorem Chain.good_offer {u : Bool} : {α γ : Type} → [DecidableEq γ] → {react : List (Call γ ε) → Reaction ε} →
    (c : Chain ε α γ) → (s : c.State) → (x : Delay.Item α ε) → c.Good ov u react s → c.Good ov u react (c.offer s x)
  | _, _, _, _, .last _, _, _, h => h
  | _, _, _, _, .stage .., _, x, h => ⟨h.1.offer x, h.2.1, h.2.2.1, h.2.2.2⟩

theorem Chain.final_offer {α γ : Type} [DecidableEq γ] {react : List (Call γ ε) → Reaction ε}
    (c : Chain ε α γ) (s : c.State) (x : Delay.Item α ε) (h : c.Final ov react s) : c.Final ov react (c.offer s x) := by
  intro b hb
  rw [c.ins_offer] at hb ⊢
  rw [h b ((List.prefix_append ..).trans hb), h _ (List.prefix_append ..)]

/-- Used in the proofs; models no code. -/
def Chain.offer? {α γ : Type} (c : Chain ε α γ) (s : c.State) : Option (Delay.Item α ε) → c.State
  | some x => c.offer s x
  | none => s

/-- The steps at a cut that change something; models no code. -/
inductive Cut {α β γ : Type} [DecidableEq γ] (ov : ε) (react : List (Call γ ε) → Reaction ε) (p : Pipe ε α β) (clr : Bool)
    (d : Nat) (rest : Chain ε β γ) (k : Link α β ε) (r : rest.State) (a : Act) : Link α β ε × rest.State → Prop where
  | push (y m) (hp : pending p k = y :: m) (hi : k.st.calls 0 = .idle) :
      Cut ov react p clr d rest k r a ({ k with sent := k.sent + 1, st := Time.Delay.step clr d k.st (.arrive 0 y) }, r)
  | plain (l) (hl : plain l = true) (hd : l ≠ .dispose) :
      Cut ov react p clr d rest k r a ({ k with st := Time.Delay.step clr d k.st l }, rest.offer? r (starts k.st l))
  | dispose (h : rest.closed ov react r = true ∨ a = .dispose) :
      Cut ov react p clr d rest k r a ({ k with st := Time.Delay.step clr d k.st .dispose }, r)

theorem cutAct_cut {α β γ : Type} [DecidableEq γ] {react : List (Call γ ε) → Reaction ε} (p : Pipe ε α β) (clr : Bool)
    (d : Nat) (rest : Chain ε β γ) (s : Link α β ε × rest.State) (a : Act) :
    cutAct ov react p clr d rest s a = s ∨ Cut ov react p clr d rest s.1 s.2 a (cutAct ov react p clr d rest s a) := by
  have hadv : ∀ l, Stages.plain l = true → l ≠ .dispose → advance clr d rest s l = s ∨
      Cut ov react p clr d rest s.1 s.2 a (advance clr d rest s l) := by
    intro l hl hd
    unfold advance
    by_cases hb : (returns s.1.st l && rest.busy s.2) = true
    · exact .inl (by rw [if_pos hb])
    · right
      rw [if_neg hb]
      have := Cut.plain (ov := ov) (react := react) (p := p) (clr := clr) (d := d) (k := s.1) (r := s.2) (a := a) l hl hd
      cases hst : starts s.1.st l <;> rw [hst] at this <;> exact this
  cases a with
  | push =>
    simp only [cutAct]
    split
    · exact .inl rfl
    · next y m hp =>
      split
      · next hi =>
        refine .inr (.push y m hp ?_)
        revert hi
        cases s.1.st.calls 0 <;> simp [isIdle]
      · exact .inl rfl
  | call => exact hadv _ rfl (by simp)
  | task t => exact hadv _ rfl (by simp)
  | tick k => exact .inr (.plain (.tick k) rfl (by simp))
  | close =>
    simp only [cutAct]
    split
    · next h => exact .inr (.dispose (.inl h))
    · exact .inl rfl
  | dispose => exact .inr (.dispose (.inr rfl))

theorem Chain.ins_act : {α γ : Type} → [DecidableEq γ] → {react : List (Call γ ε) → Reaction ε} →
    (c : Chain ε α γ) → (s : c.State) → (n : Nat) → (a : Act) → c.ins (c.act ov react s n a) = c.ins s
  | _, _, _, _, .last _, _, _, _ => by simp [Chain.act]
  | _, _, _, react, .stage p clr d rest, s, 0, a => by
    show (cutAct ov react p clr d rest s a).1.ins = s.1.ins
    rcases cutAct_cut (ov := ov) (react := react) p clr d rest s a with h | h
    · rw [h]
    · revert h
      generalize cutAct ov react p clr d rest s a = s'
      intro h
      cases h <;> rfl
  | _, _, _, _, .stage p clr d rest, s, n + 1, a => rfl

theorem Chain.noError_act : {α γ : Type} → [DecidableEq γ] → {react : List (Call γ ε) → Reaction ε} →
    (c : Chain ε α γ) → (s : c.State) → (n : Nat) → (a : Act) → c.NoError (c.act ov react s n a) → c.NoError s
  | _, _, _, _, .last _, _, _, _, _ => trivial
  | _, _, _, react, .stage p clr d rest, s, 0, a, h => by
    have h : (∀ e t, .failed e t ∉ (cutAct ov react p clr d rest s a).1.st.log) ∧
      rest.NoError (cutAct ov react p clr d rest s a).2 := h
    show (∀ e t, .failed e t ∉ s.1.st.log) ∧ rest.NoError s.2
    have key : ∀ l, (∀ e t, .failed e t ∉ (Time.Delay.step clr d s.1.st l).log) → ∀ e t, .failed e t ∉ s.1.st.log :=
      fun l hf e t hm => hf e t ((step_log clr d s.1.st l).subset hm)
    rcases cutAct_cut (ov := ov) (react := react) p clr d rest s a with h' | h'
    · rw [h'] at h; exact h
    · revert h h'
      generalize cutAct ov react p clr d rest s a = s'
      intro h h'
      cases h' with
      | push y m hp hi => exact ⟨key _ h.1, h.2⟩
      | plain l hl hd =>
        refine ⟨key _ h.1, ?_⟩
        revert h
        cases starts s.1.st l with
        | none => exact fun h => h.2
        | some x => exact fun h => (rest.noError_offer s.2 x).1 h.2
      | dispose h' => exact ⟨key _ h.1, h.2⟩
  | _, _, _, _, .stage p clr d rest, s, n + 1, a, h => ⟨h.1, rest.noError_act s.2 n a h.2⟩

/-- A chain that is over shows nothing more. -/
theorem Chain.closed_final : {α γ : Type} → [DecidableEq γ] → {react : List (Call γ ε) → Reaction ε} →
    (c : Chain ε α γ) → (s : c.State) → c.Good ov false react s → c.NoError s → c.closed ov react s = true →
    c.Final ov react s
  | _, _, _, react, .last p, s, _, _, hc => by
    intro b hb
    exact subscriber_disposed ov react p (by obtain ⟨m, rfl⟩ := hb; rw [List.map_append]; exact List.prefix_append ..) hc
  | _, _, _, react, .stage p clr d rest, s, hg, hn, hc => by
    obtain ⟨hk, hdel, hgone, hrest⟩ := hg
    intro b hb
    have hb : s.1.ins <+: b := hb
    show rest.sees ov react (upToTerm (outs p b)) = rest.sees ov react (upToTerm (outs p s.1.ins))
    have hterm : (outs p s.1.ins).any Time.Delay.Item.term = true → 
        rest.sees ov react (upToTerm (outs p b)) = rest.sees ov react (upToTerm (outs p s.1.ins)) := by
      intro ht
      obtain ⟨m, hm⟩ := outs_mono p hb
      rw [← hm, upToTerm_append_of_term _ _ ht]
    have hc : (((outs p s.1.ins).take s.1.sent).any Time.Delay.Item.term || s.1.st.disposed) = true := hc
    rw [Bool.or_eq_true] at hc
    rcases hc with hc | hc
    · apply hterm
      rw [List.any_eq_true] at hc ⊢
      obtain ⟨x, hx, ht⟩ := hc
      exact ⟨x, List.mem_of_mem_take hx, ht⟩
    · by_cases hgo : .gone ∈ s.1.st.log
      · rcases hgone hgo with h | h
        · cases h
        · have hF := h hn.2
          have h1 := hk.prefix_term hn.1
          rw [← hdel] at h1
          rw [hF _ h1, hF _ (h1.trans (upToTerm_mono (outs_mono p hb)))]
      · exact hterm (hk.disposed_term hn.1 hc hgo)

theorem Chain.final_act {α γ : Type} [DecidableEq γ] {react : List (Call γ ε) → Reaction ε} (c : Chain ε α γ) (s : c.State)
    (n : Nat) (a : Act) (h : c.Final ov react s) : c.Final ov react (c.act ov react s n a) := by
  intro b hb
  rw [c.ins_act] at hb ⊢
  exact h b hb

theorem Chain.good_act {u : Bool} : {α γ : Type} → [DecidableEq γ] → {react : List (Call γ ε) → Reaction ε} →
    (c : Chain ε α γ) → (s : c.State) → (n : Nat) → (a : Act) → (a ≠ .dispose ∨ u = true) → c.Good ov u react s →
    c.Good ov u react (c.act ov react s n a)
  | _, _, _, _, .last _, _, _, _, _, _ => trivial
  | _, _, _, react, .stage p clr d rest, s, 0, a, ha, hg => by
    obtain ⟨hk, hdel, hgone, hrest⟩ := hg
    show LinkOk p clr d (cutAct ov react p clr d rest s a).1 ∧
      rest.ins (cutAct ov react p clr d rest s a).2 = (delivered (cutAct ov react p clr d rest s a).1.st.log).map (·.1) ∧
      (.gone ∈ (cutAct ov react p clr d rest s a).1.st.log → u = true ∨
        (rest.NoError (cutAct ov react p clr d rest s a).2 → rest.Final ov react (cutAct ov react p clr d rest s a).2)) ∧
      rest.Good ov u react (cutAct ov react p clr d rest s a).2
    rcases cutAct_cut (ov := ov) (react := react) p clr d rest s a with h' | h'
    · rw [h']; exact ⟨hk, hdel, hgone, hrest⟩
    · revert h'
      generalize cutAct ov react p clr d rest s a = s'
      intro h'
      cases h' with
      | push y m hp hi =>
        refine ⟨hk.push y m hp hi, ?_, fun h => hgone (step_gone clr d _ _ h (by simp)), hrest⟩
        show rest.ins s.2 = (delivered (Time.Delay.step clr d s.1.st (.arrive 0 y)).log).map (·.1)
        rw [delivered_step, hdel]
        simp [starts]
      | plain l hl hd =>
        refine ⟨hk.step l hl, ?_, ?_, ?_⟩
        · show rest.ins _ = (delivered (Time.Delay.step clr d s.1.st l).log).map (·.1)
          rw [delivered_step, ← hdel]
          cases starts s.1.st l with
          | none => simp [Chain.offer?]
          | some x => exact rest.ins_offer s.2 x
        · intro h
          rcases hgone (step_gone clr d _ _ h hd) with h | h
          · exact .inl h
          · right
            cases starts s.1.st l with
            | none => exact h
            | some x => exact fun hn => rest.final_offer s.2 x (h ((rest.noError_offer s.2 x).1 hn))
        · cases starts s.1.st l with
          | none => exact hrest
          | some x => exact rest.good_offer s.2 x hrest
      | dispose h =>
        refine ⟨hk.step .dispose rfl, ?_, ?_, hrest⟩
        · show rest.ins s.2 = (delivered (Time.Delay.step clr d s.1.st .dispose).log).map (·.1)
          rw [delivered_step, hdel]
          simp [starts]
        · intro _
          rcases h with h | h
          · cases u with
            | true => exact .inl rfl
            | false => exact .inr fun hn => rest.closed_final s.2 hrest hn h
          · rcases ha with ha | ha
            · exact absurd h ha
            · exact .inl ha
  | _, _, _, react, .stage p clr d rest, s, n + 1, a, ha, hg => by
    obtain ⟨hk, hdel, hgone, hrest⟩ := hg
    refine ⟨hk, ?_, ?_, rest.good_act s.2 n a ha hrest⟩
    · show rest.ins (rest.act ov react s.2 n a) = _
      rw [rest.ins_act]; exact hdel
    · intro h
      rcases hgone h with h | h
      · exact .inl h
      · exact .inr fun hn => rest.final_act s.2 n a (h (rest.noError_act s.2 n a hn))

theorem ins_init : {α γ : Type} → (c : Chain ε α γ) → c.ins c.init = []
  | _, _, .last _ => rfl
  | _, _, .stage .. => rfl

theorem Chain.good_init {u : Bool} : {α γ : Type} → [DecidableEq γ] → {react : List (Call γ ε) → Reaction ε} →
    (c : Chain ε α γ) → c.Good ov u react c.init
  | _, _, _, _, .last _ => trivial
  | _, _, _, _, .stage p clr d rest => ⟨.init, ins_init rest, (fun h => by cases h), rest.good_init⟩

theorem Chain.good_step {u : Bool} {α γ : Type} [DecidableEq γ] {react : List (Call γ ε) → Reaction ε} (c : Chain ε α γ)
    (s : c.State) (l : Lbl α ε) (hl : (∀ n, l ≠ .act n .dispose) ∨ u = true) (h : c.Good ov u react s) :
    c.Good ov u react (c.step ov react s l) := by
  cases l with
  | src x =>
    simp only [Chain.step]
    split
    · exact h
    · exact c.good_offer s x h
  | act n a =>
    refine c.good_act s n a ?_ h
    rcases hl with hl | hl
    · exact .inl fun ha => hl n (by rw [ha])
    · exact .inr hl

theorem Chain.good_run {u : Bool} {α γ : Type} [DecidableEq γ] {react : List (Call γ ε) → Reaction ε} (c : Chain ε α γ)
    (ls : List (Lbl α ε)) (hl : (∀ n, .act n .dispose ∉ ls) ∨ u = true) : c.Good ov u react (c.run ov react ls) := by
  suffices h : ∀ s, c.Good ov u react s → c.Good ov u react (ls.foldl (c.step ov react) s) from h _ c.good_init
  induction ls with
  | nil => exact fun s h => h
  | cons l ls ih =>
    intro s h
    refine ih ?_ _ (c.good_step s l ?_ h)
    · rcases hl with hl | hl
      · exact .inl fun n hn => hl n (List.mem_cons_of_mem _ hn)
      · exact .inr hl
    · rcases hl with hl | hl
      · exact .inl fun n hn => hl n (by rw [hn]; exact List.mem_cons_self)
      · exact .inr hl

/-- What the subscriber saw is a beginning of what it would have seen. -/
theorem Chain.good_prefix {u : Bool} : {α γ : Type} → [DecidableEq γ] → {react : List (Call γ ε) → Reaction ε} →
    (c : Chain ε α γ) → (s : c.State) → c.Good ov u react s → c.NoError s →
    c.seen ov react s <+: c.sees ov react (c.ins s)
  | _, _, _, _, .last _, _, _, _ => List.prefix_rfl
  | _, _, _, react, .stage p clr d rest, s, hg, hn => by
    obtain ⟨hk, hdel, -, hrest⟩ := hg
    refine (rest.good_prefix s.2 hrest hn.2).trans (rest.sees_mono ov react _ _ ?_)
    rw [hdel]
    exact hk.prefix_term hn.1

theorem Chain.good_all : {α γ : Type} → [DecidableEq γ] → {react : List (Call γ ε) → Reaction ε} →
    (c : Chain ε α γ) → (s : c.State) → c.Good ov false react s → c.NoError s → c.Quiet s →
    c.seen ov react s = c.sees ov react (c.ins s)
  | _, _, _, _, .last _, _, _, _, _ => rfl
  | _, _, _, react, .stage p clr d rest, s, hg, hn, hq => by
    obtain ⟨hk, hdel, hgone, hrest⟩ := hg
    refine (rest.good_all s.2 hrest hn.2 hq.2.2).trans ?_
    show _ = rest.sees ov react (upToTerm (outs p s.1.ins))
    by_cases hgo : .gone ∈ s.1.st.log
    · rcases hgone hgo with h | h
      · cases h
      · have h1 := hk.prefix_term hn.1
        rw [← hdel] at h1
        exact (h hn.2 _ h1).symm
    · rw [hdel, hk.all hn.1 hq.1 hq.2.1 hgo]

end

end Rpp.Stages
