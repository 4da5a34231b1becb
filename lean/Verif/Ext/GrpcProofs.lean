import Verif.Ext.GrpcSpec
import Verif.Scheduler.CurrentThreadProofs

/-!
# gRPC reactors: invariants
-/

namespace Rpp.Grpc

variable {α β : Type}

/-! ## Proofs -/

section snoc
variable (l : List (Ev α β)) (e : Ev α β)

theorem taken_append (l l' : List (Ev α β)) : taken (l ++ l') = taken l ++ taken l' := by
  fun_induction taken l <;> simp_all [taken]
theorem written_append (l l' : List (Ev α β)) : written (l ++ l') = written l ++ written l' := by
  fun_induction written l <;> simp_all [written]
theorem acks_append (l l' : List (Ev α β)) : acks (l ++ l') = acks l + acks l' := by
  fun_induction acks l <;> simp_all [acks] <;> omega
theorem ends_append (l l' : List (Ev α β)) : ends (l ++ l') = ends l ++ ends l' := by
  fun_induction ends l <;> simp_all [ends]
theorem closes_append (l l' : List (Ev α β)) : closes (l ++ l') = closes l ++ closes l' := by
  fun_induction closes l <;> simp_all [closes]
theorem received_append (l l' : List (Ev α β)) : received (l ++ l') = received l ++ received l' := by
  fun_induction received l <;> simp_all [received]
theorem shown_append (l l' : List (Ev α β)) : shown (l ++ l') = shown l ++ shown l' := by
  fun_induction shown l <;> simp_all [shown]
theorem terms_append (l l' : List (Ev α β)) : terms (l ++ l') = terms l ++ terms l' := by
  fun_induction terms l <;> simp_all [terms]
theorem wire_snoc : wire (l ++ [e]) = wireStep (wire l) e := by simp [wire]
theorem phase_snoc : phase (l ++ [e]) = phaseStep (phase l) e := by simp [phase]
theorem reads_snoc : reads (l ++ [e]) = readStep (reads l) e := by simp [reads]
theorem finishes_append (k : Kind) (l l' : List (Ev α β)) : finishes k (l ++ l') = finishes k l ++ finishes k l' := by
  fun_induction finishes k l <;> simp_all [finishes]

end snoc

/-- Where the writer stands. -/
def St.wireState (s : St α β) : Wire :=
  if s.outstanding then .writing else if s.queue.isEmpty then (if s.finished then .closed else .idle) else .broken

/-- A place in a longer list is the last one or a place in the shorter list. -/
theorem split_snoc {γ : Type} {l l1 l2 : List γ} {e x : γ} (h : l ++ [e] = l1 ++ x :: l2) :
    (l2 = [] ∧ x = e ∧ l1 = l) ∨ ∃ l2', l2 = l2' ++ [e] ∧ l = l1 ++ x :: l2' := by
  rcases List.eq_nil_or_concat l2 with rfl | ⟨l2', y, rfl⟩
  · rw [List.append_eq_append_iff] at h
    rcases h with ⟨a, h1, h2⟩ | ⟨a, h1, h2⟩
    · rcases a with _ | ⟨b, a⟩
      · simp at h1 h2; exact .inl ⟨rfl, h2.symm, h1⟩
      · simp at h2
    · rcases a with _ | ⟨b, a⟩
      · simp at h1 h2; exact .inl ⟨rfl, h2, h1.symm⟩
      · simp at h2
  · have h' : l ++ [e] = (l1 ++ x :: l2') ++ [y] := by simpa using h
    have h2 := List.append_inj' h' rfl
    simp at h2
    exact .inr ⟨l2', by simp [h2.2], h2.1⟩

/-- The status the writer ends with if `on_error` reaches it after `l1`. -/
def errorStatus (l1 : List (Ev α β)) : Status := if acks l1 = (taken l1).length then .internal else .ok

/-- The writer's invariant. -/
structure WInv (s : St α β) : Prop where
  n_le : acks s.log ≤ (taken s.log).length
  queue : s.queue = (taken s.log).drop (acks s.log)
  writ : written s.log = (taken s.log).take (acks s.log + 1)
  outst : s.outstanding = true → s.queue ≠ []
  wire : wire s.log = some s.wireState
  fin : s.finished = true ↔ ends s.log ≠ []
  obs : s.obsDone = s.finished
  one : (ends s.log).length ≤ 1
  cl : (closes s.log).length = if s.finished = true ∧ s.queue = [] then 1 else 0
  clOk : ends s.log = [true] → ∀ st ∈ closes s.log, st = .ok
  clErr : ∀ l1 l2, s.log = l1 ++ .took .error :: l2 → ∀ st ∈ closes s.log, st = errorStatus l1
  errPend : ∀ l1 l2, s.log = l1 ++ .took .error :: l2 → s.queue ≠ [] → errorStatus l1 = .ok

/-- Events the writer does not take part in. -/
def Ev.foreign : Ev α β → Bool
  | .took _ | .write _ | .wrote _ | .close _ => false
  | _ => true

section
variable (l : List (Ev α β)) (e : Ev α β)

theorem taken_foreign (h : e.foreign = true) : taken (l ++ [e]) = taken l := by
  rw [taken_append]; cases e <;> simp_all [Ev.foreign, taken]
theorem written_foreign (h : e.foreign = true) : written (l ++ [e]) = written l := by
  rw [written_append]; cases e <;> simp_all [Ev.foreign, written]
theorem acks_foreign (h : e.foreign = true) : acks (l ++ [e]) = acks l := by
  rw [acks_append]; cases e <;> simp_all [Ev.foreign, acks]
theorem ends_foreign (h : e.foreign = true) : ends (l ++ [e]) = ends l := by
  rw [ends_append]; cases e <;> simp_all [Ev.foreign, ends]
theorem closes_foreign (h : e.foreign = true) : closes (l ++ [e]) = closes l := by
  rw [closes_append]; cases e <;> simp_all [Ev.foreign, closes]
theorem wire_foreign (h : e.foreign = true) : wire (l ++ [e]) = wire l := by
  rw [wire_snoc]; cases e <;> simp_all [Ev.foreign, wireStep]

end

/-- What the writer owns of the state. -/
def SameWriter (s t : St α β) : Prop :=
  t.queue = s.queue ∧ t.outstanding = s.outstanding ∧ t.finished = s.finished ∧ t.obsDone = s.obsDone

theorem WInv.same {s t : St α β} (h : WInv s) (hs : SameWriter s t) (hl : t.log = s.log) : WInv t := by
  obtain ⟨h1, h2, h3, h4⟩ := hs
  have hw : t.wireState = s.wireState := by simp only [St.wireState, h1, h2, h3]
  constructor <;> simp only [hl, h1, h2, h3, h4, hw]
  · exact h.n_le
  · exact h.queue
  · exact h.writ
  · exact h.outst
  · exact h.wire
  · exact h.fin
  · exact h.obs
  · exact h.one
  · exact h.cl
  · exact h.clOk
  · exact h.clErr
  · exact h.errPend

theorem WInv.foreign {s t : St α β} (h : WInv s) (e : Ev α β) (he : e.foreign = true) (hs : SameWriter s t)
    (hl : t.log = s.log ++ [e]) : WInv t := by
  obtain ⟨h1, h2, h3, h4⟩ := hs
  have hw : t.wireState = s.wireState := by simp only [St.wireState, h1, h2, h3]
  constructor <;> simp only [hl, h1, h2, h3, h4, hw, taken_foreign _ e he, written_foreign _ e he, acks_foreign _ e he,
    ends_foreign _ e he, closes_foreign _ e he, wire_foreign _ e he]
  · exact h.n_le
  · exact h.queue
  · exact h.writ
  · exact h.outst
  · exact h.wire
  · exact h.fin
  · exact h.obs
  · exact h.one
  · exact h.cl
  · exact h.clOk
  · intro l1 l2 h12
    rcases split_snoc h12 with ⟨-, rfl, -⟩ | ⟨l2', -, h'⟩
    · simp [Ev.foreign] at he
    · exact h.clErr l1 l2' h'
  · intro l1 l2 h12 hq
    rcases split_snoc h12 with ⟨-, rfl, -⟩ | ⟨l2', -, h'⟩
    · simp [Ev.foreign] at he
    · exact h.errPend l1 l2' h' hq

theorem WInv.init (k : Kind) : WInv (init k : St α β) := by
  cases k <;> constructor <;> simp [Grpc.init, Kind.reads, taken, acks, written, ends, closes, Grpc.wire, wireStep, St.wireState]
  all_goals
    intro l1 l2 h
    cases l1 <;> simp at h

theorem WInv.take (k : Kind) {s : St α β} (h : WInv s) (ho : s.obsDone = false) (e : Emit α) : WInv (s.take k e) := by
  have hf : s.finished = false := by rw [← h.obs]; exact ho
  have he : ends s.log = [] := by
    have := h.fin; rw [hf] at this; simpa using this
  have hc : closes s.log = [] := by
    have := h.cl; simp only [hf] at this; simpa using this
  have noErr : ∀ l1 l2, s.log ≠ l1 ++ .took .error :: l2 := by
    intro l1 l2 h12
    rw [h12, ends_append] at he
    simp [ends] at he
  have hq := h.queue
  have hn := h.n_le
  have hw := h.writ
  cases e with
  | next a =>
    simp only [St.take, St.say]
    by_cases hq0 : s.queue = []
    · have hlen : (taken s.log).length = acks s.log := by
        rw [hq0] at hq; have := congrArg List.length hq; simp at this; omega
      have hout : s.outstanding = false := by
        cases ho : s.outstanding with
        | false => rfl
        | true => exact absurd hq0 (h.outst ho)
      have hwire := h.wire
      simp only [St.wireState, hout, hq0, hf] at hwire
      simp only [hq0, List.nil_append, List.length_singleton, beq_self_eq_true, if_true, St.startWrite, St.say]
      constructor <;> simp only [List.append_assoc, List.cons_append, List.nil_append]
      · simp [taken_append, acks_append, taken, acks]; omega
      · simp [taken_append, acks_append, taken, acks, ← hlen]
      · simp [taken_append, acks_append, written_append, taken, acks, written, hw, ← hlen]
        rw [List.take_of_length_le (by simp), List.take_of_length_le (by simp)]
      · intro _; simp
      · rw [show s.log ++ [Ev.took (Emit.next a), Ev.write a] = (s.log ++ [Ev.took (Emit.next a)]) ++ [Ev.write a] by simp,
          wire_snoc, wire_snoc, hwire]
        simp [wireStep, St.wireState]
      · simp [ends_append, ends, he, hf]
      · exact h.obs
      · simp [ends_append, ends, he]
      · simp [closes_append, closes, hc, hf]
      · simp [ends_append, ends, he]
      · intro l1 l2 h12 st hst
        simp [closes_append, closes, hc] at hst
      · intro l1 l2 h12 _
        have h12' : (s.log ++ [Ev.took (Emit.next a)]) ++ [Ev.write a] = l1 ++ Ev.took Emit.error :: l2 := by simpa using h12
        rcases split_snoc h12' with ⟨-, h', -⟩ | ⟨l2', -, h'⟩
        · cases h'
        · rcases split_snoc h' with ⟨-, h', -⟩ | ⟨l3, -, h''⟩
          · cases h'
          · exact absurd h'' (noErr _ _)
    · have hne : ¬ (s.queue ++ [a]).length = 1 := by
        cases hs : s.queue with
        | nil => exact absurd hs hq0
        | cons => simp
      have hlt : acks s.log < (taken s.log).length := by
        apply Nat.lt_of_not_le
        intro hle
        exact hq0 (by rw [hq]; exact List.drop_eq_nil_of_le hle)
      have hwire := h.wire
      have hne' : ((s.queue ++ [a]).length == 1) = false := by simpa using hne
      simp only [hne', Bool.false_eq_true, if_false]
      constructor <;> simp only
      · simp [taken_append, acks_append, taken, acks]; omega
      · simp [taken_append, acks_append, taken, acks, hq, List.drop_append_of_le_length hn]
      · simp [taken_append, acks_append, written_append, taken, acks, written, hw]
        rw [List.take_append_of_le_length (by omega)]
      · intro _; simp
      · rw [wire_snoc, hwire]
        cases hs : s.queue with
        | nil => exact absurd hs hq0
        | cons b q => simp [wireStep, St.wireState, hs]
      · simp [ends_append, ends, he, hf]
      · exact h.obs
      · simp [ends_append, ends, he]
      · simp [closes_append, closes, hc, hf]
      · simp [ends_append, ends, he]
      · intro l1 l2 h12 st hst
        simp [closes_append, closes, hc] at hst
      · intro l1 l2 h12 _
        rcases split_snoc h12 with ⟨-, h', -⟩ | ⟨l2', -, h'⟩
        · cases h'
        · exact absurd h' (noErr _ _)
  | error =>
    simp only [St.take, St.say]
    by_cases hq0 : s.queue = []
    · have hlen : (taken s.log).length = acks s.log := by
        rw [hq0] at hq; have := congrArg List.length hq; simp at this; omega
      have hout : s.outstanding = false := by
        cases ho : s.outstanding with
        | false => rfl
        | true => exact absurd hq0 (h.outst ho)
      have hwire := h.wire
      simp only [St.wireState, hout, hq0, hf] at hwire
      simp only [hq0, List.length_nil, beq_self_eq_true, if_true, St.close, St.say]
      constructor <;> simp only [List.append_assoc, List.cons_append, List.nil_append]
      · simp [taken_append, acks_append, taken, acks]; omega
      · simp [taken_append, acks_append, taken, acks, hlen]
      · simp [taken_append, acks_append, written_append, taken, acks, written, hw]
      · intro h'; rw [hout] at h'; cases h'
      · rw [show s.log ++ [Ev.took Emit.error, Ev.close Status.internal] = (s.log ++ [Ev.took Emit.error]) ++ [Ev.close Status.internal] by simp,
          wire_snoc, wire_snoc, hwire]
        simp [wireStep, St.wireState, hout]
      · simp [ends_append, ends, he]
      · simp [ends_append, ends, he]
      · simp [closes_append, closes, hc]
      · simp [ends_append, ends, he]
      · intro l1 l2 h12 st hst
        have h12' : (s.log ++ [Ev.took Emit.error]) ++ [Ev.close Status.internal] = l1 ++ Ev.took Emit.error :: l2 := by
          simpa using h12
        simp [closes_append, closes, hc] at hst
        subst hst
        rcases split_snoc h12' with ⟨-, h', -⟩ | ⟨l2', -, h'⟩
        · cases h'
        · rcases split_snoc h' with ⟨-, -, rfl⟩ | ⟨l3, -, h''⟩
          · simp [errorStatus, hlen]
          · exact absurd h'' (noErr _ _)
      · intro l1 l2 h12 hq'; exact absurd rfl hq'
    · have hlt : acks s.log < (taken s.log).length := by
        apply Nat.lt_of_not_le
        intro hle
        exact hq0 (by rw [hq]; exact List.drop_eq_nil_of_le hle)
      have hwire := h.wire
      have hne' : (s.queue.length == 0) = false := by simpa using hq0
      simp only [hne', Bool.false_eq_true, if_false]
      constructor <;> simp only
      · simp [taken_append, acks_append, taken, acks]; omega
      · simp [taken_append, acks_append, taken, acks, hq]
      · simp [taken_append, acks_append, written_append, taken, acks, written, hw]
      · exact h.outst
      · rw [wire_snoc, hwire]
        cases hs : s.queue with
        | nil => exact absurd hs hq0
        | cons b q => simp [wireStep, St.wireState, hs]
      · simp [ends_append, ends, he]
      · simp [ends_append, ends, he]
      · simp [closes_append, closes, hc, hq0]
      · simp [ends_append, ends, he]
      · intro l1 l2 h12 st hst
        simp [closes_append, closes, hc] at hst
      · intro l1 l2 h12 _
        rcases split_snoc h12 with ⟨-, -, rfl⟩ | ⟨l2', -, h'⟩
        · simp only [errorStatus]; rw [if_neg (by omega)]
        · exact absurd h' (noErr _ _)
  | completed =>
    simp only [St.take, St.say]
    by_cases hq0 : s.queue = []
    · have hlen : (taken s.log).length = acks s.log := by
        rw [hq0] at hq; have := congrArg List.length hq; simp at this; omega
      have hout : s.outstanding = false := by
        cases ho : s.outstanding with
        | false => rfl
        | true => exact absurd hq0 (h.outst ho)
      have hwire := h.wire
      simp only [St.wireState, hout, hq0, hf] at hwire
      simp only [hq0, List.length_nil, beq_self_eq_true, if_true, St.close, St.say]
      constructor <;> simp only [List.append_assoc, List.cons_append, List.nil_append]
      · simp [taken_append, acks_append, taken, acks]; omega
      · simp [taken_append, acks_append, taken, acks, hlen]
      · simp [taken_append, acks_append, written_append, taken, acks, written, hw]
      · intro h'; rw [hout] at h'; cases h'
      · rw [show s.log ++ [Ev.took Emit.completed, Ev.close Status.ok] = (s.log ++ [Ev.took Emit.completed]) ++ [Ev.close Status.ok] by simp,
          wire_snoc, wire_snoc, hwire]
        simp [wireStep, St.wireState, hout]
      · simp [ends_append, ends, he]
      · simp [ends_append, ends, he]
      · simp [closes_append, closes, hc]
      · simp [closes_append, closes, hc]
      · intro l1 l2 h12 st hst
        have h12' : (s.log ++ [Ev.took Emit.completed]) ++ [Ev.close Status.ok] = l1 ++ Ev.took Emit.error :: l2 := by
          simpa using h12
        rcases split_snoc h12' with ⟨-, h', -⟩ | ⟨l2', -, h'⟩
        · cases h'
        · rcases split_snoc h' with ⟨-, h', -⟩ | ⟨l3, -, h''⟩
          · cases h'
          · exact absurd h'' (noErr _ _)
      · intro l1 l2 h12 hq'; exact absurd rfl hq'
    · have hlt : acks s.log < (taken s.log).length := by
        apply Nat.lt_of_not_le
        intro hle
        exact hq0 (by rw [hq]; exact List.drop_eq_nil_of_le hle)
      have hwire := h.wire
      have hne' : (s.queue.length == 0) = false := by simpa using hq0
      simp only [hne', Bool.false_eq_true, if_false]
      constructor <;> simp only
      · simp [taken_append, acks_append, taken, acks]; omega
      · simp [taken_append, acks_append, taken, acks, hq]
      · simp [taken_append, acks_append, written_append, taken, acks, written, hw]
      · exact h.outst
      · rw [wire_snoc, hwire]
        cases hs : s.queue with
        | nil => exact absurd hs hq0
        | cons b q => simp [wireStep, St.wireState, hs]
      · simp [ends_append, ends, he]
      · simp [ends_append, ends, he]
      · simp [closes_append, closes, hc, hq0]
      · simp [closes_append, closes, hc]
      · intro l1 l2 h12 st hst
        simp [closes_append, closes, hc] at hst
      · intro l1 l2 h12 _
        rcases split_snoc h12 with ⟨-, h', -⟩ | ⟨l2', -, h'⟩
        · cases h'
        · exact absurd h' (noErr _ _)


theorem WInv.writeDone (k : Kind) {s : St α β} (h : WInv s) (ho : s.outstanding = true) :
    WInv (St.writeDone k ({ s with outstanding := false }.say (.wrote true))) := by
  have hq0 := h.outst ho
  have hq := h.queue
  have hn := h.n_le
  have hw := h.writ
  have hwire := h.wire
  simp only [St.wireState, ho, if_true] at hwire
  have hlt : acks s.log < (taken s.log).length := by
    apply Nat.lt_of_not_le
    intro hle
    exact hq0 (by rw [hq]; exact List.drop_eq_nil_of_le hle)
  have hc : closes s.log = [] := by
    have := h.cl; rw [if_neg (by simp [hq0])] at this; simpa using this
  have hd : s.queue.drop 1 = (taken s.log).drop (acks s.log + 1) := by rw [hq, List.drop_drop]
  simp only [St.writeDone, St.say]
  rcases hs : s.queue.drop 1 with _ | ⟨a, q⟩
  · have hlen : (taken s.log).length = acks s.log + 1 := by
      rw [hs] at hd; have := congrArg List.length hd; simp at this; omega
    simp only
    rcases hf : s.finished with _ | _
    · simp only [Bool.false_eq_true, if_false]
      have he : ends s.log = [] := by have := h.fin; rw [hf] at this; simpa using this
      constructor <;> simp only
      · simp [taken_append, acks_append, taken, acks]; omega
      · simp [taken_append, acks_append, taken, acks, hlen]
      · simp [taken_append, acks_append, written_append, taken, acks, written, hw]
        omega
      · intro h'; cases h'
      · rw [wire_snoc, hwire]; simp [wireStep, St.wireState]
      · simp [ends_append, ends, he]
      · rw [h.obs, hf]
      · simp [ends_append, ends, he]
      · simp [closes_append, closes, hc]
      · simp [closes_append, closes, hc]
      · intro l1 l2 h12 st hst
        simp [closes_append, closes, hc] at hst
      · intro l1 l2 h12 hq'; exact absurd rfl hq'
    · simp only [if_true, St.close, St.say]
      have he : ends s.log ≠ [] := h.fin.1 hf
      constructor <;> simp only [List.append_assoc, List.cons_append, List.nil_append]
      · simp [taken_append, acks_append, taken, acks]; omega
      · simp [taken_append, acks_append, taken, acks, hlen]
      · simp [taken_append, acks_append, written_append, taken, acks, written, hw]
        omega
      · intro h'; cases h'
      · rw [show s.log ++ [Ev.wrote true, Ev.close Status.ok] = (s.log ++ [Ev.wrote true]) ++ [Ev.close Status.ok] by simp,
          wire_snoc, wire_snoc, hwire]
        simp [wireStep, St.wireState]
      · simp [ends_append, ends, he]
      · rw [h.obs, hf]
      · simp [ends_append, ends, h.one]
      · simp [closes_append, closes, hc]
      · simp [closes_append, closes, hc]
      · intro l1 l2 h12 st hst
        simp [closes_append, closes, hc] at hst
        subst hst
        have h12' : (s.log ++ [Ev.wrote true]) ++ [Ev.close Status.ok] = l1 ++ Ev.took Emit.error :: l2 := by
          simpa using h12
        rcases split_snoc h12' with ⟨-, h', -⟩ | ⟨l2', -, h'⟩
        · cases h'
        · rcases split_snoc h' with ⟨-, h', -⟩ | ⟨l3, -, h''⟩
          · cases h'
          · exact (h.errPend l1 l3 h'' hq0).symm
      · intro l1 l2 h12 hq'; exact absurd rfl hq'
  · simp only [St.startWrite, St.say]
    have hget : (taken s.log)[acks s.log + 1]? = some a := by
      rw [hs] at hd; have := congrArg List.head? hd; simpa [List.head?_drop] using this.symm
    have hlt2 : acks s.log + 1 < (taken s.log).length := by
      rcases Nat.lt_or_ge (acks s.log + 1) (taken s.log).length with h' | h'
      · exact h'
      · rw [List.getElem?_eq_none h'] at hget; cases hget
    constructor <;> simp only [List.append_assoc, List.cons_append, List.nil_append]
    · simp [taken_append, acks_append, taken, acks]; omega
    · simp [taken_append, acks_append, taken, acks, ← hd, hs]
    · simp [taken_append, acks_append, written_append, taken, acks, written, hw]
      rw [List.take_succ (i := acks s.log + 1), hget]; rfl
    · intro _; simp
    · rw [show s.log ++ [Ev.wrote true, Ev.write a] = (s.log ++ [Ev.wrote true]) ++ [Ev.write a] by simp,
        wire_snoc, wire_snoc, hwire]
      simp [wireStep, St.wireState]
    · simp [ends_append, ends]; exact h.fin
    · exact h.obs
    · simp [ends_append, ends, h.one]
    · simp [closes_append, closes, hc]
    · simp [closes_append, closes, hc]
    · intro l1 l2 h12 st hst
      simp [closes_append, closes, hc] at hst
    · intro l1 l2 h12 _
      have h12' : (s.log ++ [Ev.wrote true]) ++ [Ev.write a] = l1 ++ Ev.took Emit.error :: l2 := by simpa using h12
      rcases split_snoc h12' with ⟨-, h', -⟩ | ⟨l2', -, h'⟩
      · cases h'
      · rcases split_snoc h' with ⟨-, h', -⟩ | ⟨l3, -, h''⟩
        · cases h'
        · exact h.errPend l1 l3 h'' hq0

theorem WInv.writeFailed {s : St α β} (h : WInv s) (ho : s.outstanding = true) :
    WInv ({ s with outstanding := false }.say (.wrote false)) := by
  have hq0 := h.outst ho
  have hwire := h.wire
  simp only [St.wireState, ho, if_true] at hwire
  simp only [St.say]
  constructor <;> simp only
  · simp [taken_append, acks_append, taken, acks, h.n_le]
  · simp [taken_append, acks_append, taken, acks, h.queue]
  · simp [taken_append, acks_append, written_append, taken, acks, written, h.writ]
  · intro h'; cases h'
  · rw [wire_snoc, hwire]
    cases hs : s.queue with
    | nil => exact absurd hs hq0
    | cons b q => simp [wireStep, St.wireState]
  · simp [ends_append, ends]; exact h.fin
  · exact h.obs
  · simp [ends_append, ends, h.one]
  · simp [closes_append, closes, h.cl]
  · simp [closes_append, closes, ends_append, ends]; exact h.clOk
  · intro l1 l2 h12 st hst
    rcases split_snoc h12 with ⟨-, h', -⟩ | ⟨l2', -, h'⟩
    · cases h'
    · simp [closes_append, closes] at hst
      exact h.clErr l1 l2' h' st hst
  · intro l1 l2 h12 hq
    rcases split_snoc h12 with ⟨-, h', -⟩ | ⟨l2', -, h'⟩
    · cases h'
    · exact h.errPend l1 l2' h' hq

theorem WInv.readerDone {s : St α β} (h : WInv s) (ok : Bool) : WInv (s.readerDone ok) := by
  simp only [St.readerDone]
  split
  · exact h.foreign (.term ok) rfl ⟨rfl, rfl, rfl, rfl⟩ rfl
  · exact h

theorem WInv.reach (k : Kind) (e : Emit α) {s : St α β} (h : WInv s) : WInv (s.reach k e) := by
  simp only [St.reach]
  split
  · exact h
  · rename_i ho
    split
    · exact h.foreign .useAfterFree rfl ⟨rfl, rfl, rfl, rfl⟩ rfl
    · exact h.take k (by simpa using ho) e

theorem WInv.step (k : Kind) {s : St α β} (h : WInv s) (l : Lbl α β) : WInv (step k s l) := by
  cases l with
  | emit e =>
    simp only [Grpc.step]
    split
    · cases e <;> exact h.same ⟨rfl, rfl, rfl, rfl⟩ rfl
    · exact h
  | deliver i =>
    simp only [Grpc.step]
    split
    · exact WInv.reach k _ (h.same ⟨rfl, rfl, rfl, rfl⟩ rfl)
    · exact h
  | deliverEnd =>
    simp only [Grpc.step]
    split
    · exact WInv.reach k _ (h.same ⟨rfl, rfl, rfl, rfl⟩ rfl)
    · exact h
  | onWriteDone ok =>
    simp only [Grpc.step]
    split
    · rename_i ho
      cases ok with
      | true => exact h.writeDone k ho
      | false =>
        have h' := h.writeFailed ho
        simp only [Bool.false_eq_true, if_false]
        split
        · exact h'.foreign (.finish .ok) rfl ⟨rfl, rfl, rfl, rfl⟩ rfl
        · exact h'
    · exact h
  | onReadDone m =>
    simp only [Grpc.step]
    split
    · cases m with
      | none =>
        have h' : WInv ({ s with reading := .none }.say (.got none)) := h.foreign (.got none) rfl ⟨rfl, rfl, rfl, rfl⟩ rfl
        simp only
        split
        · exact h'.foreign (.finish .ok) rfl ⟨rfl, rfl, rfl, rfl⟩ rfl
        · exact h'
      | some b =>
        have h' : WInv ({ s with reading := .delivering s.live }.say (.got (some b))) :=
          h.foreign (.got (some b)) rfl ⟨rfl, rfl, rfl, rfl⟩ rfl
        simp only
        split
        · exact h'.foreign (.nextBegin b) rfl ⟨rfl, rfl, rfl, rfl⟩ rfl
        · exact h'
    · exact h
  | readReturns =>
    simp only [Grpc.step]
    split
    · rename_i shown _
      cases shown with
      | true =>
        have h' : WInv (s.say .nextEnd) := h.foreign .nextEnd rfl ⟨rfl, rfl, rfl, rfl⟩ rfl
        exact h'.foreign .read rfl ⟨rfl, rfl, rfl, rfl⟩ rfl
      | false => exact h.foreign .read rfl ⟨rfl, rfl, rfl, rfl⟩ rfl
    · exact h
  | onCancel =>
    simp only [Grpc.step]
    split
    · have h' : WInv ({ s with cancelled := true, accepting := false }.say .cancel) :=
        h.foreign .cancel rfl ⟨rfl, rfl, rfl, rfl⟩ rfl
      have h2 := h'.readerDone false
      split
      · exact h2.foreign (.finish .cancelled) rfl ⟨rfl, rfl, rfl, rfl⟩ rfl
      · exact h2
    · exact h
  | onDone ok =>
    simp only [Grpc.step]
    split
    · have h' : WInv ({ s with accepting := false }.say (.done ok)) := h.foreign (.done ok) rfl ⟨rfl, rfl, rfl, rfl⟩ rfl
      have h2 := h'.readerDone (k.server || ok)
      exact h2.same ⟨rfl, rfl, rfl, rfl⟩ rfl
    · exact h

theorem WInv.exec (k : Kind) (ls : List (Lbl α β)) : WInv (exec k ls) := by
  unfold Grpc.exec
  generalize hs : (Grpc.init k : St α β) = s
  have h : WInv s := hs ▸ WInv.init k
  clear hs
  induction ls generalizing s with
  | nil => exact h
  | cons l ls ih => exact ih _ (h.step k l)

/-! ### The reader -/

theorem beforeEnd_snoc (l : List (Ev α β)) (e : Ev α β) :
    beforeEnd (l ++ [e]) = if terms l = [] then (if e matches .term _ then beforeEnd l else beforeEnd l ++ [e]) else beforeEnd l := by
  fun_induction beforeEnd l with
  | case1 => cases e <;> simp [beforeEnd, terms]
  | case2 => simp [beforeEnd, terms]
  | case3 e' l h ih =>
    have ht : terms (e' :: l) = terms l := by cases e' <;> first | rfl | exact absurd rfl (h _)
    have hb : ∀ l, beforeEnd (e' :: l) = e' :: beforeEnd l := by
      intro l; cases e' <;> first | rfl | exact absurd rfl (h _)
    rw [List.cons_append, hb, ih, ht]
    split
    · split <;> simp
    · rfl

theorem CancelInside.append {l : List (Ev α β)} (h : CancelInside l) (l' : List (Ev α β)) : CancelInside (l ++ l') := by
  obtain ⟨l1, l2, rfl, h⟩ := h
  exact ⟨l1, l2 ++ l', by simp, h⟩

/-- Used in the proofs; models no code. -/
def St.phaseState (s : St α β) : Phase :=
  match s.reading with
  | .delivering true => .inside
  | _ => if s.live then .idle else .over

/-- The reader's invariant. -/
structure RInv (k : Kind) (s : St α β) : Prop where
  reads : reads s.log = some (decide (s.reading = .waiting))
  live : s.live = true ↔ terms s.log = []
  shown : shown s.log = received (beforeEnd s.log)
  phase : CancelInside s.log ∨ (phase s.log = some s.phaseState ∧ (s.reading = .delivering true → s.live = true))
  canc : s.cancelled = true ↔ .cancel ∈ s.log
  client : k.server = false → s.cancelled = false
  dele : s.deleted = true ↔ ∃ ok, .done ok ∈ s.log
  termOf : terms s.log = [] ∨ (s.cancelled = true ∧ terms s.log = [false]) ∨
    (s.cancelled = false ∧ ∃ ok, .done ok ∈ s.log ∧ terms s.log = [k.server || ok])
  cancTerm : s.cancelled = true → terms s.log = [false]
  doneTerm : ∀ ok, .done ok ∈ s.log → terms s.log = [if k.server then !s.cancelled else ok]

/-- Events that are not the reader's. -/
def Ev.notRead : Ev α β → Bool
  | .took _ | .write _ | .wrote _ | .close _ | .finish _ | .useAfterFree => true
  | _ => false

/-- Used in the proofs; models no code. -/
def SameReader (s t : St α β) : Prop :=
  t.reading = s.reading ∧ t.live = s.live ∧ t.cancelled = s.cancelled ∧ t.deleted = s.deleted

theorem RInv.same {k : Kind} {s t : St α β} (h : RInv k s) (hs : SameReader s t) (hl : t.log = s.log) : RInv k t := by
  obtain ⟨h1, h2, h3, h4⟩ := hs
  have hp : t.phaseState = s.phaseState := by simp only [St.phaseState, h1, h2]
  obtain ⟨a, b, c, d, e, f, g, i, j, m⟩ := h
  constructor <;> simp only [hl, h1, h2, h3, h4, hp] <;> assumption

theorem RInv.other {k : Kind} {s t : St α β} (h : RInv k s) (e : Ev α β) (he : e.notRead = true) (hs : SameReader s t)
    (hl : t.log = s.log ++ [e]) : RInv k t := by
  obtain ⟨h1, h2, h3, h4⟩ := hs
  have hp : t.phaseState = s.phaseState := by simp only [St.phaseState, h1, h2]
  have e1 : Grpc.reads (s.log ++ [e]) = Grpc.reads s.log := by
    rw [reads_snoc]; cases e <;> simp_all [Ev.notRead, readStep]
  have e2 : Grpc.terms (s.log ++ [e]) = Grpc.terms s.log := by
    rw [terms_append]; cases e <;> simp_all [Ev.notRead, Grpc.terms]
  have e3 : Grpc.shown (s.log ++ [e]) = Grpc.shown s.log := by
    rw [shown_append]; cases e <;> simp_all [Ev.notRead, Grpc.shown]
  have e4 : Grpc.received (beforeEnd (s.log ++ [e])) = Grpc.received (beforeEnd s.log) := by
    rw [beforeEnd_snoc]
    split
    · rw [if_neg (by cases e <;> simp_all [Ev.notRead]), received_append]
      cases e <;> simp_all [Ev.notRead, Grpc.received]
    · rfl
  have e5 : Grpc.phase (s.log ++ [e]) = Grpc.phase s.log := by
    rw [phase_snoc]; cases e <;> simp_all [Ev.notRead, phaseStep]
  have e6 : Ev.cancel ∈ s.log ++ [e] ↔ Ev.cancel ∈ s.log := by
    cases e <;> simp_all [Ev.notRead]
  have e7 : ∀ ok, Ev.done ok ∈ s.log ++ [e] ↔ Ev.done ok ∈ s.log := by
    intro ok; cases e <;> simp_all [Ev.notRead]
  obtain ⟨a, b, c, d, e', f, g, i, j, m⟩ := h
  constructor <;> simp only [hl, h1, h2, h3, h4, hp, e1, e2, e3, e4, e5, e6, e7]
  · exact a
  · exact b
  · exact c
  · rcases d with d | d
    · exact .inl (d.append _)
    · exact .inr d
  · exact e'
  · exact f
  · exact g
  · exact i
  · exact j
  · exact m

theorem RInv.init (k : Kind) : RInv k (init k : St α β) := by
  cases k <;> constructor <;> simp [Grpc.init, Kind.reads, Kind.server, Grpc.reads, readStep, Grpc.terms, Grpc.shown, Grpc.received,
    beforeEnd, Grpc.phase, phaseStep, St.phaseState]

theorem RInv.take (k : Kind) {s : St α β} (h : RInv k s) (e : Emit α) : RInv k (s.take k e) := by
  have h' : ∀ (t : St α β) e, RInv k t → e.notRead = true → ∀ t', SameReader t t' → t'.log = t.log ++ [e] → RInv k t' :=
    fun t e ht he t' hs hl => ht.other e he hs hl
  cases e with
  | next a =>
    have h1 : RInv k ({ s with queue := s.queue ++ [a] }.say (.took (.next a))) :=
      h.other (.took (.next a)) rfl ⟨rfl, rfl, rfl, rfl⟩ rfl
    simp only [St.take]
    split
    · exact h1.other (.write a) rfl ⟨rfl, rfl, rfl, rfl⟩ rfl
    · exact h1
  | error =>
    have h1 : RInv k ({ s with finished := true, obsDone := true }.say (.took .error)) :=
      h.other (.took .error) rfl ⟨rfl, rfl, rfl, rfl⟩ rfl
    simp only [St.take]
    split
    · exact h1.other (.close .internal) rfl ⟨rfl, rfl, rfl, rfl⟩ rfl
    · exact h1
  | completed =>
    have h1 : RInv k ({ s with finished := true, obsDone := true }.say (.took .completed)) :=
      h.other (.took .completed) rfl ⟨rfl, rfl, rfl, rfl⟩ rfl
    simp only [St.take]
    split
    · exact h1.other (.close .ok) rfl ⟨rfl, rfl, rfl, rfl⟩ rfl
    · exact h1

theorem RInv.reach (k : Kind) (e : Emit α) {s : St α β} (h : RInv k s) : RInv k (s.reach k e) := by
  simp only [St.reach]
  split
  · exact h
  · split
    · exact h.other .useAfterFree rfl ⟨rfl, rfl, rfl, rfl⟩ rfl
    · exact h.take k e

theorem RInv.onReadDone (k : Kind) {s : St α β} (h : RInv k s) (m : Option β) : RInv k (Grpc.step k s (.onReadDone m)) := by
  simp only [Grpc.step]
  split
  · rename_i hr
    obtain ⟨a, b, c, d, e', f, g, i, j, n⟩ := h
    cases m with
    | none =>
      have h' : RInv k ({ s with reading := .none }.say (.got none)) := by
        constructor <;> simp only [St.say]
        · rw [reads_snoc, a, hr]; rfl
        · simp [terms_append, Grpc.terms, b]
        · rw [shown_append, c, beforeEnd_snoc]
          split <;> simp [Grpc.shown, received_append, Grpc.received]
        · rcases d with d | d
          · exact .inl (d.append _)
          · refine .inr ⟨?_, fun h => by cases h⟩
            rw [phase_snoc, d.1]
            simp only [St.phaseState, hr]
            cases s.live <;> simp [phaseStep]
        · simp [e']
        · exact f
        · simp [g]
        · simp only [terms_append, Grpc.terms, List.append_nil, List.mem_append, List.mem_singleton, reduceCtorEq, or_false]
          exact i
        · simp only [terms_append, Grpc.terms, List.append_nil]; exact j
        · simp only [terms_append, Grpc.terms, List.append_nil, List.mem_append, List.mem_singleton, reduceCtorEq, or_false]
          exact n
      simp only
      split
      · exact h'.other (.finish .ok) rfl ⟨rfl, rfl, rfl, rfl⟩ rfl
      · exact h'
    | some m =>
      simp only
      rcases hl : s.live with _ | _
      · have hne : Grpc.terms s.log ≠ [] := by intro h0; rw [← b, hl] at h0; cases h0
        simp only [St.say, Bool.false_eq_true, if_false]
        constructor <;> simp only
        · rw [reads_snoc, a, hr]; rfl
        · simp [terms_append, Grpc.terms, hne]
        · rw [shown_append, c, beforeEnd_snoc, if_neg hne]
          simp [Grpc.shown]
        · rcases d with d | d
          · exact .inl (d.append _)
          · refine .inr ⟨?_, fun h => by cases h⟩
            rw [phase_snoc, d.1]
            simp only [St.phaseState, hr, hl]
            simp [phaseStep]
        · simp [e']
        · exact f
        · simp [g]
        · simp only [terms_append, Grpc.terms, List.append_nil, List.mem_append, List.mem_singleton, reduceCtorEq, or_false]
          exact i
        · simp only [terms_append, Grpc.terms, List.append_nil]; exact j
        · simp only [terms_append, Grpc.terms, List.append_nil, List.mem_append, List.mem_singleton, reduceCtorEq, or_false]
          exact n
      · have ht : Grpc.terms s.log = [] := b.1 hl
        simp only [St.say, if_true, List.append_assoc, List.cons_append, List.nil_append]
        constructor <;> simp only
        · rw [show s.log ++ [Ev.got (some m), Ev.nextBegin m] = (s.log ++ [Ev.got (some m)]) ++ [Ev.nextBegin m] by simp,
            reads_snoc, reads_snoc, a, hr]; rfl
        · simp [terms_append, Grpc.terms, ht]
        · rw [show s.log ++ [Ev.got (some m), Ev.nextBegin m] = (s.log ++ [Ev.got (some m)]) ++ [Ev.nextBegin m] by simp,
            beforeEnd_snoc, beforeEnd_snoc, terms_append, ht]
          simp [Grpc.terms, shown_append, Grpc.shown, received_append, Grpc.received, c]
        · rcases d with d | d
          · exact .inl (d.append _)
          · refine .inr ⟨?_, fun _ => trivial⟩
            rw [show s.log ++ [Ev.got (some m), Ev.nextBegin m] = (s.log ++ [Ev.got (some m)]) ++ [Ev.nextBegin m] by simp,
              phase_snoc, phase_snoc, d.1]
            simp only [St.phaseState, hr, hl]
            simp [phaseStep]
        · simp [e']
        · exact f
        · simp [g]
        · simp only [terms_append, Grpc.terms, List.append_nil, List.mem_append, List.mem_cons, reduceCtorEq, or_false,
            List.not_mem_nil, or_self]
          exact i
        · simp only [terms_append, Grpc.terms, List.append_nil]; exact j
        · simp only [terms_append, Grpc.terms, List.append_nil, List.mem_append, List.mem_cons, reduceCtorEq, or_false,
            List.not_mem_nil, or_self]
          exact n
  · exact h

theorem RInv.readReturns (k : Kind) {s : St α β} (h : RInv k s) : RInv k (Grpc.step k s .readReturns) := by
  simp only [Grpc.step]
  split
  · rename_i sh hr
    obtain ⟨a, b, c, d, e', f, g, i, j, n⟩ := h
    cases sh with
    | false =>
      simp only [St.say, Bool.false_eq_true, if_false]
      constructor <;> simp only
      · rw [reads_snoc, a, hr]; rfl
      · simp [terms_append, Grpc.terms, b]
      · rw [shown_append, c, beforeEnd_snoc]
        split <;> simp [Grpc.shown, received_append, Grpc.received]
      · rcases d with d | d
        · exact .inl (d.append _)
        · refine .inr ⟨?_, fun h => by cases h⟩
          rw [phase_snoc, d.1]
          simp only [St.phaseState, hr]
          cases s.live <;> simp [phaseStep]
      · simp [e']
      · exact f
      · simp [g]
      · simp only [terms_append, Grpc.terms, List.append_nil, List.mem_append, List.mem_singleton, reduceCtorEq, or_false]
        exact i
      · simp only [terms_append, Grpc.terms, List.append_nil]; exact j
      · simp only [terms_append, Grpc.terms, List.append_nil, List.mem_append, List.mem_singleton, reduceCtorEq, or_false]
        exact n
    | true =>
      simp only [St.say, if_true, List.append_assoc, List.cons_append, List.nil_append]
      have e0 : s.log ++ [Ev.nextEnd, Ev.read] = (s.log ++ [Ev.nextEnd]) ++ [Ev.read] := by simp
      constructor <;> simp only
      · rw [e0, reads_snoc, reads_snoc, a, hr]; rfl
      · simp [terms_append, Grpc.terms, b]
      · rw [e0, beforeEnd_snoc, beforeEnd_snoc, terms_append]
        simp only [Grpc.terms, List.append_nil]
        split <;> simp [shown_append, Grpc.shown, received_append, Grpc.received, c]
      · rcases d with d | d
        · exact .inl (d.append _)
        · refine .inr ⟨?_, fun h => by cases h⟩
          rw [e0, phase_snoc, phase_snoc, d.1]
          simp only [St.phaseState, hr, d.2 hr]
          simp [phaseStep]
      · simp [e']
      · exact f
      · simp [g]
      · simp only [terms_append, Grpc.terms, List.append_nil, List.mem_append, List.mem_cons, reduceCtorEq, or_false,
          List.not_mem_nil, or_self]
        exact i
      · simp only [terms_append, Grpc.terms, List.append_nil]; exact j
      · simp only [terms_append, Grpc.terms, List.append_nil, List.mem_append, List.mem_cons, reduceCtorEq, or_false,
          List.not_mem_nil, or_self]
        exact n
  · exact h

theorem RInv.onCancel (k : Kind) {s : St α β} (h : RInv k s) : RInv k (Grpc.step k s .onCancel) := by
  simp only [Grpc.step]
  split
  · rename_i hc
    simp only [Bool.and_eq_true, Bool.not_eq_eq_eq_not, Bool.not_true] at hc
    obtain ⟨⟨hsrv, hcan⟩, hdel⟩ := hc
    obtain ⟨a, b, c, d, e', f, g, i, j, n⟩ := h
    have hnd : ∀ ok, Ev.done ok ∉ s.log := by
      intro ok hm
      have := g.2 ⟨ok, hm⟩
      rw [hdel] at this; cases this
    have ht : Grpc.terms s.log = [] := by
      rcases i with i | i | ⟨-, ok, hm, -⟩
      · exact i
      · rw [hcan] at i; cases i.1
      · exact absurd hm (hnd ok)
    have hl : s.live = true := b.2 ht
    have h' : RInv k (St.readerDone false ({ s with cancelled := true, accepting := false }.say .cancel)) := by
      simp only [St.readerDone, St.say, hl, if_true, List.append_assoc, List.cons_append, List.nil_append]
      have e0 : s.log ++ [Ev.cancel, Ev.term false] = (s.log ++ [Ev.cancel]) ++ [Ev.term false] := by simp
      constructor <;> simp only
      · rw [e0, reads_snoc, reads_snoc, a]; cases hw : decide (s.reading = .waiting) <;> rfl
      · simp [terms_append, Grpc.terms]
      · rw [e0, beforeEnd_snoc, beforeEnd_snoc, terms_append, ht]
        simp [Grpc.terms, shown_append, Grpc.shown, received_append, Grpc.received, c]
      · rcases d with d | d
        · exact .inl (d.append _)
        · by_cases hr : s.reading = .delivering true
          · refine .inl ⟨s.log, [.term false], rfl, ?_⟩
            rw [d.1]; simp [St.phaseState, hr]
          · refine .inr ⟨?_, fun h => absurd h hr⟩
            rw [e0, phase_snoc, phase_snoc, d.1]
            cases hrr : s.reading with
            | none => simp [St.phaseState, hrr, hl, phaseStep]
            | waiting => simp [St.phaseState, hrr, hl, phaseStep]
            | delivering sh =>
              cases sh with
              | true => exact absurd hrr hr
              | false => simp [St.phaseState, hrr, hl, phaseStep]
      · simp
      · intro h; rw [hsrv] at h; cases h
      · simp [hdel, hnd]
      · simp [terms_append, Grpc.terms, ht]
      · simp [terms_append, Grpc.terms, ht]
      · intro ok hm
        simp at hm
        exact absurd hm (hnd ok)
    split
    · exact h'.other (.finish .cancelled) rfl ⟨rfl, rfl, rfl, rfl⟩ rfl
    · exact h'
  · exact h

theorem RInv.onDone (k : Kind) {s : St α β} (h : RInv k s) (ok : Bool) : RInv k (Grpc.step k s (.onDone ok)) := by
  simp only [Grpc.step]
  split
  · rename_i hc
    simp only [Bool.and_eq_true, Bool.not_eq_eq_eq_not, Bool.not_true, decide_eq_true_eq] at hc
    obtain ⟨⟨⟨hdel, hout⟩, hr⟩, hfin⟩ := hc
    obtain ⟨a, b, c, d, e', f, g, i, j, n⟩ := h
    have hnd : ∀ ok, Ev.done ok ∉ s.log := by
      intro ok hm
      have := g.2 ⟨ok, hm⟩
      rw [hdel] at this; cases this
    have e0 : ∀ x : Ev α β, s.log ++ [Ev.done ok, x] = (s.log ++ [Ev.done ok]) ++ [x] := by simp
    rcases hl : s.live with _ | _
    · have hne : Grpc.terms s.log ≠ [] := by intro h0; rw [← b, hl] at h0; cases h0
      have hcan : s.cancelled = true := by
        rcases i with i | i | ⟨-, ok, hm, -⟩
        · exact absurd i hne
        · exact i.1
        · exact absurd hm (hnd ok)
      have hsrv : k.server = true := by
        cases hs : k.server with
        | true => rfl
        | false => rw [f hs] at hcan; cases hcan
      have hct := j hcan
      simp only [St.readerDone, St.say, hl, Bool.false_eq_true, if_false]
      constructor <;> simp only
      · rw [reads_snoc, a, hr]; rfl
      · simp [terms_append, Grpc.terms, hne]
      · rw [shown_append, c, beforeEnd_snoc, if_neg hne]
        simp [Grpc.shown]
      · rcases d with d | d
        · exact .inl (d.append _)
        · refine .inr ⟨?_, fun h => by rw [hr] at h; cases h⟩
          rw [phase_snoc, d.1]
          simp only [St.phaseState, hr, hl]
          simp [phaseStep]
      · simp [e']
      · exact f
      · simp
      · simp [terms_append, Grpc.terms, hct, hcan]
      · simp [terms_append, Grpc.terms, hct]
      · intro ok' _
        simp [terms_append, Grpc.terms, hct, hcan, hsrv]
    · have ht : Grpc.terms s.log = [] := b.1 hl
      have hcan : s.cancelled = false := by
        cases hcn : s.cancelled with
        | false => rfl
        | true => rw [j hcn] at ht; cases ht
      simp only [St.readerDone, St.say, hl, if_true, List.append_assoc, List.cons_append, List.nil_append]
      constructor <;> simp only
      · rw [e0, reads_snoc, reads_snoc, a, hr]; rfl
      · simp [terms_append, Grpc.terms]
      · rw [e0, beforeEnd_snoc, beforeEnd_snoc, terms_append, ht]
        simp [Grpc.terms, shown_append, Grpc.shown, received_append, Grpc.received, c]
      · rcases d with d | d
        · exact .inl (d.append _)
        · refine .inr ⟨?_, fun h => by rw [hr] at h; cases h⟩
          rw [e0, phase_snoc, phase_snoc, d.1]
          simp only [St.phaseState, hr, hl]
          simp [phaseStep]
      · simp [e']
      · exact f
      · simp
      · refine .inr (.inr ⟨hcan, ok, by simp, by simp [terms_append, Grpc.terms, ht]⟩)
      · intro h; rw [hcan] at h; cases h
      · intro ok' hm
        simp at hm
        rcases hm with hm | rfl
        · exact absurd hm (hnd ok')
        · simp only [terms_append, Grpc.terms, ht, hcan]
          cases k.server <;> simp
  · exact h

theorem RInv.step (k : Kind) {s : St α β} (h : RInv k s) (l : Lbl α β) : RInv k (step k s l) := by
  cases l with
  | emit e =>
    simp only [Grpc.step]
    split
    · cases e <;> exact h.same ⟨rfl, rfl, rfl, rfl⟩ rfl
    · exact h
  | deliver i =>
    simp only [Grpc.step]
    split
    · exact RInv.reach k _ (h.same ⟨rfl, rfl, rfl, rfl⟩ rfl)
    · exact h
  | deliverEnd =>
    simp only [Grpc.step]
    split
    · exact RInv.reach k _ (h.same ⟨rfl, rfl, rfl, rfl⟩ rfl)
    · exact h
  | onWriteDone ok =>
    simp only [Grpc.step]
    split
    · have h' : RInv k ({ s with outstanding := false }.say (.wrote ok)) :=
        h.other (.wrote ok) rfl ⟨rfl, rfl, rfl, rfl⟩ rfl
      split
      · simp only [St.writeDone]
        split
        · exact h'.other (.write _) rfl ⟨rfl, rfl, rfl, rfl⟩ rfl
        · split
          · exact h'.other (.close .ok) rfl ⟨rfl, rfl, rfl, rfl⟩ rfl
          · exact h'.same ⟨rfl, rfl, rfl, rfl⟩ rfl
      · split
        · exact h'.other (.finish .ok) rfl ⟨rfl, rfl, rfl, rfl⟩ rfl
        · exact h'
    · exact h
  | onReadDone m => exact h.onReadDone k m
  | readReturns => exact h.readReturns k
  | onCancel => exact h.onCancel k
  | onDone ok => exact h.onDone k ok

theorem RInv.exec (k : Kind) (ls : List (Lbl α β)) : RInv k (exec k ls) := by
  unfold Grpc.exec
  generalize hs : (Grpc.init k : St α β) = s
  have h : RInv k s := hs ▸ RInv.init k
  clear hs
  induction ls generalizing s with
  | nil => exact h
  | cons l ls ih => exact ih _ (h.step k l)

/-! ### Finish -/

theorem cancels_append (l l' : List (Ev α β)) : cancels (l ++ l') = cancels l + cancels l' := by
  fun_induction cancels l <;> simp_all [cancels] <;> omega
theorem failed_append (l l' : List (Ev α β)) : failed (l ++ l') = failed l + failed l' := by
  fun_induction failed l <;> simp_all [failed] <;> omega
theorem eofs_append (l l' : List (Ev α β)) : eofs (l ++ l') = eofs l + eofs l' := by
  fun_induction eofs l <;> simp_all [eofs] <;> omega

/-- Each `Finish` has its reason. -/
def Balanced (k : Kind) (l : List (Ev α β)) : Prop :=
  (finishes k l).length = (if k.server then (closes l).length else 0) + (if k.writes then cancels l else 0) +
    (if k = .serverWrite then failed l else 0) + (if k = .serverRead then eofs l else 0)

theorem Balanced.append {k : Kind} {l l' : List (Ev α β)} (h : Balanced k l) (h' : Balanced k l') : Balanced k (l ++ l') := by
  unfold Balanced at *
  simp only [finishes_append, closes_append, cancels_append, failed_append, eofs_append, List.length_append]
  rw [h, h']
  repeat' split
  all_goals omega

/-- Invariant of the proofs; models no code. -/
structure FInv (k : Kind) (s : St α β) : Prop where
  bal : Balanced k s.log
  canc : cancels s.log = if s.cancelled then 1 else 0
  eof : k = .serverRead → eofs s.log = if s.reading = .none then 1 else 0
  wr : k.writes = false → s.pending = [] ∧ s.ending = none ∧ s.outstanding = false ∧ closes s.log = []

/-- Steps of the writer. -/
theorem FInv.app {k : Kind} {s t : St α β} (h : FInv k s) (l : List (Ev α β)) (hl : t.log = s.log ++ l) (hb : Balanced k l)
    (hc : t.cancelled = s.cancelled) (hr : t.reading = s.reading) (hcl : cancels l = 0) (he : eofs l = 0)
    (hw : k.writes = false → t.pending = s.pending ∧ t.ending = s.ending ∧ t.outstanding = s.outstanding ∧ closes l = []) :
    FInv k t := by
  constructor
  · rw [hl]; exact h.bal.append hb
  · rw [hl, hc, cancels_append, hcl, h.canc]; rfl
  · intro hk; rw [hl, hr, eofs_append, he, h.eof hk]; rfl
  · intro hk
    obtain ⟨h1, h2, h3, h4⟩ := hw hk
    rw [h1, h2, h3, hl, closes_append, h4, List.append_nil]
    exact h.wr hk

theorem FInv.init (k : Kind) : FInv k (init k : St α β) := by
  cases k <;> constructor <;> simp [Grpc.init, Kind.reads, Kind.server, Kind.writes, Balanced, finishes, closes, cancels, failed, eofs]

theorem FInv.take {k : Kind} (hk : k.writes = true) {s : St α β} (h : FInv k s) (e : Emit α) : FInv k (s.take k e) := by
  have hk' : ∀ {P : Prop}, k.writes = false → P := fun hf => by rw [hk] at hf; cases hf
  cases e with
  | next a =>
    simp only [St.take]
    split
    · exact h.app [.took (.next a), .write a] (by simp [St.startWrite, St.close, St.finish, St.say]) (by simp [Balanced, finishes, closes, cancels, failed, eofs]) rfl rfl rfl rfl hk'
    · exact h.app [.took (.next a)] rfl (by simp [Balanced, finishes, closes, cancels, failed, eofs]) rfl rfl rfl rfl hk'
  | error =>
    simp only [St.take]
    split
    · exact h.app [.took .error, .close .internal] (by simp [St.startWrite, St.close, St.finish, St.say])
        (by cases k <;> simp [Kind.server, Balanced, finishes, closes, cancels, failed, eofs]) rfl rfl rfl rfl hk'
    · exact h.app [.took .error] rfl (by simp [Balanced, finishes, closes, cancels, failed, eofs]) rfl rfl rfl rfl hk'
  | completed =>
    simp only [St.take]
    split
    · exact h.app [.took .completed, .close .ok] (by simp [St.startWrite, St.close, St.finish, St.say])
        (by cases k <;> simp [Kind.server, Balanced, finishes, closes, cancels, failed, eofs]) rfl rfl rfl rfl hk'
    · exact h.app [.took .completed] rfl (by simp [Balanced, finishes, closes, cancels, failed, eofs]) rfl rfl rfl rfl hk'

theorem FInv.reach {k : Kind} (hk : k.writes = true) (e : Emit α) {s : St α β} (h : FInv k s) : FInv k (s.reach k e) := by
  simp only [St.reach]
  split
  · exact h
  · split
    · exact h.app [.useAfterFree] rfl (by simp [Balanced, finishes, closes, cancels, failed, eofs]) rfl rfl rfl rfl
        (fun hf => by rw [hk] at hf; cases hf)
    · exact h.take hk e

theorem FInv.step (k : Kind) {s : St α β} (h : FInv k s) (l : Lbl α β) : FInv k (step k s l) := by
  have wr : ∀ {p : List α} {a : α} {i : Nat}, s.pending[i]? = some a → k.writes = true := by
    intro p a i hp
    cases hk : k.writes with
    | true => rfl
    | false => rw [(h.wr hk).1] at hp; simp at hp
  cases l with
  | emit e =>
    simp only [Grpc.step]
    split
    · rename_i hk
      have hk' : ∀ {P : Prop}, k.writes = false → P := fun hf => by simp [hf] at hk
      cases e <;> exact h.app [] (by simp [St.startWrite, St.close, St.finish, St.say]) (by simp [Balanced, finishes, closes, cancels, failed, eofs]) rfl rfl rfl rfl hk'
    · exact h
  | deliver i =>
    simp only [Grpc.step]
    split
    · rename_i hp _
      have hk := wr (p := []) hp
      exact FInv.reach hk _ (h.app [] (by simp [St.startWrite, St.close, St.finish, St.say]) (by simp [Balanced, finishes, closes, cancels, failed, eofs]) rfl rfl rfl rfl
        (fun hf => by rw [hk] at hf; cases hf))
    · exact h
  | deliverEnd =>
    simp only [Grpc.step]
    split
    · rename_i hp
      have hk : k.writes = true := by
        cases hk : k.writes with
        | true => rfl
        | false => rw [(h.wr hk).2.1] at hp; cases hp
      exact FInv.reach hk _ (h.app [] (by simp [St.startWrite, St.close, St.finish, St.say]) (by simp [Balanced, finishes, closes, cancels, failed, eofs]) rfl rfl rfl rfl
        (fun hf => by rw [hk] at hf; cases hf))
    · exact h
  | onWriteDone ok =>
    simp only [Grpc.step]
    split
    · rename_i ho
      have hk' : ∀ {P : Prop}, k.writes = false → P := fun hf => by rw [(h.wr hf).2.2.1] at ho; cases ho
      cases ok with
      | true =>
        simp only [if_true, St.writeDone]
        split
        · exact h.app [.wrote true, .write _] (by simp [St.startWrite, St.close, St.finish, St.say]; try rfl) (by simp [Balanced, finishes, closes, cancels, failed, eofs]) rfl rfl rfl rfl hk'
        · split
          · exact h.app [.wrote true, .close .ok] (by simp [St.startWrite, St.close, St.finish, St.say])
              (by cases k <;> simp [Kind.server, Balanced, finishes, closes, cancels, failed, eofs]) rfl rfl rfl rfl hk'
          · exact h.app [.wrote true] rfl (by simp [Balanced, finishes, closes, cancels, failed, eofs]) rfl rfl rfl rfl hk'
      | false =>
        simp only [Bool.false_eq_true, if_false]
        split
        · rename_i hk; subst hk
          exact h.app [.wrote false, .finish .ok] (by simp [St.startWrite, St.close, St.finish, St.say]) (by simp [Kind.server, Kind.writes, Balanced, finishes, closes, cancels, failed, eofs]) rfl rfl rfl rfl hk'
        · rename_i hk
          exact h.app [.wrote false] rfl (by simp [hk, Balanced, finishes, closes, cancels, failed, eofs]) rfl rfl rfl rfl hk'
    · exact h
  | onReadDone m =>
    simp only [Grpc.step]
    split
    · rename_i hr
      cases m with
      | none =>
        simp only
        split
        · rename_i hk; subst hk
          have he := h.eof rfl
          rw [hr] at he
          constructor
          · simp only [St.finish, St.say, List.append_assoc]
            exact h.bal.append (by simp [Kind.server, Kind.writes, Balanced, finishes, closes, cancels, failed, eofs])
          · simp [St.finish, St.say, cancels_append, cancels, h.canc]; try rfl
          · intro _; simp at he; simp [St.finish, St.say, eofs_append, eofs, he]
          · intro hf; have := h.wr hf; simp [St.finish, St.say, closes_append, closes, this]
        · rename_i hk
          constructor
          · exact h.bal.append (by simp [hk, Balanced, finishes, closes, cancels, failed, eofs])
          · simp [St.finish, St.say, cancels_append, cancels, h.canc]; try rfl
          · intro hk'; exact absurd hk' hk
          · intro hf; have := h.wr hf; simp [St.finish, St.say, closes_append, closes, this]
      | some b =>
        have hf' : FInv k ({ s with reading := .delivering s.live }.say (.got (some b))) := by
          constructor
          · exact h.bal.append (by simp [Balanced, finishes, closes, cancels, failed, eofs])
          · simp [St.finish, St.say, cancels_append, cancels, h.canc]; try rfl
          · intro hk; have := h.eof hk; rw [hr] at this; simp at this; simp [St.finish, St.say, eofs_append, eofs, this]
          · intro hf; have := h.wr hf; simp [St.finish, St.say, closes_append, closes, this]
        simp only
        split
        · exact hf'.app [.nextBegin b] rfl (by simp [Balanced, finishes, closes, cancels, failed, eofs]) rfl rfl rfl rfl
            (fun _ => ⟨rfl, rfl, rfl, rfl⟩)
        · exact hf'
    · exact h
  | readReturns =>
    simp only [Grpc.step]
    split
    · rename_i sh hr
      have h' : FInv k (if sh = true then s.say .nextEnd else s) := by
        split
        · exact h.app [.nextEnd] rfl (by simp [Balanced, finishes, closes, cancels, failed, eofs]) rfl rfl rfl rfl
            (fun _ => ⟨rfl, rfl, rfl, rfl⟩)
        · exact h
      have hr' : (if sh = true then s.say .nextEnd else s).reading = .delivering sh := by split <;> exact hr
      generalize (if sh = true then s.say Ev.nextEnd else s) = t at h' hr'
      constructor
      · exact h'.bal.append (by simp [Balanced, finishes, closes, cancels, failed, eofs])
      · simp only [St.say, cancels_append, cancels, h'.canc, Nat.add_zero]; rfl
      · intro hk; have := h'.eof hk; rw [hr'] at this; simp at this; simp [St.say, eofs_append, eofs, this]
      · intro hf; have := h'.wr hf; simp [St.say, closes_append, closes, this]
    · exact h
  | onCancel =>
    simp only [Grpc.step]
    split
    · rename_i hc
      simp only [Bool.and_eq_true, Bool.not_eq_eq_eq_not, Bool.not_true] at hc
      obtain ⟨⟨hsrv, hcan⟩, hdel⟩ := hc
      have hcc := h.canc
      simp only [hcan] at hcc
      simp at hcc
      have key : ∀ l : List (Ev α β), cancels l = 0 → eofs l = 0 → closes l = [] → Balanced k (.cancel :: l) → ∀ t : St α β,
          t.log = s.log ++ .cancel :: l → t.cancelled = true → t.reading = s.reading → t.pending = s.pending →
          t.ending = s.ending → t.outstanding = s.outstanding → FInv k t := by
        intro l h1 h2 h3 hb t ht hc hr h4 h5 h6
        constructor
        · rw [ht]; exact h.bal.append hb
        · rw [ht, hc, cancels_append]; simp [cancels, h1, hcc]
        · intro hk; rw [ht, hr, eofs_append, ← h.eof hk]; simp [eofs, h2]
        · intro hf; rw [h4, h5, h6, ht, closes_append]; simp [closes, h3, h.wr hf]
      have hr : ∀ u : St α β, u.readerDone false = if u.live = true then { u with live := false }.say (.term false) else u :=
        fun _ => rfl
      cases hk : k.writes with
      | true =>
        simp only [if_true]
        rw [hr]
        split
        · refine key [.term false, .finish .cancelled] rfl rfl rfl ?_ _ (by simp [St.finish, St.say]) rfl rfl rfl rfl rfl
          simp [hk, Balanced, finishes, closes, cancels, failed, eofs]
        · refine key [.finish .cancelled] rfl rfl rfl ?_ _ (by simp [St.finish, St.say]) rfl rfl rfl rfl rfl
          simp [hk, Balanced, finishes, closes, cancels, failed, eofs]
      | false =>
        simp only [Bool.false_eq_true, if_false]
        rw [hr]
        split
        · refine key [.term false] rfl rfl rfl ?_ _ (by simp [St.finish, St.say]) rfl rfl rfl rfl rfl
          simp [hk, Balanced, finishes, closes, cancels, failed, eofs]
        · refine key [] rfl rfl rfl ?_ _ (by simp [St.finish, St.say]) rfl rfl rfl rfl rfl
          simp [hk, Balanced, finishes, closes, cancels, failed, eofs]
    · exact h
  | onDone ok =>
    simp only [Grpc.step]
    split
    · simp only [St.readerDone]
      split
      · exact h.app [.done ok, .term _] (by simp [St.startWrite, St.close, St.finish, St.say]; try rfl) (by simp [Balanced, finishes, closes, cancels, failed, eofs]) rfl rfl rfl rfl
          (fun _ => ⟨rfl, rfl, rfl, rfl⟩)
      · exact h.app [.done ok] rfl (by simp [Balanced, finishes, closes, cancels, failed, eofs]) rfl rfl rfl rfl
          (fun _ => ⟨rfl, rfl, rfl, rfl⟩)
    · exact h

theorem FInv.exec (k : Kind) (ls : List (Lbl α β)) : FInv k (exec k ls) := by
  unfold Grpc.exec
  generalize hs : (Grpc.init k : St α β) = s
  have h : FInv k s := hs ▸ FInv.init k
  clear hs
  induction ls generalizing s with
  | nil => exact h
  | cons l ls ih => exact ih _ (h.step k l)

/-- A broken stream stays broken. -/
theorem wire_none (l : List (Ev α β)) : l.foldl wireStep none = none := by
  induction l with
  | nil => rfl
  | cons e l ih =>
    rw [List.foldl_cons]
    have : wireStep none e = none := by cases e <;> rfl
    rw [this, ih]

theorem wire_failed : (l : List (Ev α β)) → (w : Wire) → l.foldl wireStep (some w) ≠ none →
    failed l + (if w = .broken then 1 else 0) + (closes l).length + (if w = .closed then 1 else 0) ≤ 1
  | [], w, _ => by cases w <;> simp [failed, closes]
  | e :: l, w, h => by
    rw [List.foldl_cons] at h
    have ih := fun w' (hw : wireStep (some w) e = some w') => wire_failed l w' (by rw [← hw]; exact h)
    cases hw : wireStep (some w) e with
    | none => rw [hw, wire_none] at h; exact absurd rfl h
    | some w' =>
      have := ih w' hw
      have hcl : ∀ ok, closes (Ev.wrote ok :: l) = closes l := fun _ => rfl
      cases e with
      | wrote ok =>
        cases ok <;> cases w <;> simp only [wireStep, Option.some.injEq, reduceCtorEq] at hw
        all_goals
          subst hw
          simp [failed, closes] at this ⊢
          first | omega | simp_all
      | _ =>
        cases w <;> simp only [wireStep, Option.some.injEq, reduceCtorEq] at hw
        all_goals
          subst hw
          simp [failed, closes] at this ⊢
          first | omega | simp_all

/-! ### Lifetime -/

/-- Invariant of the proofs; models no code. -/
structure LInv (s : St α β) : Prop where
  gone : s.deleted = true → s.pending = [] ∧ s.ending = none ∧ s.accepting = false
  noUaf : .useAfterFree ∉ s.log

theorem LInv.app {s t : St α β} (h : LInv s) (e : Ev α β) (he : e ≠ .useAfterFree) (hl : t.log = s.log ++ [e])
    (h1 : t.pending = s.pending) (h2 : t.ending = s.ending) (h3 : t.deleted = s.deleted)
    (h4 : s.accepting = false → t.accepting = false) : LInv t := by
  constructor
  · intro hd; rw [h3] at hd; obtain ⟨a, b, c⟩ := h.gone hd; exact ⟨h1 ▸ a, h2 ▸ b, h4 c⟩
  · rw [hl, List.mem_append, List.mem_singleton]
    rintro (h' | h')
    · exact h.noUaf h'
    · exact he h'.symm

theorem LInv.readerDone {s : St α β} (h : LInv s) (ok : Bool) : LInv (s.readerDone ok) := by
  simp only [St.readerDone]
  split
  · exact h.app (.term ok) (by simp) rfl rfl rfl rfl id
  · exact h

theorem LInv.take (k : Kind) {s : St α β} (h : LInv s) (e : Emit α) : LInv (s.take k e) := by
  cases e with
  | next a =>
    have h1 : LInv ({ s with queue := s.queue ++ [a] }.say (.took (.next a))) := h.app (.took (.next a)) (by simp) rfl rfl rfl rfl id
    simp only [St.take]
    split
    · exact h1.app (.write a) (by simp) rfl rfl rfl rfl id
    · exact h1
  | error =>
    have h1 : LInv ({ s with finished := true, obsDone := true }.say (.took .error)) := h.app (.took .error) (by simp) rfl rfl rfl rfl id
    simp only [St.take]
    split
    · exact h1.app (.close .internal) (by simp) rfl rfl rfl rfl id
    · exact h1
  | completed =>
    have h1 : LInv ({ s with finished := true, obsDone := true }.say (.took .completed)) :=
      h.app (.took .completed) (by simp) rfl rfl rfl rfl id
    simp only [St.take]
    split
    · exact h1.app (.close .ok) (by simp) rfl rfl rfl rfl id
    · exact h1

theorem LInv.reach (k : Kind) (e : Emit α) {s : St α β} (h : LInv s) (hd : s.deleted = false) : LInv (s.reach k e) := by
  simp only [St.reach, hd]
  split
  · exact h
  · exact h.take k e

theorem LInv.step (k : Kind) {s : St α β} (h : LInv s) (l : Lbl α β) (hq : ∀ ok, l = .onDone ok → s.pending = [] ∧ s.ending = none) : LInv (step k s l) := by
  cases l with
  | emit e =>
    simp only [Grpc.step]
    split
    · rename_i hk
      simp only [Bool.and_eq_true] at hk
      have hd : s.deleted = false := by
        cases hd : s.deleted with
        | false => rfl
        | true => rw [(h.gone hd).2.2] at hk; simp at hk
      cases e <;> exact ⟨fun hd' => (by rw [hd] at hd'; cases hd'), h.noUaf⟩
    · exact h
  | deliver i =>
    simp only [Grpc.step]
    split
    · rename_i hp _
      have hd : s.deleted = false := by
        cases hd : s.deleted with
        | false => rfl
        | true => rw [(h.gone hd).1] at hp; simp at hp
      exact LInv.reach k _ ⟨fun hd' => (by rw [hd] at hd'; cases hd'), h.noUaf⟩ hd
    · exact h
  | deliverEnd =>
    simp only [Grpc.step]
    split
    · rename_i hp
      have hd : s.deleted = false := by
        cases hd : s.deleted with
        | false => rfl
        | true => rw [(h.gone hd).2.1] at hp; cases hp
      exact LInv.reach k _ ⟨fun hd' => (by rw [hd] at hd'; cases hd'), h.noUaf⟩ hd
    · exact h
  | onWriteDone ok =>
    simp only [Grpc.step]
    split
    · have h' : LInv ({ s with outstanding := false }.say (.wrote ok)) := h.app (.wrote ok) (by simp) rfl rfl rfl rfl id
      split
      · simp only [St.writeDone]
        split
        · exact h'.app (.write _) (by simp) rfl rfl rfl rfl id
        · split
          · exact h'.app (.close .ok) (by simp) rfl rfl rfl rfl id
          · exact ⟨h'.gone, h'.noUaf⟩
      · split
        · exact h'.app (.finish .ok) (by simp) rfl rfl rfl rfl id
        · exact h'
    · exact h
  | onReadDone m =>
    simp only [Grpc.step]
    split
    · cases m with
      | none =>
        have h' : LInv ({ s with reading := .none }.say (.got none)) := h.app (.got none) (by simp) rfl rfl rfl rfl id
        simp only
        split
        · exact h'.app (.finish .ok) (by simp) rfl rfl rfl rfl id
        · exact h'
      | some b =>
        have h' : LInv ({ s with reading := .delivering s.live }.say (.got (some b))) :=
          h.app (.got (some b)) (by simp) rfl rfl rfl rfl id
        simp only
        split
        · exact h'.app (.nextBegin b) (by simp) rfl rfl rfl rfl id
        · exact h'
    · exact h
  | readReturns =>
    simp only [Grpc.step]
    split
    · have h' : ∀ sh : Bool, LInv (if sh = true then s.say .nextEnd else s) := by
        intro sh
        split
        · exact h.app .nextEnd (by simp) rfl rfl rfl rfl id
        · exact h
      exact (h' _).app .read (by simp) rfl rfl rfl rfl id
    · exact h
  | onCancel =>
    simp only [Grpc.step]
    split
    · have h' : LInv ({ s with cancelled := true, accepting := false }.say .cancel) :=
        h.app .cancel (by simp) rfl rfl rfl rfl (fun _ => rfl)
      have h2 := h'.readerDone false
      split
      · exact h2.app (.finish .cancelled) (by simp) rfl rfl rfl rfl id
      · exact h2
    · exact h
  | onDone ok =>
    have hq := hq ok rfl
    simp only [Grpc.step]
    split
    · have h' : LInv ({ s with accepting := false }.say (.done ok)) := h.app (.done ok) (by simp) rfl rfl rfl rfl (fun _ => rfl)
      have h2 := h'.readerDone (k.server || ok)
      refine ⟨fun _ => ?_, h2.noUaf⟩
      simp only [St.readerDone]
      split <;> exact ⟨hq.1, hq.2, rfl⟩
    · exact h

/-! ### One emitting thread -/

theorem emits_append (l l' : List (Turn α β)) : emits (l ++ l') = emits l ++ emits l' := by
  fun_induction emits l <;> simp_all [emits]

theorem valuesOf_snoc (l : List (Emit α)) (e : Emit α) :
    valuesOf (l ++ [e]) = valuesOf l ++ (if endOf l = [] then (match e with | .next a => [a] | _ => []) else []) := by
  induction l with
  | nil => cases e <;> simp [valuesOf, endOf]
  | cons x l ih => cases x <;> simp [valuesOf, endOf, ih]; rfl

theorem endOf_snoc (l : List (Emit α)) (e : Emit α) :
    endOf (l ++ [e]) = if endOf l = [] then (match e with | .next _ => [] | .error => [false] | .completed => [true]) else endOf l := by
  induction l with
  | nil => cases e <;> simp [endOf]
  | cons x l ih => cases x <;> simp [endOf, ih]; rfl

/-- Invariant of the proofs; models no code. -/
structure TInv (es : List (Emit α)) (s : St α β) : Prop where
  pend : s.pending = []
  ending : s.ending = none
  del : s.deleted = false
  acc : s.accepting = !s.obsDone
  obs : s.obsDone = true ↔ endOf es ≠ []
  tak : taken s.log = valuesOf es
  ends : ends s.log = endOf es

theorem TInv.other {es : List (Emit α)} {s t : St α β} (h : TInv es s) (l : List (Ev α β)) (hl : t.log = s.log ++ l)
    (h1 : taken l = []) (h2 : Grpc.ends l = []) (h3 : t.pending = s.pending) (h4 : t.ending = s.ending)
    (h5 : t.deleted = s.deleted) (h6 : t.accepting = s.accepting) (h7 : t.obsDone = s.obsDone) : TInv es t := by
  obtain ⟨a, b, c, d, e, f, g⟩ := h
  constructor
  · rw [h3, a]
  · rw [h4, b]
  · rw [h5, c]
  · rw [h6, h7, d]
  · rw [h7, e]
  · rw [hl, taken_append, h1, f, List.append_nil]
  · rw [hl, ends_append, h2, g, List.append_nil]

theorem take_fields (k : Kind) (s : St α β) (e : Emit α) :
    (s.take k e).pending = s.pending ∧ (s.take k e).ending = s.ending ∧ (s.take k e).deleted = s.deleted ∧
    (s.take k e).accepting = s.accepting ∧ (s.take k e).obsDone = (match e with | .next _ => s.obsDone | _ => true) ∧
    taken (s.take k e).log = taken s.log ++ (match e with | .next a => [a] | _ => []) ∧
    Grpc.ends (s.take k e).log = Grpc.ends s.log ++ (match e with | .next _ => [] | .error => [false] | .completed => [true]) := by
  cases e with
  | next a =>
    simp only [St.take]
    split <;> simp [St.startWrite, St.say, taken_append, ends_append, taken, Grpc.ends]
  | error =>
    simp only [St.take]
    split <;> simp [St.close, St.say, taken_append, ends_append, taken, Grpc.ends]
  | completed =>
    simp only [St.take]
    split <;> simp [St.close, St.say, taken_append, ends_append, taken, Grpc.ends]

theorem TInv.user {k : Kind} (hk : k.writes = true) {es : List (Emit α)} {s : St α β} (h : TInv es s) (e : Emit α) :
    TInv (es ++ [e]) ((Turn.labels (.user e)).foldl (Grpc.step k) s) := by
  obtain ⟨hp, hb, hd, ha, ho, hf, hg⟩ := h
  rcases hoD : s.obsDone with _ | _
  · have hes : endOf es = [] := by rw [hoD] at ho; simpa using ho
    rw [hoD] at ha
    simp only [Bool.not_false] at ha
    cases e with
    | next a =>
      have hst : (Turn.labels (.user (.next a))).foldl (Grpc.step k) s = s.take k (.next a) := by
        obtain ⟨⟩ := s
        simp only at hp hb hd ha hoD
        subst hp hb hd ha hoD
        simp [Turn.labels, Grpc.step, hk, St.reach]
      rw [hst]
      obtain ⟨h1, h2, h3, h4, h5, h6, h7⟩ := take_fields k s (.next a)
      simp only at h5 h6 h7
      constructor
      · rw [h1, hp]
      · rw [h2, hb]
      · rw [h3, hd]
      · rw [h4, h5, ha, hoD]; rfl
      · rw [h5, hoD, endOf_snoc, if_pos hes]; simp
      · rw [h6, hf, valuesOf_snoc, if_pos hes]
      · rw [h7, hg, endOf_snoc, if_pos hes, hes, List.append_nil]
    | error =>
      have hst : (Turn.labels (.user .error)).foldl (Grpc.step k) s = ({ s with accepting := false } : St α β).take k .error := by
        obtain ⟨⟩ := s
        simp only at hp hb hd ha hoD
        subst hp hb hd ha hoD
        simp [Turn.labels, Grpc.step, hk, St.reach]
      rw [hst]
      obtain ⟨h1, h2, h3, h4, h5, h6, h7⟩ := take_fields k ({ s with accepting := false } : St α β) .error
      simp only at h1 h2 h3 h4 h5 h6 h7
      constructor
      · rw [h1, hp]
      · rw [h2, hb]
      · rw [h3, hd]
      · rw [h4, h5]; rfl
      · rw [h5, endOf_snoc, if_pos hes]; simp
      · rw [h6, hf, valuesOf_snoc, if_pos hes]
      · rw [h7, hg, endOf_snoc, if_pos hes, hes, List.nil_append]
    | completed =>
      have hst : (Turn.labels (.user .completed)).foldl (Grpc.step k) s = ({ s with accepting := false } : St α β).take k .completed := by
        obtain ⟨⟩ := s
        simp only at hp hb hd ha hoD
        subst hp hb hd ha hoD
        simp [Turn.labels, Grpc.step, hk, St.reach]
      rw [hst]
      obtain ⟨h1, h2, h3, h4, h5, h6, h7⟩ := take_fields k ({ s with accepting := false } : St α β) .completed
      simp only at h1 h2 h3 h4 h5 h6 h7
      constructor
      · rw [h1, hp]
      · rw [h2, hb]
      · rw [h3, hd]
      · rw [h4, h5]; rfl
      · rw [h5, endOf_snoc, if_pos hes]; simp
      · rw [h6, hf, valuesOf_snoc, if_pos hes]
      · rw [h7, hg, endOf_snoc, if_pos hes, hes, List.nil_append]
  · have hes : endOf es ≠ [] := ho.1 hoD
    rw [hoD] at ha
    have hst : (Turn.labels (.user e)).foldl (Grpc.step k) s = s := by
      cases e <;> simp [Turn.labels, Grpc.step, ha, hp, hb]
    rw [hst]
    constructor <;> simp [hp, hb, hd, ha, hoD, hf, hg, valuesOf_snoc, endOf_snoc, hes]

theorem TInv.turn {k : Kind} (hk : k.writes = true) {ts : List (Turn α β)} {s : St α β} (h : TInv (emits ts) s) (t : Turn α β) :
    TInv (emits (ts ++ [t])) (t.labels.foldl (Grpc.step k) s) := by
  cases t with
  | user e => rw [emits_append]; exact h.user hk e
  | wrote ok =>
    rw [emits_append, show emits [_] = ([] : List (Emit α)) from rfl, List.append_nil]
    simp only [Turn.labels, List.foldl_cons, List.foldl_nil, Grpc.step]
    split
    · split
      · simp only [St.writeDone]
        split
        · exact h.other [.wrote ok, .write _] (by simp [St.startWrite, St.say]; rfl) rfl rfl rfl rfl rfl rfl rfl
        · split
          · exact h.other [.wrote ok, .close .ok] (by simp [St.close, St.say]) rfl rfl rfl rfl rfl rfl rfl
          · exact h.other [.wrote ok] rfl rfl rfl rfl rfl rfl rfl rfl
      · split
        · exact h.other [.wrote ok, .finish .ok] (by simp [St.finish, St.say]) rfl rfl rfl rfl rfl rfl rfl
        · exact h.other [.wrote ok] rfl rfl rfl rfl rfl rfl rfl rfl
    · exact h
  | got m =>
    rw [emits_append, show emits [_] = ([] : List (Emit α)) from rfl, List.append_nil]
    simp only [Turn.labels, List.foldl_cons, List.foldl_nil, Grpc.step]
    split
    · cases m with
      | none =>
        simp only
        split
        · exact h.other [.got none, .finish .ok] (by simp [St.finish, St.say]) rfl rfl rfl rfl rfl rfl rfl
        · exact h.other [.got none] rfl rfl rfl rfl rfl rfl rfl rfl
      | some b =>
        simp only
        split
        · exact h.other [.got (some b), .nextBegin b] (by simp [St.say]) rfl rfl rfl rfl rfl rfl rfl
        · exact h.other [.got (some b)] rfl rfl rfl rfl rfl rfl rfl rfl
    · exact h
  | returned =>
    rw [emits_append, show emits [_] = ([] : List (Emit α)) from rfl, List.append_nil]
    simp only [Turn.labels, List.foldl_cons, List.foldl_nil, Grpc.step]
    split
    · rename_i sh _
      cases sh with
      | true => exact h.other [.nextEnd, .read] (by simp [St.say]) rfl rfl rfl rfl rfl rfl rfl
      | false => exact h.other [.read] rfl rfl rfl rfl rfl rfl rfl rfl
    · exact h

theorem TInv.exec {k : Kind} (hk : k.writes = true) (ts : List (Turn α β)) : TInv (emits ts) (exec k (ts.flatMap Turn.labels)) := by
  refine Sched.snoc_ind (P := fun ts => TInv (emits ts) (Grpc.exec k (ts.flatMap Turn.labels))) ?_ ?_ ts
  · cases k <;> constructor <;> simp [Grpc.exec, Grpc.init, Kind.reads, emits, endOf, valuesOf, taken, Grpc.ends]
  · intro ts t h
    have : Grpc.exec k ((ts ++ [t]).flatMap Turn.labels) = t.labels.foldl (Grpc.step k) (Grpc.exec k (ts.flatMap Turn.labels)) := by
      simp [Grpc.exec, List.flatMap_append]
    rw [this]
    exact h.turn hk t

end Rpp.Grpc
