import Verif.Core.Moved
import Verif.Core.UserProofs
import Verif.Core.OpProofs

/-!
# Helper lemmas for C98: the strategies with moves act as those without
-/

namespace Rpp

theorem Cell.take_fst (c : Cell α) : c.take.1 = c := rfl
theorem Cell.take_snd (c : Cell α) : c.take.2 = .husk := rfl

@[simp] theorem Call.full_isTerm (c : Call α ε) : c.full.isTerm = c.isTerm := by cases c <;> rfl

theorem any_full (o : List (Call α ε)) : (o.map Call.full).any Call.isTerm = o.any Call.isTerm := by
  simp [List.any_map, Function.comp_def]

/-- The same calls up to the first terminal one, the first list with variables instead of values. -/
inductive Agree : List (Call (Cell α) ε) → List (Call α ε) → Prop where
  | nil : Agree [] []
  | cons (c) {l' l} : Agree l' l → Agree (c.full :: l') (c :: l)
  | stop (c l' l) : c.isTerm = true → Agree (c.full :: l') (c :: l)

theorem Agree.map (o : List (Call α ε)) : Agree (o.map Call.full) o := by
  induction o with
  | nil => exact .nil
  | cons c o ih => exact .cons c ih

theorem Agree.append (o : List (Call α ε)) {l' l} (h : Agree l' l) : Agree (o.map Call.full ++ l') (o ++ l) := by
  induction o with
  | nil => exact h
  | cons c o ih => exact .cons c ih

theorem Agree.appendStop (o : List (Call α ε)) (l' l) (h : o.any Call.isTerm = true) : Agree (o.map Call.full ++ l') (o ++ l) := by
  induction o with
  | nil => simp at h
  | cons c o ih =>
    cases hc : c.isTerm with
    | true => exact .stop c _ _ hc
    | false => exact .cons c (ih (by simpa [hc] using h))

theorem Agree.trace {l' : List (Call (Cell α) ε)} {l} (h : Agree l' l) :
    (traceOf l').vals = (traceOf l).vals.map Cell.full ∧ (traceOf l').fin = (traceOf l).fin := by
  induction h with
  | nil => exact ⟨rfl, rfl⟩
  | cons c _ ih => cases c <;> simp [Call.full, traceOf, ih.1, ih.2]
  | stop c _ _ hc => cases c <;> simp [Call.full, traceOf, Call.isTerm] at hc ⊢

/-- `M` (with moves) makes the same calls as `P`, as long as it has not ended. -/
structure Sim (M : OpStrategy (Cell α) (Cell β) ε σ') (P : OpStrategy α β ε σ) (ρ : σ' → σ → Prop) : Prop where
  init : ρ M.init P.init
  initOut : M.initOut = P.initOut.map Call.full
  feed : ∀ s' s, ρ s' s → ∀ c, (M.feed s' c.full).2 = (P.feed s c).2.map Call.full ∧
    ((P.feed s c).2.any Call.isTerm = false → ρ (M.feed s' c.full).1 (P.feed s c).1)

theorem Sim.agree {M : OpStrategy (Cell α) (Cell β) ε σ'} {P : OpStrategy α β ε σ} {ρ} (h : Sim M P ρ) (hP : P.OK)
    {cs' cs} (ha : Agree cs' cs) : ∀ s' s, ρ s' s → Agree (M.trans s' cs') (P.trans s cs) := by
  induction ha with
  | nil => intro _ _ _; exact .nil
  | cons c _ ih =>
    intro s' s hs
    obtain ⟨h1, h2⟩ := h.feed s' s hs c
    rw [OpStrategy.trans, OpStrategy.trans, h1]
    cases ht : (P.feed s c).2.any Call.isTerm with
    | true => exact .appendStop _ _ _ ht
    | false => exact .append _ (ih _ _ (h2 ht))
  | stop c _ _ hc =>
    intro s' s hs
    rw [OpStrategy.trans, OpStrategy.trans, (h.feed s' s hs c).1]
    exact .appendStop _ _ _ (OpStrategy.feed_term hP s c hc)

/-- `Sim` by cases on the call. -/
theorem Sim.of {M : OpStrategy (Cell α) (Cell β) ε σ'} {P : OpStrategy α β ε σ} (ρ : σ' → σ → Prop) (hP : P.OK)
    (init : ρ M.init P.init) (initOut : M.initOut = P.initOut.map Call.full)
    (next : ∀ s' s a, ρ s' s → (M.onNext (.full a) s').out = (P.onNext a s).out.map Call.full ∧
      (M.onNext (.full a) s').throws = (P.onNext a s).throws ∧
      ((P.onNext a s).throws = none → (P.onNext a s).out.any Call.isTerm = false → ρ (M.onNext (.full a) s').st (P.onNext a s).st))
    (err : ∀ s' s e, (M.onError e s').out = (P.onError e s).out.map Call.full)
    (comp : ∀ s' s, ρ s' s → (M.onCompleted s').out = (P.onCompleted s).out.map Call.full) : Sim M P ρ := by
  refine ⟨init, initOut, fun s' s hs c => ?_⟩
  cases c with
  | next a =>
    obtain ⟨h1, h2, h3⟩ := next s' s a hs
    simp only [OpStrategy.feed, Call.full, h2]
    cases ht : (P.onNext a s).throws with
    | none => exact ⟨h1, h3 ht⟩
    | some e =>
      simp only
      refine ⟨by rw [h1, err, List.map_append], fun hf => ?_⟩
      rw [any_isTerm_append_right _ _ (hP.err e _)] at hf
      cases hf
  | error e =>
    refine ⟨err s' s e, fun hf => ?_⟩
    have hf : (P.onError e s).out.any Call.isTerm = false := hf
    rw [hP.err] at hf; cases hf
  | completed =>
    refine ⟨comp s' s hs, fun hf => ?_⟩
    have hf : (P.onCompleted s).out.any Call.isTerm = false := hf
    rw [hP.comp] at hf; cases hf
  | up d => exact ⟨rfl, fun _ => hs⟩

/-! ## The operators -/

theorem ups_drain : ∀ k (data : List (Cell α)) cur, upsOf (Mv.takeLastDrain (ε := ε) data cur k).2 = [] := by
  intro k
  induction k with
  | zero => intro data cur; rfl
  | succ k ih =>
    intro data cur
    rw [Mv.takeLastDrain]
    simp only [upsOf_append, ih]
    cases data[cur]? <;> rfl

theorem mElementAt_ups (i : Nat) (e : ε) (a : Cell α) (s : Nat) : upsOf ((Mv.elementAt i e).onNext a s).out = [] := by
  simp only [Mv.elementAt]
  by_cases h : (if s ≠ 0 then s - 1 else s) = 0
  · rw [if_pos h]; rfl
  · rw [if_neg h]; rfl

theorem Op.mok (junk : ε) : (o : Op ε α β) → (o.moving junk).OK
  | .map f => ⟨fun _ _ => rfl, fun _ => rfl, fun a s => by
      simp only [moving, Mv.map]; split <;> rfl, fun _ _ => rfl, fun _ => rfl⟩
  | .filter p => ⟨fun _ _ => rfl, fun _ => rfl, fun a s => by
      simp only [moving, Mv.filter]; split <;> rfl, fun _ _ => rfl, fun _ => rfl⟩
  | .take n => ⟨fun _ _ => rfl, fun _ => rfl, fun a s => by
      simp only [moving, Mv.take]; split <;> split <;> rfl, fun _ _ => rfl, fun _ => rfl⟩
  | .skip n => ⟨fun _ _ => rfl, fun _ => rfl, fun a s => by
      simp only [moving, Mv.skip]; split <;> rfl, fun _ _ => rfl, fun _ => rfl⟩
  | .takeWhile p => ⟨fun _ _ => rfl, fun _ => rfl, fun a s => by
      simp only [moving, Mv.takeWhile]; split <;> rfl, fun _ _ => rfl, fun _ => rfl⟩
  | .takeLast n => ⟨fun _ _ => rfl, fun s => by
      simp only [moving, Mv.takeLast]; exact any_isTerm_append_right _ _ rfl, fun a s => by
      simp only [moving, Mv.takeLast]; split <;> (try split) <;> rfl, fun _ _ => rfl, fun s => by
      simp only [moving, Mv.takeLast]; rw [upsOf_append, ups_drain]; rfl⟩
  | .first e => ⟨fun _ _ => rfl, fun _ => rfl, fun _ _ => rfl, fun _ _ => rfl, fun _ => rfl⟩
  | .last e => ⟨fun _ _ => rfl, fun s => by
      simp only [moving, Mv.last]; cases s <;> rfl, fun _ _ => rfl, fun _ _ => rfl, fun s => by
      simp only [moving, Mv.last]; cases s <;> rfl⟩
  | .elementAt i e => ⟨fun _ _ => rfl, fun s => by
      simp only [moving, Mv.elementAt]; split <;> rfl, fun a s => mElementAt_ups i e a s, fun _ _ => rfl, fun s => by
      simp only [moving, Mv.elementAt]; split <;> rfl⟩
  | @Op.distinct _ _ inst => ⟨fun _ _ => rfl, fun _ => rfl, fun a s => by
      simp only [moving, Mv.distinct]; split <;> rfl, fun _ _ => rfl, fun _ => rfl⟩
  | .distinctUntilChanged eq => ⟨fun _ _ => rfl, fun _ => rfl, fun a s => by
      simp only [moving, Mv.distinctUntilChanged]; split <;> (try split) <;> rfl,
      fun _ _ => rfl, fun _ => rfl⟩
  | .scan b f => ⟨fun _ _ => rfl, fun _ => rfl, fun a s => by
      simp only [moving, Mv.scan]; split <;> rfl, fun _ _ => rfl, fun _ => rfl⟩
  | .scanNoSeed f => ⟨fun _ _ => rfl, fun _ => rfl, fun a s => by
      simp only [moving, Mv.scanNoSeed]; split <;> (try split) <;> rfl, fun _ _ => rfl, fun _ => rfl⟩
  | .reduce b f => ⟨fun _ _ => rfl, fun _ => rfl, fun a s => by
      simp only [moving, Mv.reduce]; split <;> rfl, fun _ _ => rfl, fun _ => rfl⟩
  | .reduceNoSeed f => ⟨fun _ _ => rfl, fun s => by
      simp only [moving, Mv.reduceNoSeed]; split <;> rfl, fun a s => by
      simp only [moving, Mv.reduceNoSeed]; split <;> (try split) <;> rfl, fun _ _ => rfl, fun s => by
      simp only [moving, Mv.reduceNoSeed]; split <;> rfl⟩
  | .buffer n => ⟨fun _ _ => rfl, fun s => by
      simp only [moving, Mv.buffer]; split <;> (try split) <;> rfl, fun a s => by
      simp only [moving, Mv.buffer]; split <;> (try split) <;> rfl, fun _ _ => rfl, fun s => by
      simp only [moving, Mv.buffer]; split <;> (try split) <;> rfl⟩
  | .tap cb => ⟨fun _ _ => rfl, fun _ => rfl, fun a s => by
      simp only [moving, Mv.tap]; split <;> rfl, fun _ _ => rfl, fun _ => rfl⟩
  | .finallyOp d => ⟨fun _ _ => rfl, fun _ => rfl, fun _ _ => rfl, fun _ _ => rfl, fun _ => rfl⟩
  | .throttle d => ⟨fun _ _ => rfl, fun _ => rfl, fun a s => by
      simp only [moving, Mv.throttle]; split <;> (try split) <;> (try split) <;> rfl, fun _ _ => rfl, fun _ => rfl⟩

theorem drain_same (n : Nat) (data : List α) (hn : data.length = n) : ∀ k (D : List (Cell α)) cur, D.length = n → k ≤ n → cur < n →
    (∀ j, j < k → D[(cur + j) % n]? = (data[(cur + j) % n]?).map Cell.full) →
    (Mv.takeLastDrain (ε := ε) D cur k).2 = (Ops.takeLastDrain data cur k).map Call.full := by
  intro k
  induction k with
  | zero => intro D cur _ _ _ _; rfl
  | succ k ih =>
    intro D cur hD hk hc hj
    have hnext : Ops.takeLastNext n cur = (cur + 1) % n := by
      unfold Ops.takeLastNext
      by_cases h : cur + 1 ≥ n
      · rw [if_pos h, show cur + 1 = n by omega, Nat.mod_self]
      · rw [if_neg h, Nat.mod_eq_of_lt (by omega)]
    have h0 := hj 0 (by omega)
    rw [Nat.add_zero, Nat.mod_eq_of_lt hc, List.getElem?_eq_getElem (show cur < D.length by omega),
      List.getElem?_eq_getElem (show cur < data.length by omega)] at h0
    rw [Mv.takeLastDrain, Ops.takeLastDrain, hD, hn, hnext]
    rw [List.getElem?_eq_getElem (show cur < D.length by omega), List.getElem?_eq_getElem (show cur < data.length by omega)]
    simp only [Option.map_some, Option.some.injEq] at h0
    simp only [List.map_append, List.map_cons, List.map_nil, Cell.take_fst, Cell.take_snd, h0, Call.full]
    congr 1
    apply ih
    · simpa using hD
    · omega
    · exact Nat.mod_lt _ (by omega)
    · intro j hjk
      have e : ((cur + 1) % n + j) % n = (cur + (j + 1)) % n := by rw [Nat.mod_add_mod]; congr 1; omega
      rw [e, ← hj (j + 1) (by omega), List.getElem?_set_ne]
      intro heq
      by_cases hlt : cur + (j + 1) < n
      · rw [Nat.mod_eq_of_lt hlt] at heq; omega
      · have : (cur + (j + 1)) % n = cur + (j + 1) - n := by
          rw [Nat.mod_eq_sub_mod (by omega), Nat.mod_eq_of_lt (by omega)]
        omega

theorem pack_full (l : List α) : Mv.pack (l.map Cell.full) = .full l := by
  induction l with
  | nil => rfl
  | cons a l ih => simp [Mv.pack, ih]

theorem buffer_next (n : Nat) (s : List α) (a : α) :
    ((Mv.buffer (ε := ε) n).onNext (.full a) (.full (s.map Cell.full))).out = ((Ops.buffer n).onNext a s).out.map Call.full ∧
    ((Mv.buffer (ε := ε) n).onNext (.full a) (.full (s.map Cell.full))).throws = ((Ops.buffer (ε := ε) n).onNext a s).throws ∧
    ((Mv.buffer (ε := ε) n).onNext (.full a) (.full (s.map Cell.full))).st = .full (((Ops.buffer (ε := ε) n).onNext a s).st.map Cell.full) := by
  have hp : Mv.pack (s.map Cell.full ++ [Cell.full a]) = .full (s ++ [a]) := by simpa using pack_full (s ++ [a])
  simp only [Mv.buffer, Ops.buffer, Cell.take_fst, Mv.packed, hp, List.length_append, List.length_map, List.length_cons, List.length_nil]
  by_cases h : s.length + (0 + 1) = max 1 n
  · simp [h, Call.full]
  · simp [h]

theorem buffer_end (n : Nat) (s : List α) :
    ((Mv.buffer (ε := ε) n).onCompleted (.full (s.map Cell.full))).out = ((Ops.buffer n).onCompleted s).out.map Call.full := by
  simp only [Mv.buffer, Ops.buffer, Cell.take_fst, Mv.packed, pack_full]
  cases s <;> simp [Call.full]

/-- How the states correspond. -/
def Op.Rel : (o : Op ε α β) → o.MState → o.State → Prop
  | .map _, _, _ | .filter _, _, _ | .takeWhile _, _, _ | .first _, _, _ | .finallyOp _, _, _ | .tap _, _, _ => True
  | .take _, s', s | .skip _, s', s | .elementAt _ _, s', s => s' = s
  | .takeLast _, s', s => s'.data = s.data.map Cell.full ∧ s'.cap = s.cap ∧ s'.cur = s.cur ∧ (s.data.length < s.cap → s.cur = 0) ∧ (s.cur = 0 ∨ s.cur < s.data.length)
  | .last _, s', s | .distinctUntilChanged _, s', s | .scanNoSeed _, s', s | .reduceNoSeed _, s', s => s' = s.map Cell.full
  | @Op.distinct _ _ _, s', s => s' = s.map Cell.full
  | .buffer _, s', s => s' = .full (s.map Cell.full)
  | .scan _ _, s', s | .reduce _ _, s', s => s' = .full s
  | .throttle _, s', s => s' = s

/-- Closes the cases of `Op.sim`. -/
macro "same" : tactic => `(tactic| (
  refine ⟨?_, ?_, ?_⟩
  · first | rfl | trivial
  · first | rfl | trivial
  · first | exact fun _ _ => rfl | exact fun _ _ => trivial | exact fun h _ => nomatch h | exact fun h => nomatch h))

theorem Op.sim (junk : ε) : (o : Op ε α β) → o.WF → Sim (o.moving junk) o.strategy o.Rel
  | .map f, _ => .of _ (Op.ok (.map f)) trivial rfl (fun s' s a _ => by
      simp only [moving, strategy, Mv.map, Ops.map, Cell.take_fst, Cell.ask]
      cases f a <;> same) (fun _ _ _ => rfl) (fun _ _ _ => rfl)
  | .filter p, _ => .of _ (Op.ok (.filter p)) trivial rfl (fun s' s a _ => by
      simp only [moving, strategy, Mv.filter, Ops.filter, Cell.take_fst, Cell.ask]
      rcases p a with e | (_ | _) <;> same) (fun _ _ _ => rfl) (fun _ _ _ => rfl)
  | .take n, _ => .of _ (Op.ok (.take n)) rfl rfl (fun s' s a h => by
      cases (h : s' = s)
      simp only [moving, strategy, Mv.take, Ops.take, Cell.take_fst]
      split <;> split <;> same) (fun _ _ _ => rfl) (fun _ _ _ => rfl)
  | .skip n, _ => .of _ (Op.ok (.skip n)) rfl rfl (fun s' s a h => by
      cases (h : s' = s)
      simp only [moving, strategy, Mv.skip, Ops.skip, Cell.take_fst]
      split <;> same) (fun _ _ _ => rfl) (fun _ _ _ => rfl)
  | .takeWhile p, _ => .of _ (Op.ok (.takeWhile p)) trivial rfl (fun s' s a _ => by
      simp only [moving, strategy, Mv.takeWhile, Ops.takeWhile, Cell.take_fst, Cell.ask]
      rcases p a with e | (_ | _) <;> same) (fun _ _ _ => rfl) (fun _ _ _ => rfl)
  | .takeLast n, _ => .of _ (Op.ok (.takeLast n)) ⟨rfl, rfl, rfl, fun _ => rfl, .inl rfl⟩ rfl
      (fun s' s a h => by
        obtain ⟨D, c', u'⟩ := s'; obtain ⟨data, c, u⟩ := s
        obtain ⟨h1, h2, h3, h4, h5⟩ := h
        simp only at h1 h2 h3 h4 h5
        subst h1 h2 h3
        simp only [moving, strategy, Mv.takeLast, Ops.takeLast, Cell.take_fst, List.length_map]
        by_cases hc : c' = 0
        · simp [hc, Rel, h5]
        · by_cases hl : data.length < c'
          · simp [hc, hl, Rel]
            have := h4 hl
            omega
          · simp only [hc, hl, if_false, Rel, List.map_nil, List.map_set, List.length_set, true_and]
            refine fun _ _ => ⟨fun h => h.elim, ?_⟩
            unfold Ops.takeLastNext
            split <;> omega)
      (fun _ _ _ => rfl)
      (fun s' s h => by
        obtain ⟨D, c', u'⟩ := s'; obtain ⟨data, c, u⟩ := s
        obtain ⟨h1, h2, h3, h4, h5⟩ := h
        simp only at h1 h2 h3 h4 h5
        subst h1 h2 h3
        simp only [moving, strategy, Mv.takeLast, Ops.takeLast, List.length_map, List.map_append, List.map_cons, List.map_nil, Call.full]
        congr 1
        cases data with
        | nil => rfl
        | cons x xs =>
          refine drain_same _ _ rfl _ _ _ (by simp) (Nat.le_refl _) (by rcases h5 with h5 | h5 <;> simp_all) ?_
          intro j _
          rw [List.getElem?_map])
  | .first e, _ => .of _ (Op.ok (.first e)) trivial rfl (fun s' s a _ => ⟨rfl, rfl, fun _ _ => trivial⟩) (fun _ _ _ => rfl) (fun _ _ _ => rfl)
  | .last e, _ => .of _ (Op.ok (.last e)) rfl rfl (fun s' s a _ => ⟨rfl, rfl, fun _ _ => rfl⟩) (fun _ _ _ => rfl) (fun s' s h => by
      cases (h : s' = s.map Cell.full)
      cases s <;> rfl)
  | .elementAt i e, _ => .of _ (Op.ok (.elementAt i e)) rfl rfl (fun (s' s : Nat) a h => by
      cases (h : s' = s)
      simp only [moving, strategy, Mv.elementAt, Ops.elementAt, Cell.take_fst]
      by_cases h : (if (s' : Nat) ≠ 0 then (s' : Nat) - 1 else s') = (0 : Nat)
      · simp only [h, if_true]; same
      · simp only [h, if_false]; same) (fun _ _ _ => rfl) (fun s' s h => by
      cases (h : s' = s)
      simp only [moving, strategy, Mv.elementAt, Ops.elementAt]
      split <;> rfl)
  | @Op.distinct _ _ inst, hw => .of _ (Op.ok (@Op.distinct _ _ inst)) rfl rfl (fun s' s a h => by
      cases (h : s' = s.map Cell.full)
      have hany : (s.map Cell.full).any (Mv.sameCell (.full a)) = s.contains a := by
        induction s with
        | nil => rfl
        | cons b s ih => rw [List.map_cons, List.any_cons, ih, List.contains_cons]; rfl
      simp only [moving, strategy, Mv.distinct, Ops.distinct, hany]
      split <;> same) (fun _ _ _ => rfl) (fun _ _ _ => rfl)
  | .distinctUntilChanged eq, _ => .of _ (Op.ok (.distinctUntilChanged eq)) rfl rfl (fun s' s a h => by
      cases (h : s' = s.map Cell.full)
      cases s with
      | none => same
      | some l =>
        simp only [moving, strategy, Mv.distinctUntilChanged, Ops.distinctUntilChanged, Option.map_some, Cell.ask2, Cell.take_fst]
        rcases eq l a with e | (_ | _) <;> same) (fun _ _ _ => rfl) (fun _ _ _ => rfl)
  | .scan b f, _ => .of _ (Op.ok (.scan b f)) rfl rfl (fun s' s a h => by
      cases (h : s' = .full s)
      simp only [moving, strategy, Mv.scan, Ops.scan, Cell.take_fst, Cell.ask2]
      cases f s a <;> same) (fun _ _ _ => rfl) (fun _ _ _ => rfl)
  | .scanNoSeed f, _ => .of _ (Op.ok (.scanNoSeed f)) rfl rfl (fun s' s a h => by
      cases (h : s' = s.map Cell.full)
      cases s with
      | none => same
      | some l =>
        simp only [moving, strategy, Mv.scanNoSeed, Ops.scanNoSeed, Option.map_some, Cell.ask2, Cell.take_fst]
        cases f l a <;> same) (fun _ _ _ => rfl) (fun _ _ _ => rfl)
  | .reduce b f, _ => .of _ (Op.ok (.reduce b f)) rfl rfl (fun s' s a h => by
      cases (h : s' = .full s)
      simp only [moving, strategy, Mv.reduce, Ops.reduce, Cell.take_fst, Cell.ask2]
      cases f s a <;> same) (fun _ _ _ => rfl) (fun s' s h => by
      cases (h : s' = .full s); rfl)
  | .reduceNoSeed f, _ => .of _ (Op.ok (.reduceNoSeed f)) rfl rfl (fun s' s a h => by
      cases (h : s' = s.map Cell.full)
      cases s with
      | none => same
      | some l =>
        simp only [moving, strategy, Mv.reduceNoSeed, Ops.reduceNoSeed, Option.map_some, Cell.ask2, Cell.take_fst]
        cases f l a <;> same) (fun _ _ _ => rfl) (fun s' s h => by
      cases (h : s' = s.map Cell.full)
      cases s <;> rfl)
  | .buffer n, _ => .of _ (Op.ok (.buffer n)) rfl rfl
      (fun s' s a h => by
        cases (h : s' = .full (s.map Cell.full))
        have := buffer_next (ε := ε) n s a
        exact ⟨this.1, this.2.1, fun _ _ => this.2.2⟩)
      (fun _ _ _ => rfl)
      (fun s' s h => by
        cases (h : s' = .full (s.map Cell.full))
        exact buffer_end n s)
  | .tap cb, _ => .of _ (Op.ok (.tap cb)) trivial rfl (fun s' s a _ => by
      simp only [moving, strategy, Mv.tap, Ops.tap, Cell.take_fst, Cell.ask]
      cases cb a <;> same) (fun _ _ _ => rfl) (fun _ _ _ => rfl)
  | .finallyOp d, _ => .of _ (Op.ok (.finallyOp d)) trivial rfl (fun s' s a _ => ⟨rfl, rfl, fun _ _ => trivial⟩) (fun _ _ _ => rfl) (fun _ _ _ => rfl)
  | .throttle d, _ => .of _ (Op.ok (.throttle d)) rfl rfl (fun s' s a h => by
      cases (h : s' = s)
      obtain ⟨now, v⟩ := a
      simp only [moving, strategy, Mv.throttle, Ops.throttle, Cell.take_fst]
      cases s' with
      | none => same
      | some l => simp only; split <;> same) (fun _ _ _ => rfl) (fun _ _ _ => rfl)

/-! ## Pipelines -/

/-- Everything a pipeline with moves sends to its subscriber. -/
def Pipe.mtrans (junk : ε) : Pipe ε α γ → List (Call (Cell α) ε) → List (Call (Cell γ) ε)
  | .nil, cs => cs
  | .cons o p, cs => p.mtrans junk ((o.moving junk).initOut ++ (o.moving junk).trans (o.moving junk).init cs)

theorem Pipe.mlift_lawful {τ : Type} (junk : ε) : {α γ : Type} → (p : Pipe ε α γ) → {O : Obs (Cell γ) ε τ} →
    (h : Lawful O) → Lawful (p.mlift junk O)
  | _, _, .nil, _, h => h
  | _, _, .cons o p, _, h => OpStrategy.lift_lawful (o.mok junk) (p.mlift_lawful junk h)

theorem Pipe.mfinal_run {τ : Type} (junk : ε) : {α γ : Type} → {O : Obs (Cell γ) ε τ} → (h : Lawful O) → (t : τ) →
    (p : Pipe ε α γ) → (cs : List (Call (Cell α) ε)) →
    p.mfinal ((p.mlift junk O).run (p.mstart junk O t) cs) = O.run t (p.mtrans junk cs)
  | _, _, _, _, _, .nil, cs => rfl
  | _, _, O, h, t, .cons o p, cs => by
    have key := OpStrategy.lift_run (o.mok junk) (p.mlift_lawful junk h) cs
      ((o.moving junk).start (p.mlift junk O) (p.mstart junk O t))
    have ih := p.mfinal_run junk h t ((o.moving junk).initOut ++ (o.moving junk).trans (o.moving junk).init cs)
    rw [Obs.run_append] at ih
    exact (congrArg p.mfinal key).trans ih

theorem Pipe.upsOf_mtrans (junk : ε) : {α γ : Type} → (p : Pipe ε α γ) → (cs : List (Call (Cell α) ε)) →
    upsOf (p.mtrans junk cs) = p.finals ++ upsOf cs
  | _, _, .nil, cs => rfl
  | _, _, .cons o p, cs => by
    rw [Pipe.mtrans, p.upsOf_mtrans, upsOf_append, OpStrategy.trans_ups (o.mok junk), Pipe.finals]
    rw [List.append_assoc]
    congr 2
    cases o <;> rfl

theorem Pipe.agree (junk : ε) : {α γ : Type} → (p : Pipe ε α γ) → p.WF → {cs' : List (Call (Cell α) ε)} → {cs : List (Call α ε)} →
    Agree cs' cs → Agree (p.mtrans junk cs') (p.trans cs)
  | _, _, .nil, _, _, _, h => h
  | _, _, .cons o p, hp, _, _, h => by
    have hs := o.sim junk hp.1
    refine p.agree junk hp.2 ?_
    rw [hs.initOut]
    exact .append _ (hs.agree o.ok h _ _ hs.init)

end Rpp
