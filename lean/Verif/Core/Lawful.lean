import Verif.Core.Spec

/-!
# Helper lemmas: lawful observers, and operators as transducers of calls
-/

namespace Rpp

/-- Calls that are notifications. -/
def Call.isEvent : Call α ε → Bool
  | .up _ => false
  | _ => true

/-- Terminal notifications. -/
def Call.isTerm : Call α ε → Bool
  | .error _ | .completed => true
  | _ => false

/-- What operators may rely on about the observer they feed. -/
structure Lawful (O : Obs α ε σ) : Prop where
  ignore : ∀ s c, O.isDisposed s = true → c.isEvent = true → O.call c s = s
  up_disposed : ∀ s d, O.isDisposed s = true → O.setUpstream d s = O.release d s
  release_disposed : ∀ s d, O.isDisposed s = true → O.isDisposed (O.release d s) = true
  term : ∀ s c, c.isTerm = true → O.isDisposed (O.call c s) = true

@[simp] theorem Obs.run_nil (O : Obs α ε σ) (s) : O.run s [] = s := rfl
@[simp] theorem Obs.run_cons (O : Obs α ε σ) (s c cs) : O.run s (c :: cs) = O.run (O.call c s) cs := rfl
theorem Obs.run_append (O : Obs α ε σ) (s cs ds) : O.run s (cs ++ ds) = O.run (O.run s cs) ds := by
  simp [Obs.run, List.foldl_append]

theorem Lawful.stays {O : Obs α ε σ} (h : Lawful O) (s c) (hd : O.isDisposed s = true) :
    O.isDisposed (O.call c s) = true := by
  cases c with
  | up d => show O.isDisposed (O.setUpstream d s) = true
            rw [h.up_disposed s d hd]; exact h.release_disposed s d hd
  | next a => rw [h.ignore s _ hd rfl]; exact hd
  | error a => rw [h.ignore s _ hd rfl]; exact hd
  | completed => rw [h.ignore s _ hd rfl]; exact hd

theorem Lawful.stays_run {O : Obs α ε σ} (h : Lawful O) (cs : List (Call α ε)) :
    ∀ s, O.isDisposed s = true → O.isDisposed (O.run s cs) = true := by
  induction cs with
  | nil => intro s hs; exact hs
  | cons c cs ih => intro s hs; exact ih _ (h.stays s c hs)

/-- A disposed observer only disposes what it is handed. -/
theorem Lawful.run_disposed {O : Obs α ε σ} (h : Lawful O) (cs : List (Call α ε)) :
    ∀ s, O.isDisposed s = true → O.run s cs = (upsOf cs).foldl (fun s d => O.release d s) s := by
  induction cs with
  | nil => intro s _; rfl
  | cons c cs ih =>
    intro s hs
    rw [Obs.run_cons, ih _ (h.stays s c hs)]
    cases c with
    | up d => show _ = List.foldl _ s (d :: upsOf cs)
              rw [List.foldl_cons]
              show List.foldl _ (O.setUpstream d s) _ = _
              rw [h.up_disposed s d hs]
    | next a => rw [h.ignore s _ hs rfl]; rfl
    | error a => rw [h.ignore s _ hs rfl]; rfl
    | completed => rw [h.ignore s _ hs rfl]; rfl

theorem Lawful.run_term {O : Obs α ε σ} (h : Lawful O) (cs : List (Call α ε)) :
    ∀ s, cs.any Call.isTerm = true → O.isDisposed (O.run s cs) = true := by
  induction cs with
  | nil => intro s hs; simp at hs
  | cons c cs ih =>
    intro s hs
    rw [List.any_cons, Bool.or_eq_true] at hs
    rcases hs with hs | hs
    · exact h.stays_run cs _ (h.term s c hs)
    · exact ih _ hs

theorem upsOf_append (cs ds : List (Call α ε)) : upsOf (cs ++ ds) = upsOf cs ++ upsOf ds := by
  induction cs with
  | nil => rfl
  | cons c cs ih => cases c <;> simp [upsOf, ih]

/-! ## Operators as transducers -/

/-- Everything an operator's observer sends downstream in response to one call (while not disposed). -/
def OpStrategy.feed (P : OpStrategy α β ε σ) (s : σ) : Call α ε → σ × List (Call β ε)
  | .next a =>
    let r := P.onNext a s
    match r.throws with
    | none => (r.st, r.out)
    | some e => ((P.onError e r.st).st, r.out ++ (P.onError e r.st).out)
  | .error e => ((P.onError e s).st, (P.onError e s).out)
  | .completed => ((P.onCompleted s).st, (P.onCompleted s).out)
  | .up d => (s, [.up d])

/-- Everything an operator's observer sends downstream if it is never disposed. -/
def OpStrategy.trans (P : OpStrategy α β ε σ) (s : σ) : List (Call α ε) → List (Call β ε)
  | [] => []
  | c :: cs => (P.feed s c).2 ++ P.trans (P.feed s c).1 cs

/-- Well-formed strategies: terminal notifications produce terminal notifications, and only
`set_upstream` hands over disposables. -/
structure OpStrategy.OK (P : OpStrategy α β ε σ) : Prop where
  err : ∀ e s, (P.onError e s).out.any Call.isTerm = true
  comp : ∀ s, (P.onCompleted s).out.any Call.isTerm = true
  ups_next : ∀ a s, upsOf (P.onNext a s).out = []
  ups_err : ∀ e s, upsOf (P.onError e s).out = []
  ups_comp : ∀ s, upsOf (P.onCompleted s).out = []

theorem OpStrategy.feed_ups {P : OpStrategy α β ε σ} (hP : P.OK) (s c) :
    upsOf (P.feed s c).2 = upsOf [c] := by
  cases c with
  | next a =>
    simp only [feed]
    cases hth : (P.onNext a s).throws with
    | none => simp [upsOf, hP.ups_next]
    | some e => simp [upsOf, upsOf_append, hP.ups_next, hP.ups_err]
  | error e => simp [feed, upsOf, hP.ups_err]
  | completed => simp [feed, upsOf, hP.ups_comp]
  | up d => rfl

theorem OpStrategy.trans_ups {P : OpStrategy α β ε σ} (hP : P.OK) (cs : List (Call α ε)) :
    ∀ s, upsOf (P.trans s cs) = upsOf cs := by
  induction cs with
  | nil => intro s; rfl
  | cons c cs ih =>
    intro s
    rw [trans, upsOf_append, ih, feed_ups hP]
    cases c <;> rfl

theorem OpStrategy.lift_isDisposed (P : OpStrategy α β ε σ) (down : Obs β ε τ) (s : σ × τ) :
    (P.lift down).isDisposed s = down.isDisposed s.2 := by
  simp [OpStrategy.lift, observerImpl, noneDisp, OpStrategy.strategy]

theorem OpStrategy.lift_release (P : OpStrategy α β ε σ) (down : Obs β ε τ) (s : σ × τ) (d) :
    (P.lift down).release d s = (s.1, down.release d s.2) := rfl

/-- One call on a lifted, not disposed observer. -/
theorem OpStrategy.lift_call {P : OpStrategy α β ε σ} (hP : P.OK) {down : Obs β ε τ} (h : Lawful down)
    (s : σ × τ) (hs : down.isDisposed s.2 = false) (c : Call α ε) :
    ((P.lift down).call c s).2 = down.run s.2 (P.feed s.1 c).2 ∧
    (down.isDisposed ((P.lift down).call c s).2 = false →
      ((P.lift down).call c s).1 = (P.feed s.1 c).1) := by
  cases c with
  | next a =>
    simp only [Obs.call, OpStrategy.lift, observerImpl, noneDisp, OpStrategy.strategy, hs, feed,
      Bool.or_self, Bool.false_eq_true, if_false, implOnError]
    cases hth : (P.onNext a s.1).throws with
    | none => simp
    | some e =>
      simp only [Bool.false_or]
      cases hd : down.isDisposed (down.run s.2 (P.onNext a s.1).out) with
      | true =>
        rw [if_pos rfl]
        constructor
        · rw [Obs.run_append]
          show _ = down.run _ _
          rw [h.run_disposed _ _ hd]
          rw [hP.ups_err]; rfl
        · intro h2; rw [hd] at h2; exact absurd h2 (by simp)
      | false => simp [Obs.run_append]
  | error e =>
    simp [Obs.call, OpStrategy.lift, observerImpl, noneDisp, OpStrategy.strategy, hs, feed, implOnError]
  | completed =>
    simp [Obs.call, OpStrategy.lift, observerImpl, noneDisp, OpStrategy.strategy, hs, feed]
  | up d =>
    simp [Obs.call, OpStrategy.lift, observerImpl, noneDisp, OpStrategy.strategy, hs, feed]

theorem OpStrategy.feed_term {P : OpStrategy α β ε σ} (hP : P.OK) (s c) (hc : c.isTerm = true) :
    (P.feed s c).2.any Call.isTerm = true := by
  cases c with
  | error e => exact hP.err e s
  | completed => exact hP.comp s
  | next a => simp [Call.isTerm] at hc
  | up d => simp [Call.isTerm] at hc

theorem OpStrategy.lift_lawful {P : OpStrategy α β ε σ} (hP : P.OK) {down : Obs β ε τ}
    (h : Lawful down) : Lawful (P.lift down) where
  ignore s c hs hc := by
    rw [lift_isDisposed] at hs
    cases c <;> simp_all [Obs.call, OpStrategy.lift, observerImpl, noneDisp, OpStrategy.strategy,
      implOnError, Call.isEvent]
  up_disposed s d hs := by
    rw [lift_isDisposed] at hs
    simp [OpStrategy.lift, observerImpl, noneDisp, OpStrategy.strategy, hs]
  release_disposed s d hs := by
    rw [lift_isDisposed] at *
    exact h.release_disposed _ _ hs
  term s c hc := by
    rw [lift_isDisposed]
    cases hd : down.isDisposed s.2 with
    | true =>
      have : (P.lift down).call c s = s := by
        cases c <;> simp_all [Obs.call, OpStrategy.lift, observerImpl, noneDisp, OpStrategy.strategy,
          implOnError, Call.isTerm]
      rw [this]; exact hd
    | false =>
      rw [(lift_call hP h s hd c).1]
      exact h.run_term _ _ (feed_term hP _ _ hc)

/-- **Key lemma.** Running a lifted observer is the same, seen from the observer below, as feeding that
observer with the operator's output. -/
theorem OpStrategy.lift_run {P : OpStrategy α β ε σ} (hP : P.OK) {down : Obs β ε τ}
    (h : Lawful down) (cs : List (Call α ε)) :
    ∀ s : σ × τ, ((P.lift down).run s cs).2 = down.run s.2 (P.trans s.1 cs) := by
  induction cs with
  | nil => intro s; rfl
  | cons c cs ih =>
    intro s
    cases hd : down.isDisposed s.2 with
    | true =>
      have hd' : (P.lift down).isDisposed s = true := by rw [lift_isDisposed]; exact hd
      rw [(lift_lawful hP h).run_disposed _ _ hd', h.run_disposed _ _ hd, trans_ups hP]
      generalize upsOf (c :: cs) = ds
      clear ih hd hd'
      induction ds generalizing s with
      | nil => rfl
      | cons d ds ih => rw [List.foldl_cons, List.foldl_cons, ih]; rfl
    | false =>
      have hc := lift_call hP h s hd c
      rw [Obs.run_cons, ih, trans, Obs.run_append, ← hc.1]
      cases hd2 : down.isDisposed ((P.lift down).call c s).2 with
      | false => rw [hc.2 hd2]
      | true => rw [h.run_disposed _ _ hd2, h.run_disposed _ _ hd2, trans_ups hP, trans_ups hP]

/-! ## Pipelines -/

/-- Everything a pipeline sends to its subscriber. -/
def Pipe.trans : Pipe ε α γ → List (Call α ε) → List (Call γ ε)
  | .nil, cs => cs
  | .cons o p, cs => p.trans (o.strategy.initOut ++ o.strategy.trans o.strategy.init cs)

theorem any_isTerm_append_right (l : List (Call α ε)) (m : List (Call α ε))
    (h : m.any Call.isTerm = true) : (l ++ m).any Call.isTerm = true := by
  rw [List.any_append, h, Bool.or_true]

theorem upsOf_takeLastDrain (data : List α) : ∀ k cur,
    upsOf (Ops.takeLastDrain (ε := ε) data cur k) = [] := by
  intro k
  induction k with
  | zero => intro cur; rfl
  | succ k ih =>
    intro cur
    rw [Ops.takeLastDrain, upsOf_append, ih]
    cases data[cur]? <;> rfl

theorem elementAt_ups (i : Nat) (e : ε) (a : α) (s : Nat) :
    upsOf ((Ops.elementAt i e).onNext a s).out = [] := by
  simp only [Ops.elementAt]
  by_cases h : (if s ≠ 0 then s - 1 else s) = 0
  · rw [if_pos h]; rfl
  · rw [if_neg h]; rfl

theorem Op.ok : (o : Op ε α β) → o.strategy.OK
  | .map f => ⟨fun _ _ => rfl, fun _ => rfl, fun a s => by
      simp only [strategy, Ops.map]; cases f a <;> rfl, fun _ _ => rfl, fun _ => rfl⟩
  | .filter p => ⟨fun _ _ => rfl, fun _ => rfl, fun a s => by
      simp only [strategy, Ops.filter]; split <;> rfl, fun _ _ => rfl, fun _ => rfl⟩
  | .take n => ⟨fun _ _ => rfl, fun _ => rfl, fun a s => by
      simp only [strategy, Ops.take]; split <;> split <;> rfl, fun _ _ => rfl, fun _ => rfl⟩
  | .skip n => ⟨fun _ _ => rfl, fun _ => rfl, fun a s => by
      simp only [strategy, Ops.skip]; split <;> rfl, fun _ _ => rfl, fun _ => rfl⟩
  | .takeWhile p => ⟨fun _ _ => rfl, fun _ => rfl, fun a s => by
      simp only [strategy, Ops.takeWhile]; split <;> rfl, fun _ _ => rfl, fun _ => rfl⟩
  | .takeLast n => ⟨fun _ _ => rfl, fun s => by
      simp only [strategy, Ops.takeLast]; exact any_isTerm_append_right _ _ rfl, fun a s => by
      simp only [strategy, Ops.takeLast]; split <;> (try split) <;> rfl, fun _ _ => rfl, fun s => by
      simp only [strategy, Ops.takeLast]; rw [upsOf_append, upsOf_takeLastDrain]; rfl⟩
  | .first e => ⟨fun _ _ => rfl, fun _ => rfl, fun _ _ => rfl, fun _ _ => rfl, fun _ => rfl⟩
  | .last e => ⟨fun _ _ => rfl, fun s => by
      simp only [strategy, Ops.last]; cases s <;> rfl, fun _ _ => rfl, fun _ _ => rfl, fun s => by
      simp only [strategy, Ops.last]; cases s <;> rfl⟩
  | .elementAt i e => ⟨fun _ _ => rfl, fun s => by
      simp only [strategy, Ops.elementAt]; split <;> rfl, fun a s => elementAt_ups i e a s, fun _ _ => rfl, fun s => by
      simp only [strategy, Ops.elementAt]; split <;> rfl⟩
  | @Op.distinct _ _ inst => ⟨fun _ _ => rfl, fun _ => rfl, fun a s => by
      simp only [strategy, Ops.distinct]; split <;> rfl, fun _ _ => rfl, fun _ => rfl⟩
  | .distinctUntilChanged eq => ⟨fun _ _ => rfl, fun _ => rfl, fun a s => by
      simp only [strategy, Ops.distinctUntilChanged]; split <;> (try split) <;> rfl,
      fun _ _ => rfl, fun _ => rfl⟩
  | .scan b f => ⟨fun _ _ => rfl, fun _ => rfl, fun a s => by
      simp only [strategy, Ops.scan]; split <;> rfl, fun _ _ => rfl, fun _ => rfl⟩
  | .scanNoSeed f => ⟨fun _ _ => rfl, fun _ => rfl, fun a s => by
      simp only [strategy, Ops.scanNoSeed]; split <;> (try split) <;> rfl, fun _ _ => rfl, fun _ => rfl⟩
  | .reduce b f => ⟨fun _ _ => rfl, fun _ => rfl, fun a s => by
      simp only [strategy, Ops.reduce]; split <;> rfl, fun _ _ => rfl, fun _ => rfl⟩
  | .reduceNoSeed f => ⟨fun _ _ => rfl, fun s => by
      simp only [strategy, Ops.reduceNoSeed]; exact any_isTerm_append_right _ _ rfl, fun a s => by
      simp only [strategy, Ops.reduceNoSeed]; split <;> (try split) <;> rfl, fun _ _ => rfl, fun s => by
      simp only [strategy, Ops.reduceNoSeed]; split <;> rfl⟩
  | .buffer n => ⟨fun _ _ => rfl, fun s => by
      simp only [strategy, Ops.buffer]; exact any_isTerm_append_right _ _ rfl, fun a s => by
      simp only [strategy, Ops.buffer]; split <;> rfl, fun _ _ => rfl, fun s => by
      simp only [strategy, Ops.buffer]; split <;> rfl⟩
  | .tap cb => ⟨fun _ _ => rfl, fun _ => rfl, fun a s => by
      simp only [strategy, Ops.tap]; split <;> rfl, fun _ _ => rfl, fun _ => rfl⟩
  | .finallyOp d => ⟨fun _ _ => rfl, fun _ => rfl, fun _ _ => rfl, fun _ _ => rfl, fun _ => rfl⟩
  | .throttle d => ⟨fun _ _ => rfl, fun _ => rfl, fun a s => by
      simp only [strategy, Ops.throttle]; split <;> (try split) <;> rfl, fun _ _ => rfl, fun _ => rfl⟩

theorem Pipe.lift_lawful {τ : Type} : {α γ : Type} → (p : Pipe ε α γ) → {O : Obs γ ε τ} →
    (h : Lawful O) → Lawful (p.lift O)
  | _, _, .nil, _, h => h
  | _, _, .cons o p, _, h => OpStrategy.lift_lawful o.ok (p.lift_lawful h)

/-- A pipeline's effect on the final observer, starting from freshly lifted operators. -/
theorem Pipe.final_run {τ : Type} : {α γ : Type} → {O : Obs γ ε τ} → (h : Lawful O) → (t : τ) →
    (p : Pipe ε α γ) → (cs : List (Call α ε)) →
    p.final ((p.lift O).run (p.start O t) cs) = O.run t (p.trans cs)
  | _, _, _, _, _, .nil, cs => rfl
  | _, _, O, h, t, .cons o p, cs => by
    have key := OpStrategy.lift_run o.ok (p.lift_lawful h) cs
      (o.strategy.start (p.lift O) (p.start O t))
    have ih := p.final_run h t (o.strategy.initOut ++ o.strategy.trans o.strategy.init cs)
    rw [Obs.run_append] at ih
    exact (congrArg p.final key).trans ih

end Rpp
