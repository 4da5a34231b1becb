import Verif.LetGo.Model
import Verif.Core.OpProofs
import Verif.Core.FeedProofs

/-!
# Helper lemmas for C109: observers that are deaf when disposed of, and chains that are silent after an error
-/

namespace Rpp.LetGo

variable {α β γ ε σ τ : Type}

/-- `Lawful` without the law that a terminal call disposes.  Helper of the proofs; models no code. -/
structure Deaf (O : Obs α ε σ) : Prop where
  ignore : ∀ s c, O.isDisposed s = true → c.isEvent = true → O.call c s = s
  up_disposed : ∀ s d, O.isDisposed s = true → O.setUpstream d s = O.release d s
  release_disposed : ∀ s d, O.isDisposed s = true → O.isDisposed (O.release d s) = true

theorem Deaf.stays {O : Obs α ε σ} (h : Deaf O) (s c) (hd : O.isDisposed s = true) : O.isDisposed (O.call c s) = true := by
  cases c with
  | up d => show O.isDisposed (O.setUpstream d s) = true
            rw [h.up_disposed s d hd]; exact h.release_disposed s d hd
  | next a => rw [h.ignore s _ hd rfl]; exact hd
  | error a => rw [h.ignore s _ hd rfl]; exact hd
  | completed => rw [h.ignore s _ hd rfl]; exact hd

theorem Deaf.run_disposed {O : Obs α ε σ} (h : Deaf O) (cs : List (Call α ε)) :
    ∀ s, O.isDisposed s = true → O.run s cs = (upsOf cs).foldl (fun s d => O.release d s) s := by
  induction cs with
  | nil => intro s _; rfl
  | cons c cs ih =>
    intro s hs
    rw [Obs.run_cons, ih _ (h.stays s c hs)]
    cases c with
    | up d => show _ = List.foldl _ s (d :: upsOf cs)
              rw [List.foldl_cons]
              show List.foldl _ (O.setUpstream d s) _ = _
              rw [h.up_disposed s d hs]
    | next a => rw [h.ignore s _ hs rfl]; rfl
    | error a => rw [h.ignore s _ hs rfl]; rfl
    | completed => rw [h.ignore s _ hs rfl]; rfl

theorem lift_deaf (P : OpStrategy α β ε σ) {down : Obs β ε τ} (h : Deaf down) : Deaf (P.lift down) where
  ignore s c hs hc := by
    rw [P.lift_isDisposed] at hs
    cases c <;> simp_all [Obs.call, OpStrategy.lift, observerImpl, noneDisp, OpStrategy.strategy, implOnError, Call.isEvent]
  up_disposed s d hs := by
    rw [P.lift_isDisposed] at hs
    simp [OpStrategy.lift, observerImpl, noneDisp, OpStrategy.strategy, hs]
  release_disposed s d hs := by
    rw [P.lift_isDisposed] at *
    exact h.release_disposed _ _ hs

theorem lift_call {P : OpStrategy α β ε σ} (hP : P.OK) {down : Obs β ε τ} (h : Deaf down)
    (s : σ × τ) (hs : down.isDisposed s.2 = false) (c : Call α ε) :
    ((P.lift down).call c s).2 = down.run s.2 (P.feed s.1 c).2 ∧
    (down.isDisposed ((P.lift down).call c s).2 = false →
      ((P.lift down).call c s).1 = (P.feed s.1 c).1) := by
  cases c with
  | next a =>
    simp only [Obs.call, OpStrategy.lift, observerImpl, noneDisp, OpStrategy.strategy, hs, OpStrategy.feed,
      Bool.or_self, Bool.false_eq_true, if_false, implOnError]
    cases hth : (P.onNext a s.1).throws with
    | none => simp
    | some e =>
      simp only [Bool.false_or]
      cases hd : down.isDisposed (down.run s.2 (P.onNext a s.1).out) with
      | true =>
        rw [if_pos rfl]
        constructor
        · rw [Obs.run_append]
          show _ = down.run _ _
          rw [h.run_disposed _ _ hd]
          rw [hP.ups_err]; rfl
        · intro h2; rw [hd] at h2; exact absurd h2 (by simp)
      | false => simp [Obs.run_append]
  | error e =>
    simp [Obs.call, OpStrategy.lift, observerImpl, noneDisp, OpStrategy.strategy, hs, OpStrategy.feed, implOnError]
  | completed =>
    simp [Obs.call, OpStrategy.lift, observerImpl, noneDisp, OpStrategy.strategy, hs, OpStrategy.feed]
  | up d =>
    simp [Obs.call, OpStrategy.lift, observerImpl, noneDisp, OpStrategy.strategy, hs, OpStrategy.feed]

theorem lift_run {P : OpStrategy α β ε σ} (hP : P.OK) {down : Obs β ε τ} (h : Deaf down) (cs : List (Call α ε)) :
    ∀ s : σ × τ, ((P.lift down).run s cs).2 = down.run s.2 (P.trans s.1 cs) := by
  induction cs with
  | nil => intro s; rfl
  | cons c cs ih =>
    intro s
    cases hd : down.isDisposed s.2 with
    | true =>
      have hd' : (P.lift down).isDisposed s = true := by rw [P.lift_isDisposed]; exact hd
      rw [(lift_deaf P h).run_disposed _ _ hd', h.run_disposed _ _ hd, OpStrategy.trans_ups hP]
      generalize upsOf (c :: cs) = ds
      clear ih hd hd'
      induction ds generalizing s with
      | nil => rfl
      | cons d ds ih => rw [List.foldl_cons, List.foldl_cons, ih]; rfl
    | false =>
      have hc := lift_call hP h s hd c
      rw [Obs.run_cons, ih, OpStrategy.trans, Obs.run_append, ← hc.1]
      cases hd2 : down.isDisposed ((P.lift down).call c s).2 with
      | false => rw [hc.2 hd2]
      | true => rw [h.run_disposed _ _ hd2, h.run_disposed _ _ hd2, OpStrategy.trans_ups hP, OpStrategy.trans_ups hP]

theorem pipe_deaf {τ : Type} : {α γ : Type} → (p : Pipe ε α γ) → {O : Obs γ ε τ} → (h : Deaf O) → Deaf (p.lift O)
  | _, _, .nil, _, h => h
  | _, _, .cons o p, _, h => lift_deaf o.strategy (pipe_deaf p h)

theorem pipe_run {τ : Type} : {α γ : Type} → {O : Obs γ ε τ} → (h : Deaf O) → (t : τ) →
    (p : Pipe ε α γ) → (cs : List (Call α ε)) →
    p.final ((p.lift O).run (p.start O t) cs) = O.run t (p.trans cs)
  | _, _, _, _, _, .nil, cs => rfl
  | _, _, O, h, t, .cons o p, cs => by
    have key := lift_run o.ok (pipe_deaf p h) cs (o.strategy.start (p.lift O) (p.start O t))
    have ih := pipe_run h t p (o.strategy.initOut ++ o.strategy.trans o.strategy.init cs)
    rw [Obs.run_append] at ih
    exact (congrArg p.final key).trans ih

theorem final_mapFinal {τ : Type} (f : τ → τ) : {α γ : Type} → (p : Pipe ε α γ) → (s : p.State τ) → p.final (p.mapFinal f s) = f (p.final s)
  | _, _, .nil, _ => rfl
  | _, _, .cons _ p, s => final_mapFinal f p s.2

/-! ## Chains that are silent after an error -/

/-- The call is an error. -/
def isErr : Call α ε → Bool
  | .error _ => true
  | _ => false

/-- A call with `q` is the last one.  Helper of the proofs; models no code. -/
def LastQ (q : Call α ε → Bool) : List (Call α ε) → Prop
  | [] => True
  | c :: l => (q c = true → l = []) ∧ LastQ q l

theorem lastQ_of_none {q : Call α ε → Bool} : ∀ {l : List (Call α ε)}, (∀ c ∈ l, q c = false) → LastQ q l
  | [], _ => trivial
  | c :: l, h => ⟨fun hq => absurd hq (by rw [h c List.mem_cons_self]; simp), lastQ_of_none fun x hx => h x (List.mem_cons_of_mem _ hx)⟩

theorem lastQ_append {q : Call α ε → Bool} : ∀ {l m : List (Call α ε)}, (∀ c ∈ l, q c = false) → LastQ q m → LastQ q (l ++ m)
  | [], _, _, h => h
  | c :: l, _, h1, h2 => ⟨fun hq => absurd hq (by rw [h1 c List.mem_cons_self]; simp),
      lastQ_append (fun x hx => h1 x (List.mem_cons_of_mem _ hx)) h2⟩

theorem lastQ_mono {q r : Call α ε → Bool} (h : ∀ c, r c = true → q c = true) : ∀ {l : List (Call α ε)}, LastQ q l → LastQ r l
  | [], _ => trivial
  | _ :: _, ⟨h1, h2⟩ => ⟨fun hr => h1 (h _ hr), lastQ_mono h h2⟩

theorem err_term (c : Call α ε) (h : isErr c = true) : c.isTerm = true := by cases c <;> first | rfl | cases h

theorem trans_last {P : OpStrategy α β ε σ} {q : Call α ε → Bool} {r : Call β ε → Bool}
    (h1 : ∀ s c, q c = false → ∀ x ∈ (P.feed s c).2, r x = false) (h2 : ∀ s c, q c = true → LastQ r (P.feed s c).2) :
    ∀ (cs : List (Call α ε)) s, LastQ q cs → LastQ r (P.trans s cs)
  | [], _, _ => trivial
  | c :: cs, s, ⟨g1, g2⟩ => by
    show LastQ r ((P.feed s c).2 ++ P.trans (P.feed s c).1 cs)
    cases hq : q c with
    | false => exact lastQ_append (h1 s c hq) (trans_last h1 h2 cs _ g2)
    | true =>
      have := g1 hq
      subst this
      show LastQ r (_ ++ [])
      rw [List.append_nil]
      exact h2 s c hq

/-! The operators. -/

/-- The functions of the user that the operator calls do not throw. (the operators cited at their strategies) -/
def Tame : Op ε α β → Prop
  | .map f => ∀ a, ∃ b, f a = .ok b
  | .filter p => ∀ a, ∃ b, p a = .ok b
  | .takeWhile p => ∀ a, ∃ b, p a = .ok b
  | .distinctUntilChanged eq => ∀ a b, ∃ c, eq a b = .ok c
  | .scan _ f => ∀ a b, ∃ c, f a b = .ok c
  | .scanNoSeed f => ∀ a b, ∃ c, f a b = .ok c
  | .reduce _ f => ∀ a b, ∃ c, f a b = .ok c
  | .reduceNoSeed f => ∀ a b, ∃ c, f a b = .ok c
  | .tap cb => ∀ a, cb a = none
  | _ => True

/-- The operator may end although its source has not. (operators/take.hpp 40, take_while.hpp 33, first.hpp 30, element_at.hpp 43) -/
def Early : Op ε α β → Bool
  | .take _ | .takeWhile _ | .first _ | .elementAt _ _ => true
  | _ => false

/-- The operator may turn a completion into an error. (operators/first.hpp 36, last.hpp 44, element_at.hpp 56) -/
def Picky : Op ε α β → Bool
  | .first _ | .last _ | .elementAt _ _ => true
  | _ => false

/-- No operator turns a completion into an error; see `Picky`. -/
def Plain : {α γ : Type} → Pipe ε α γ → Prop
  | _, _, .nil => True
  | _, _, .cons o p => Picky o = false ∧ Plain p

/-- The pipeline fails only when its source ends: no function throws, and after an operator that ends by itself there is none that may
turn a completion into an error.  Part of the specification; see `Tame`, `Early` and `Picky`. -/
def Quiet : {α γ : Type} → Pipe ε α γ → Prop
  | _, _, .nil => True
  | _, _, .cons o p => Tame o ∧ Quiet p ∧ (Early o = true → Plain p)

theorem op_next : (o : Op ε α β) → Tame o → ∀ a s, (o.strategy.onNext a s).throws = none ∧ ∀ c ∈ (o.strategy.onNext a s).out, isErr c = false
  | .map f, h, a, s => by
    obtain ⟨b, hb⟩ := h a
    simp [Op.strategy, Ops.map, hb, isErr]
  | .filter p, h, a, s => by
    obtain ⟨b, hb⟩ := h a
    cases b <;> simp [Op.strategy, Ops.filter, hb, isErr]
  | .take n, _, a, s => by
    simp only [Op.strategy, Ops.take]
    split <;> split <;> simp [isErr]
  | .skip n, _, a, s => by
    simp only [Op.strategy, Ops.skip]
    split <;> simp [isErr]
  | .takeWhile p, h, a, s => by
    obtain ⟨b, hb⟩ := h a
    cases b <;> simp [Op.strategy, Ops.takeWhile, hb, isErr]
  | .takeLast n, _, a, s => by
    simp only [Op.strategy, Ops.takeLast]
    split
    · simp
    · split <;> simp
  | .first e, _, a, s => by simp [Op.strategy, Ops.first, isErr]
  | .last e, _, a, s => by simp [Op.strategy, Ops.last]
  | .elementAt i e, _, a, s => by
    have : ∀ s : Nat, ((Ops.elementAt i e).onNext a s).throws = none ∧ ∀ c ∈ ((Ops.elementAt i e).onNext a s).out, isErr c = false := by
      intro s
      simp only [Ops.elementAt]
      generalize (if s ≠ 0 then s - 1 else s) = n
      by_cases hn : n = 0 <;> simp [hn, isErr]
    exact this s
  | @Op.distinct _ _ _, _, a, s => by
    simp only [Op.strategy, Ops.distinct]
    split <;> simp [isErr]
  | .distinctUntilChanged eq, h, a, s => by
    simp only [Op.strategy, Ops.distinctUntilChanged]
    split
    · simp [isErr]
    · next l =>
      obtain ⟨b, hb⟩ := h l a
      rw [hb]; cases b <;> simp [isErr]
  | .scan b f, h, a, s => by
    obtain ⟨c, hc⟩ := h s a
    simp [Op.strategy, Ops.scan, hc, isErr]
  | .scanNoSeed f, h, a, s => by
    simp only [Op.strategy, Ops.scanNoSeed]
    split
    · simp [isErr]
    · next l =>
      obtain ⟨b, hb⟩ := h l a
      rw [hb]; simp [isErr]
  | .reduce b f, h, a, s => by
    obtain ⟨c, hc⟩ := h s a
    simp [Op.strategy, Ops.reduce, hc]
  | .reduceNoSeed f, h, a, s => by
    simp only [Op.strategy, Ops.reduceNoSeed]
    split
    · simp
    · next l =>
      obtain ⟨b, hb⟩ := h l a
      rw [hb]; simp
  | .buffer n, _, a, s => by
    simp only [Op.strategy, Ops.buffer]
    split <;> simp [isErr]
  | .tap cb, h, a, s => by simp [Op.strategy, Ops.tap, h a, isErr]
  | .finallyOp d, _, a, s => by simp [Op.strategy, Ops.finallyOp, isErr]
  | .throttle d, _, a, s => by
    simp only [Op.strategy, Ops.throttle]
    split
    · simp [isErr]
    · split <;> simp [isErr]

theorem op_steady : (o : Op ε α β) → Tame o → Early o = false → ∀ a s, ∀ c ∈ (o.strategy.onNext a s).out, c.isTerm = false
  | .map f, h, _, a, s => by
    obtain ⟨b, hb⟩ := h a
    simp [Op.strategy, Ops.map, hb, Call.isTerm]
  | .filter p, h, _, a, s => by
    obtain ⟨b, hb⟩ := h a
    cases b <;> simp [Op.strategy, Ops.filter, hb, Call.isTerm]
  | .skip n, _, _, a, s => by
    simp only [Op.strategy, Ops.skip]
    split <;> simp [Call.isTerm]
  | .takeLast n, _, _, a, s => by
    simp only [Op.strategy, Ops.takeLast]
    split
    · simp
    · split <;> simp
  | .last e, _, _, a, s => by simp [Op.strategy, Ops.last]
  | @Op.distinct _ _ _, _, _, a, s => by
    simp only [Op.strategy, Ops.distinct]
    split <;> simp [Call.isTerm]
  | .distinctUntilChanged eq, h, _, a, s => by
    simp only [Op.strategy, Ops.distinctUntilChanged]
    split
    · simp [Call.isTerm]
    · next l =>
      obtain ⟨b, hb⟩ := h l a
      rw [hb]; cases b <;> simp [Call.isTerm]
  | .scan b f, h, _, a, s => by
    obtain ⟨c, hc⟩ := h s a
    simp [Op.strategy, Ops.scan, hc, Call.isTerm]
  | .scanNoSeed f, h, _, a, s => by
    simp only [Op.strategy, Ops.scanNoSeed]
    split
    · simp [Call.isTerm]
    · next l =>
      obtain ⟨b, hb⟩ := h l a
      rw [hb]; simp [Call.isTerm]
  | .reduce b f, h, _, a, s => by
    obtain ⟨c, hc⟩ := h s a
    simp [Op.strategy, Ops.reduce, hc]
  | .reduceNoSeed f, h, _, a, s => by
    simp only [Op.strategy, Ops.reduceNoSeed]
    split
    · simp
    · next l =>
      obtain ⟨b, hb⟩ := h l a
      rw [hb]; simp
  | .buffer n, _, _, a, s => by
    simp only [Op.strategy, Ops.buffer]
    split <;> simp [Call.isTerm]
  | .tap cb, h, _, a, s => by simp [Op.strategy, Ops.tap, h a, Call.isTerm]
  | .finallyOp d, _, _, a, s => by simp [Op.strategy, Ops.finallyOp, Call.isTerm]
  | .throttle d, _, _, a, s => by
    simp only [Op.strategy, Ops.throttle]
    split
    · simp [Call.isTerm]
    · split <;> simp [Call.isTerm]
  | .take n, _, h, _, _ => by cases h
  | .takeWhile p, _, h, _, _ => by cases h
  | .first e, _, h, _, _ => by cases h
  | .elementAt i e, _, h, _, _ => by cases h

theorem drain_next (data : List α) : ∀ k cur, ∀ c ∈ Ops.takeLastDrain (ε := ε) data cur k, c.isTerm = false
  | 0, _, c, hc => by cases hc
  | k + 1, cur, c, hc => by
    rw [Ops.takeLastDrain, List.mem_append] at hc
    rcases hc with hc | hc
    · cases hd : data[cur]? with
      | none => rw [hd] at hc; cases hc
      | some a => rw [hd] at hc; simp at hc; subst hc; rfl
    · exact drain_next data k _ c hc

theorem op_error (o : Op ε α β) (e : ε) (s) : (o.strategy.onError e s).out = [.error e] := by cases o <;> rfl

theorem op_completed : (o : Op ε α β) → ∀ s, LastQ Call.isTerm (o.strategy.onCompleted s).out
  | .takeLast n, s => lastQ_append (drain_next _ _ _) ⟨fun _ => rfl, trivial⟩
  | .last e, s => by
    simp only [Op.strategy, Ops.last]
    cases s with
    | none => exact ⟨fun _ => rfl, trivial⟩
    | some a => exact ⟨(fun h => nomatch h), (fun _ => rfl), trivial⟩
  | .elementAt i e, s => by
    simp only [Op.strategy, Ops.elementAt]
    split <;> exact ⟨fun _ => rfl, trivial⟩
  | .reduce b f, s => ⟨(fun h => nomatch h), (fun _ => rfl), trivial⟩
  | .reduceNoSeed f, s => by
    simp only [Op.strategy, Ops.reduceNoSeed]
    cases s with
    | none => exact ⟨fun _ => rfl, trivial⟩
    | some a => exact ⟨(fun h => nomatch h), (fun _ => rfl), trivial⟩
  | .buffer n, s => by
    simp only [Op.strategy, Ops.buffer]
    split
    · exact ⟨fun _ => rfl, trivial⟩
    · exact ⟨(fun h => nomatch h), (fun _ => rfl), trivial⟩
  | .map _, _ => ⟨fun _ => rfl, trivial⟩
  | .filter _, _ => ⟨fun _ => rfl, trivial⟩
  | .take _, _ => ⟨fun _ => rfl, trivial⟩
  | .skip _, _ => ⟨fun _ => rfl, trivial⟩
  | .takeWhile _, _ => ⟨fun _ => rfl, trivial⟩
  | .first _, _ => ⟨fun _ => rfl, trivial⟩
  | @Op.distinct _ _ _, _ => ⟨fun _ => rfl, trivial⟩
  | .distinctUntilChanged _, _ => ⟨fun _ => rfl, trivial⟩
  | .scan _ _, _ => ⟨fun _ => rfl, trivial⟩
  | .scanNoSeed _, _ => ⟨fun _ => rfl, trivial⟩
  | .tap _, _ => ⟨fun _ => rfl, trivial⟩
  | .finallyOp _, _ => ⟨fun _ => rfl, trivial⟩
  | .throttle _, _ => ⟨fun _ => rfl, trivial⟩

theorem op_plain : (o : Op ε α β) → Picky o = false → ∀ s, ∀ c ∈ (o.strategy.onCompleted s).out, isErr c = false
  | .takeLast n, _, s, c, hc => by
    simp only [Op.strategy, Ops.takeLast, List.mem_append] at hc
    rcases hc with hc | hc
    · have := drain_next _ _ _ c hc
      cases h : isErr c with
      | false => rfl
      | true => rw [err_term c h] at this; cases this
    · simp at hc; subst hc; rfl
  | .reduce b f, _, s, c, hc => by
    simp [Op.strategy, Ops.reduce] at hc
    rcases hc with rfl | rfl <;> rfl
  | .reduceNoSeed f, _, s, c, hc => by
    simp only [Op.strategy, Ops.reduceNoSeed] at hc
    cases s with
    | none => simp at hc; subst hc; rfl
    | some a => simp at hc; rcases hc with rfl | rfl <;> rfl
  | .buffer n, _, s, c, hc => by
    simp only [Op.strategy, Ops.buffer] at hc
    split at hc
    · simp at hc; subst hc; rfl
    · simp at hc; rcases hc with rfl | rfl <;> rfl
  | .map _, _, _, c, hc => by rw [List.mem_singleton.1 hc]; rfl
  | .filter _, _, _, c, hc => by rw [List.mem_singleton.1 hc]; rfl
  | .take _, _, _, c, hc => by rw [List.mem_singleton.1 hc]; rfl
  | .skip _, _, _, c, hc => by rw [List.mem_singleton.1 hc]; rfl
  | .takeWhile _, _, _, c, hc => by rw [List.mem_singleton.1 hc]; rfl
  | @Op.distinct _ _ _, _, _, c, hc => by rw [List.mem_singleton.1 hc]; rfl
  | .distinctUntilChanged _, _, _, c, hc => by rw [List.mem_singleton.1 hc]; rfl
  | .scan _ _, _, _, c, hc => by rw [List.mem_singleton.1 hc]; rfl
  | .scanNoSeed _, _, _, c, hc => by rw [List.mem_singleton.1 hc]; rfl
  | .tap _, _, _, c, hc => by rw [List.mem_singleton.1 hc]; rfl
  | .finallyOp _, _, _, c, hc => by rw [List.mem_singleton.1 hc]; rfl
  | .throttle _, _, _, c, hc => by rw [List.mem_singleton.1 hc]; rfl
  | .first _, h, _, _, _ => by cases h
  | .last _, h, _, _, _ => by cases h
  | .elementAt _ _, h, _, _, _ => by cases h

theorem op_init (o : Op ε α β) : ∀ c ∈ o.strategy.initOut, Call.isTerm c = false := by
  cases o <;> simp [Op.strategy, Ops.map, Ops.filter, Ops.take, Ops.skip, Ops.takeWhile, Ops.takeLast, Ops.first, Ops.last, Ops.elementAt,
    Ops.distinct, Ops.distinctUntilChanged, Ops.scan, Ops.scanNoSeed, Ops.reduce, Ops.reduceNoSeed, Ops.buffer, Ops.tap, Ops.finallyOp,
    Ops.throttle, Call.isTerm]

theorem not_err {c : Call α ε} (h : c.isTerm = false) : isErr c = false := by
  cases hc : isErr c with
  | false => rfl
  | true => rw [err_term c hc] at h; cases h

theorem feed_next (o : Op ε α β) (h : Tame o) (s a) : (o.strategy.feed s (.next a)).2 = (o.strategy.onNext a s).out := by
  simp only [OpStrategy.feed, (op_next o h a s).1]

/-- At most one terminal call, the last one → at most one error, the last one, in what is passed on. -/
theorem op_late (o : Op ε α β) (h : Tame o) (cs : List (Call α ε)) (hc : LastQ Call.isTerm cs) :
    LastQ isErr (o.strategy.initOut ++ o.strategy.trans o.strategy.init cs) := by
  refine lastQ_append (fun c hc => not_err (op_init o c hc)) (trans_last (q := Call.isTerm) (fun s c hq x hx => ?_) (fun s c hq => ?_) cs _ hc)
  · cases c with
    | next a => rw [feed_next o h] at hx; exact (op_next o h a s).2 x hx
    | up d => rw [List.mem_singleton.1 hx]; rfl
    | error e => cases hq
    | completed => cases hq
  · cases c with
    | next a => cases hq
    | up d => cases hq
    | error e => show LastQ isErr (o.strategy.onError e s).out; rw [op_error]; exact ⟨fun _ => rfl, trivial⟩
    | completed => exact lastQ_mono err_term (op_completed o s)

theorem op_single (o : Op ε α β) (h : Tame o) (he : Early o = false) (cs : List (Call α ε)) (hc : LastQ Call.isTerm cs) :
    LastQ Call.isTerm (o.strategy.initOut ++ o.strategy.trans o.strategy.init cs) := by
  refine lastQ_append (op_init o) (trans_last (q := Call.isTerm) (fun s c hq x hx => ?_) (fun s c hq => ?_) cs _ hc)
  · cases c with
    | next a => rw [feed_next o h] at hx; exact op_steady o h he a s x hx
    | up d => rw [List.mem_singleton.1 hx]; rfl
    | error e => cases hq
    | completed => cases hq
  · cases c with
    | next a => cases hq
    | up d => cases hq
    | error e => show LastQ Call.isTerm (o.strategy.onError e s).out; rw [op_error]; exact ⟨fun _ => rfl, trivial⟩
    | completed => exact op_completed o s

theorem op_mute (o : Op ε α β) (h : Tame o) (hp : Picky o = false) (cs : List (Call α ε)) (hc : LastQ isErr cs) :
    LastQ isErr (o.strategy.initOut ++ o.strategy.trans o.strategy.init cs) := by
  refine lastQ_append (fun c hc => not_err (op_init o c hc)) (trans_last (q := isErr) (fun s c hq x hx => ?_) (fun s c hq => ?_) cs _ hc)
  · cases c with
    | next a => rw [feed_next o h] at hx; exact (op_next o h a s).2 x hx
    | up d => rw [List.mem_singleton.1 hx]; rfl
    | error e => cases hq
    | completed => exact op_plain o hp s x hx
  · cases c with
    | next a => cases hq
    | up d => cases hq
    | error e => show LastQ isErr (o.strategy.onError e s).out; rw [op_error]; exact ⟨fun _ => rfl, trivial⟩
    | completed => cases hq

theorem pipe_mute : {α γ : Type} → (p : Pipe ε α γ) → Quiet p → Plain p → (cs : List (Call α ε)) → LastQ isErr cs → LastQ isErr (p.trans cs)
  | _, _, .nil, _, _, _, h => h
  | _, _, .cons o p, hq, hp, cs, h => pipe_mute p hq.2.1 hp.2 _ (op_mute o hq.1 hp.1 cs h)

theorem pipe_late : {α γ : Type} → (p : Pipe ε α γ) → Quiet p → (cs : List (Call α ε)) → LastQ Call.isTerm cs → LastQ isErr (p.trans cs)
  | _, _, .nil, _, _, h => lastQ_mono err_term h
  | _, _, .cons o p, hq, cs, h => by
    cases he : Early o with
    | false => exact pipe_late p hq.2.1 _ (op_single o hq.1 he cs h)
    | true => exact pipe_mute p hq.2.1 (hq.2.2 he) _ (op_late o hq.1 cs h)

end Rpp.LetGo
