import Verif.Core.Feed
import Verif.Core.OpProofs

/-! # Helper lemmas for `Verif.Core.Feed` -/

namespace Rpp.Feed

/-! ## Traces of concatenations -/

theorem traceOf_append_fin : ∀ (l m : List (Call α ε)), (traceOf l).fin.isSome = true →
    traceOf (l ++ m) = traceOf l
  | [], _, h => by simp [traceOf] at h
  | .next a :: l, m, h => by
    have := traceOf_append_fin l m (by simpa [traceOf] using h)
    simp [traceOf, this]
  | .error _ :: _, _, _ => rfl
  | .completed :: _, _, _ => rfl
  | .up _ :: l, m, h => traceOf_append_fin l m (by simpa [traceOf] using h)

theorem traceOf_append_none : ∀ (l m : List (Call α ε)), (traceOf l).fin = none →
    traceOf (l ++ m) = ⟨(traceOf l).vals ++ (traceOf m).vals, (traceOf m).fin⟩
  | [], _, _ => rfl
  | .next a :: l, m, h => by
    have := traceOf_append_none l m (by simpa [traceOf] using h)
    simp [traceOf, this]
  | .error _ :: _, _, h => by simp [traceOf] at h
  | .completed :: _, _, h => by simp [traceOf] at h
  | .up _ :: l, m, h => traceOf_append_none l m (by simpa [traceOf] using h)

theorem vals_mono (l m : List (Call α ε)) : (traceOf l).vals <+: (traceOf (l ++ m)).vals := by
  cases h : (traceOf l).fin with
  | none => rw [traceOf_append_none l m h]; exact List.prefix_append _ _
  | some t => rw [traceOf_append_fin l m (by simp [h])]; exact List.prefix_refl _

theorem fin_mono (l m : List (Call α ε)) (h : (traceOf l).fin.isSome = true) :
    (traceOf (l ++ m)).fin.isSome = true := by rw [traceOf_append_fin l m h]; exact h

theorem fin_of_end (l : List (Call α ε)) (c : Call α ε) (hc : isEnd c = true) :
    (traceOf (l ++ [c])).fin.isSome = true := by
  cases h : (traceOf l).fin with
  | some t => exact fin_mono l _ (by simp [h])
  | none =>
    rw [traceOf_append_none l _ h]
    cases c <;> simp_all [isEnd, traceOf]

theorem traceOf_congr (l m m' : List (Call α ε)) (h : traceOf m = traceOf m') :
    traceOf (l ++ m) = traceOf (l ++ m') := by
  cases hl : (traceOf l).fin with
  | none => rw [traceOf_append_none l _ hl, traceOf_append_none l _ hl, h]
  | some t => rw [traceOf_append_fin l _ (by simp [hl]), traceOf_append_fin l _ (by simp [hl])]

/-! ## Programs -/

/-- A program that calls the observer below at most once, as its last act. -/
def Tail (p : Prog σ β ε) : Prop := (∃ s, p = .done s) ∨ ∃ s c, p = .emit s c .done

theorem Tail.mkDone (s : σ) : Tail (.done s : Prog σ β ε) := .inl ⟨s, rfl⟩
theorem Tail.mkEmit (s : σ) (c : Call β ε) : Tail (.emit s c .done) := .inr ⟨s, c, rfl⟩

theorem inner_flat (K : σ → τ → Prog (σ × τ) γ ε) : ∀ (p : Prog τ γ ε) (s : σ),
    (inner p s K).flat = ((K s p.flat.1).flat.1, p.flat.2 ++ (K s p.flat.1).flat.2)
  | .done t, s => by simp [inner, Prog.flat]
  | .fail t e, s => by simp [inner, Prog.flat]
  | .emit t c k, s => by
    simp only [inner, Prog.flat, inner_flat K (k t) s, List.cons_append]

theorem through_flat (Q : Micro β γ ε τ) : ∀ (p : Prog σ β ε) (t : τ),
    (through Q p t).flat = ((p.flat.1, (Q.flatRun t p.flat.2).1), (Q.flatRun t p.flat.2).2)
  | .done s, t => by simp [through, Prog.flat, Micro.flatRun]
  | .fail s e, t => by simp [through, Prog.flat, Micro.flatRun]
  | .emit s c k, t => by
    rw [through, inner_flat]
    rw [through_flat Q (k s)]
    simp only [Prog.flat, Micro.flatRun]

/-- Programs that throw nothing. -/
def NoFail : Prog σ β ε → Prop
  | .done _ => True
  | .emit _ _ k => ∀ s, NoFail (k s)
  | .fail _ _ => False

theorem handle_noFail (h : ε → σ → Prog σ β ε) : ∀ (p : Prog σ β ε), NoFail p → p.handle h = p
  | .done s, _ => rfl
  | .fail s e, hp => absurd hp (by simp [NoFail])
  | .emit s c k, hp => by
    rw [Prog.handle]
    have : (fun s' => (k s').handle h) = k := funext fun s' => handle_noFail h (k s') (hp s')
    rw [this]

theorem inner_noFail (K : σ → τ → Prog (σ × τ) γ ε) (hK : ∀ s t, NoFail (K s t)) :
    ∀ (p : Prog τ γ ε) (s : σ), NoFail (inner p s K)
  | .done t, s => hK s t
  | .fail t e, s => hK s t
  | .emit t c k, s => fun x => inner_noFail K hK (k x.2) x.1

theorem through_noFail (Q : Micro β γ ε τ) : ∀ (p : Prog σ β ε) (t : τ), NoFail p → NoFail (through Q p t)
  | .done s, t, _ => trivial
  | .fail s e, t, h => h.elim
  | .emit s c k, t, h => inner_noFail _ (fun s' t' => through_noFail Q (k s') t' (h s')) _ _

theorem noFail_handle (h : ε → σ → Prog σ β ε) (hh : ∀ e s, NoFail (h e s)) :
    ∀ (p : Prog σ β ε), NoFail (p.handle h)
  | .done s => trivial
  | .fail s e => hh e s
  | .emit s c k => fun s' => noFail_handle h hh (k s')

theorem through_tail {Q : Micro β γ ε τ} {p : Prog σ β ε} (hp : Tail p) (t : τ)
    (hQ : ∀ s c, p = .emit s c .done → Tail (Q.call c t)) : Tail (through Q p t) := by
  rcases hp with ⟨s, rfl⟩ | ⟨s, c, rfl⟩
  · exact .mkDone _
  · rw [through]
    rcases hQ s c rfl with ⟨t', h⟩ | ⟨t', c', h⟩
    · rw [h]; exact .mkDone _
    · rw [h]; exact .mkEmit (s, t') c'

/-- `on_error` throws nothing. -/
def Calm (M : Micro α β ε σ) : Prop := (∀ e s, NoFail (M.onError e s)) ∧ ∀ s, NoFail (M.onCompleted s)

theorem Calm.call {M : Micro α β ε σ} (h : Calm M) (c : Call α ε) (s : σ) : NoFail (M.call c s) := by
  cases c with
  | next a => exact noFail_handle _ h.1 _
  | error e => exact h.1 e s
  | completed => exact h.2 s
  | up d => exact fun _ => trivial

theorem calm_comp {P : Micro α β ε σ} (hP : Calm P) (Q : Micro β γ ε τ) : Calm (comp P Q) :=
  ⟨fun e s => through_noFail Q _ _ (hP.1 e s.1), fun s => through_noFail Q _ _ (hP.2 s.1)⟩

theorem comp_call {P : Micro α β ε σ} (hP : Calm P) (Q : Micro β γ ε τ) (c : Call α ε) (s : σ × τ) :
    (comp P Q).call c s = through Q (P.call c s.1) s.2 := by
  cases c with
  | next a =>
    exact handle_noFail _ _ (through_noFail Q _ _ (hP.call (.next a) s.1))
  | error e => rfl
  | completed => rfl
  | up d => rfl

theorem comp_flatRun {P : Micro α β ε σ} (hP : Calm P) (Q : Micro β γ ε τ) (cs : List (Call α ε)) :
    ∀ s t, (comp P Q).flatRun (s, t) cs =
      (((P.flatRun s cs).1, (Q.flatRun t (P.flatRun s cs).2).1), (Q.flatRun t (P.flatRun s cs).2).2) := by
  have happ : ∀ (l m : List (Call β ε)) (t : τ), Q.flatRun t (l ++ m) =
      ((Q.flatRun (Q.flatRun t l).1 m).1, (Q.flatRun t l).2 ++ (Q.flatRun (Q.flatRun t l).1 m).2) := by
    intro l
    induction l with
    | nil => intro m t; simp [Micro.flatRun]
    | cons c l ih => intro m t; simp [Micro.flatRun, ih]
  induction cs with
  | nil => intro s t; simp [Micro.flatRun]
  | cons c cs ih =>
    intro s t
    simp only [Micro.flatRun, comp_call hP, through_flat, ih, happ]

theorem flatRun_append (M : Micro α β ε σ) (l m : List (Call α ε)) : ∀ s, M.flatRun s (l ++ m) =
    ((M.flatRun (M.flatRun s l).1 m).1, (M.flatRun s l).2 ++ (M.flatRun (M.flatRun s l).1 m).2) := by
  induction l with
  | nil => intro s; simp [Micro.flatRun]
  | cons c l ih => intro s; simp [Micro.flatRun, ih]

/-! ## Operators -/

theorem takeLastDrain_noFail : ∀ (k : Nat) (s : Ops.TakeLastSt α), NoFail (takeLastDrain (ε := ε) k s)
  | 0, s => fun _ => trivial
  | k + 1, s => by
    rw [takeLastDrain]
    split
    · exact fun s' => takeLastDrain_noFail k _
    · exact takeLastDrain_noFail k _

theorem calm_micro (mv : Bool) (o : Op ε α β) : Calm (micro mv o) := by
  cases o
  case takeLast n => exact ⟨fun _ _ _ => trivial, fun s => takeLastDrain_noFail _ _⟩
  case last e =>
    refine ⟨fun _ _ _ => trivial, fun s => ?_⟩
    cases s
    · exact fun _ => trivial
    · exact fun _ _ => trivial
  case reduce => exact ⟨fun _ _ _ => trivial, fun _ _ _ => trivial⟩
  case reduceNoSeed =>
    refine ⟨fun _ _ _ => trivial, fun s => ?_⟩
    cases s
    · exact fun _ => trivial
    · exact fun _ _ => trivial
  case elementAt i e =>
    refine ⟨fun _ _ _ => trivial, fun s => ?_⟩
    show NoFail (if s ≠ 0 then _ else _)
    split <;> exact fun _ => trivial
  case buffer n =>
    refine ⟨fun _ _ _ => trivial, fun s => ?_⟩
    show NoFail (if s.data.isEmpty then _ else _)
    split
    · exact fun _ => trivial
    · exact fun _ _ => trivial
  all_goals exact ⟨fun _ _ _ => trivial, fun _ _ => trivial⟩

theorem calm_pipe (mv : Bool) : (p : Pipe ε α γ) → Calm (pipe mv p)
  | .nil => ⟨fun _ _ _ => trivial, fun _ _ => trivial⟩
  | .cons o p => calm_comp (calm_micro mv o) _

/-- Calls of `on_next`, `on_error`, `set_upstream` are tails for the operators of `tails`. -/
theorem micro_tail (mv : Bool) (o : Op ε α β) (h : tails o = true) (c : Call α ε) (hc : c ≠ .completed)
    (s : State o) : Tail ((micro mv o).call c s) := by
  cases c with
  | completed => exact absurd rfl hc
  | up d => exact .mkEmit _ _
  | error e => cases o <;> first | exact .mkEmit _ _ | (simp [tails] at h)
  | next a =>
    cases o
    case take => simp [tails] at h
    case first => simp [tails] at h
    case elementAt => simp [tails] at h
    case buffer => simp [tails] at h
    case throttle => simp [tails] at h
    case map f =>
      simp only [Micro.call, micro, map]
      split <;> exact .mkEmit _ _
    case filter f =>
      simp only [Micro.call, micro, filter]
      split
      · exact .mkEmit _ _
      · exact .mkDone _
      · exact .mkEmit _ _
    case skip n =>
      simp only [Micro.call, micro, skip]
      split
      · exact .mkEmit _ _
      · exact .mkDone _
    case takeWhile f =>
      simp only [Micro.call, micro, takeWhile]
      split <;> exact .mkEmit _ _
    case takeLast n =>
      simp only [Micro.call, micro, takeLast]
      split
      · exact .mkDone _
      · split <;> exact .mkDone _
    case last => exact .mkDone _
    case distinct =>
      simp only [Micro.call, micro, distinct]
      split
      · exact .mkDone _
      · exact .mkEmit _ _
    case distinctUntilChanged eq =>
      simp only [Micro.call, micro, distinctUntilChanged]
      split
      · exact .mkEmit _ _
      · split
        · exact .mkDone _
        · exact .mkEmit _ _
        · exact .mkEmit _ _
    case scan s f =>
      simp only [Micro.call, micro, scan]
      split <;> exact .mkEmit _ _
    case scanNoSeed f =>
      simp only [Micro.call, micro, scanNoSeed]
      split
      · exact .mkEmit _ _
      · split <;> exact .mkEmit _ _
    case reduce s f =>
      simp only [Micro.call, micro, reduce]
      split
      · exact .mkDone _
      · exact .mkEmit _ _
    case reduceNoSeed f =>
      simp only [Micro.call, micro, reduceNoSeed]
      split
      · exact .mkDone _
      · split
        · exact .mkDone _
        · exact .mkEmit _ _
    case tap cb =>
      simp only [Micro.call, micro, tap]
      split <;> exact .mkEmit _ _
    case finallyOp d => exact .mkEmit _ _

theorem micro_forwards (mv : Bool) (o : Op ε α β) (h : forwards o = true) (s : State o) :
    Tail ((micro mv o).call .completed s) := by
  cases o <;> first | exact .mkEmit _ _ | (simp [forwards] at h)

/-- Only the operators of `completesItself` send a completion in answer to something else. -/
theorem micro_noComp (mv : Bool) (o : Op ε α β) (h : tails o = true) (h' : completesItself o = false)
    (c : Call α ε) (hc : c ≠ .completed) (s s' : State o) :
    (micro mv o).call c s ≠ .emit s' .completed .done := by
  cases c with
  | completed => exact absurd rfl hc
  | up d => simp [Micro.call]
  | error e => cases o <;> first | (simp [tails] at h; done) | (simp [Micro.call, micro, map, filter, skip, takeLast, last, distinct, distinctUntilChanged, scan, scanNoSeed, reduce, reduceNoSeed, tap, finallyOp, takeWhile])
  | next a =>
    cases o <;> first | (simp [tails] at h; done) | (simp [completesItself] at h'; done) |
      (simp only [Micro.call, micro, map, filter, skip, takeLast, last, distinct, distinctUntilChanged, scan, scanNoSeed, reduce, reduceNoSeed, tap, finallyOp]
       intro hh
       repeat' split at hh
       all_goals simp [Prog.handle] at hh)

theorem pipe_forwards (mv : Bool) : (p : Pipe ε α γ) → Steady p → Forwards p → ∀ s,
    Tail ((pipe mv p).call .completed s)
  | .nil, _, _, s => .mkEmit _ _
  | .cons o p, hs, hf, s => by
    suffices h : Tail (through (pipe mv p) ((micro mv o).call .completed s.1) s.2) from
      (congrArg Tail (comp_call (calm_micro mv o) (pipe mv p) .completed s)).mpr h
    refine through_tail (micro_forwards mv o hf.1 s.1) s.2 fun s' c h => ?_
    have : c = .completed := by
      have hf1 := hf.1
      have := hs.1
      revert h
      cases o <;> simp [forwards] at hf1 <;> simp [tails] at this <;>
        simp [Micro.call, micro, map, filter, skip, distinct, distinctUntilChanged, scan, scanNoSeed, tap, finallyOp, takeWhile] <;>
        (intros; simp_all)
    rw [this]
    exact pipe_forwards mv p hs.2.2 hf.2 _

theorem pipe_tail (mv : Bool) : (p : Pipe ε α γ) → Steady p → ∀ (c : Call α ε), c ≠ .completed → ∀ s,
    Tail ((pipe mv p).call c s)
  | .nil, _, c, hc, s => by
    cases c with
    | completed => exact absurd rfl hc
    | _ => exact .mkEmit _ _
  | .cons o p, hs, c, hc, s => by
    suffices h : Tail (through (pipe mv p) ((micro mv o).call c s.1) s.2) from
      (congrArg Tail (comp_call (calm_micro mv o) (pipe mv p) c s)).mpr h
    refine through_tail (micro_tail mv o hs.1 c hc s.1) s.2 fun s' c' h => ?_
    by_cases hc' : c' = .completed
    · subst hc'
      cases ho : completesItself o with
      | true => exact pipe_forwards mv p hs.2.2 (hs.2.1 ho) _
      | false => exact absurd h (micro_noComp mv o hs.1 ho c hc _ _)
    · exact pipe_tail mv p hs.2.2 c' hc' _

/-! ## Without nested calls, a pipeline computes its specification -/

theorem takeLastDrain_flat : ∀ (k : Nat) (s : Ops.TakeLastSt α),
    (takeLastDrain (ε := ε) k s).flat.2 = Ops.takeLastDrain s.data s.cur k ++ [.completed]
  | 0, s => rfl
  | k + 1, s => by
    rw [takeLastDrain, Ops.takeLastDrain]
    cases h : s.data[s.cur]? with
    | none => simp [takeLastDrain_flat k]
    | some a => simp [Prog.flat, takeLastDrain_flat k]

/-- `State` and `Op.State` agree on the operators of `tails`. -/
def up (o : Op ε α β) (h : tails o = true) (s : State o) : o.State :=
  match o, h, s with
  | .map _, _, s | .filter _, _, s | .takeWhile _, _, s | .finallyOp _, _, s => s
  | .skip _, _, s => s
  | .takeLast _, _, s => s
  | .last _, _, s | .distinctUntilChanged _, _, s | .scanNoSeed _, _, s | .reduceNoSeed _, _, s => s
  | @Op.distinct _ _ _, _, s => s
  | .scan _ _, _, s | .reduce _ _, _, s => s
  | .tap _, _, s => s

theorem micro_feed (mv : Bool) (o : Op ε α β) (h : tails o = true) (c : Call α ε) (s : State o) :
    ((micro mv o).call c s).flat.2 = (o.strategy.feed (up o h s) c).2 ∧
    (isEnd c = false → up o h ((micro mv o).call c s).flat.1 = (o.strategy.feed (up o h s) c).1) := by
  cases c with
  | up d => cases o <;> first | (simp [tails] at h; done) | exact ⟨rfl, fun _ => rfl⟩
  | error e => cases o <;> first | (simp [tails] at h; done) | exact ⟨rfl, by simp [isEnd]⟩
  | completed =>
    refine ⟨?_, by simp [isEnd]⟩
    cases o <;> first | (simp [tails] at h; done) | rfl | skip
    case takeLast n => exact takeLastDrain_flat _ _
    case last e => cases s <;> rfl
    case reduceNoSeed f => cases s <;> rfl
  | next a =>
    cases o <;> first | (simp [tails] at h; done) | skip
    case map f =>
      simp only [Micro.call, micro, map, OpStrategy.feed, Op.strategy, Ops.map]
      cases f a <;> exact ⟨rfl, fun _ => rfl⟩
    case filter f =>
      simp only [Micro.call, micro, filter, OpStrategy.feed, Op.strategy, Ops.filter]
      rcases f a with _ | b
      · exact ⟨rfl, fun _ => rfl⟩
      · cases b <;> exact ⟨rfl, fun _ => rfl⟩
    case skip n =>
      simp only [Micro.call, micro, skip, OpStrategy.feed, Op.strategy, Ops.skip, up]
      by_cases hs : s = 0
      · subst hs; exact ⟨rfl, fun _ => rfl⟩
      · simp only [if_neg hs]; exact ⟨rfl, fun _ => rfl⟩
    case takeWhile f =>
      simp only [Micro.call, micro, takeWhile, OpStrategy.feed, Op.strategy, Ops.takeWhile]
      rcases f a with _ | b
      · exact ⟨rfl, fun _ => rfl⟩
      · cases b <;> exact ⟨rfl, fun _ => rfl⟩
    case takeLast n =>
      simp only [Micro.call, micro, takeLast, OpStrategy.feed, Op.strategy, Ops.takeLast, up]
      by_cases h1 : s.cap = 0
      · simp only [if_pos h1]; exact ⟨rfl, fun _ => rfl⟩
      · simp only [if_neg h1]
        by_cases h2 : s.data.length < s.cap
        · simp only [if_pos h2]; exact ⟨rfl, fun _ => rfl⟩
        · simp only [if_neg h2]; exact ⟨rfl, fun _ => rfl⟩
    case last => exact ⟨rfl, fun _ => rfl⟩
    case distinct =>
      simp only [Micro.call, micro, distinct, OpStrategy.feed, Op.strategy, Ops.distinct, up]
      cases hs : s.contains a
      · exact ⟨rfl, fun _ => rfl⟩
      · exact ⟨rfl, fun _ => rfl⟩
    case distinctUntilChanged eq =>
      simp only [Micro.call, micro, distinctUntilChanged, OpStrategy.feed, Op.strategy,
        Ops.distinctUntilChanged, up]
      cases s with
      | none => exact ⟨rfl, fun _ => rfl⟩
      | some l =>
        dsimp only
        rcases eq l a with _ | b
        · exact ⟨rfl, fun _ => rfl⟩
        · cases b <;> exact ⟨rfl, fun _ => rfl⟩
    case scan b f =>
      simp only [Micro.call, micro, scan, OpStrategy.feed, Op.strategy, Ops.scan, up]
      rcases f s a with _ | b <;> exact ⟨rfl, fun _ => rfl⟩
    case scanNoSeed f =>
      simp only [Micro.call, micro, scanNoSeed, OpStrategy.feed, Op.strategy, Ops.scanNoSeed, up]
      cases s with
      | none => exact ⟨rfl, fun _ => rfl⟩
      | some l => dsimp only; rcases f l a with _ | b <;> exact ⟨rfl, fun _ => rfl⟩
    case reduce b f =>
      simp only [Micro.call, micro, reduce, OpStrategy.feed, Op.strategy, Ops.reduce, up]
      rcases f s a with _ | b <;> exact ⟨rfl, fun _ => rfl⟩
    case reduceNoSeed f =>
      simp only [Micro.call, micro, reduceNoSeed, OpStrategy.feed, Op.strategy, Ops.reduceNoSeed, up]
      cases s with
      | none => exact ⟨rfl, fun _ => rfl⟩
      | some l => dsimp only; rcases f l a with _ | b <;> exact ⟨rfl, fun _ => rfl⟩
    case tap cb =>
      simp only [Micro.call, micro, tap, OpStrategy.feed, Op.strategy, Ops.tap, up]
      cases cb a <;> exact ⟨rfl, fun _ => rfl⟩
    case finallyOp d => exact ⟨rfl, fun _ => rfl⟩

theorem feed_end {P : OpStrategy α β ε σ} (hP : P.OK) (s : σ) (c : Call α ε) (hc : isEnd c = true) :
    (traceOf (P.feed s c).2).fin.isSome = true := by
  have key : ∀ l : List (Call β ε), l.any Call.isTerm = true → (traceOf l).fin.isSome = true := by
    intro l
    induction l with
    | nil => intro h; simp at h
    | cons c l ih =>
      intro h
      rw [List.any_cons, Bool.or_eq_true] at h
      cases c with
      | next a => exact ih (h.resolve_left (by simp [Call.isTerm]))
      | up d => exact ih (h.resolve_left (by simp [Call.isTerm]))
      | error e => rfl
      | completed => rfl
  cases c with
  | error e => exact key _ (hP.err e s)
  | completed => exact key _ (hP.comp s)
  | next a => simp [isEnd] at hc
  | up d => simp [isEnd] at hc

theorem micro_trans (mv : Bool) (o : Op ε α β) (h : tails o = true) (cs : List (Call α ε)) : ∀ s : State o,
    traceOf ((micro mv o).flatRun s cs).2 = traceOf (o.strategy.trans (up o h s) cs) := by
  induction cs with
  | nil => intro s; rfl
  | cons c cs ih =>
    intro s
    have hf := micro_feed mv o h c s
    simp only [Micro.flatRun, OpStrategy.trans]
    rw [hf.1]
    cases hc : isEnd c with
    | true =>
      have he := feed_end o.ok (up o h s) c hc
      rw [traceOf_append_fin _ _ he, traceOf_append_fin _ _ he]
    | false =>
      refine traceOf_congr _ _ _ ?_
      rw [ih, hf.2 hc]

theorem micro_spec (mv : Bool) (o : Op ε α β) (h : tails o = true) (hw : o.WF) (cs : List (Call α ε)) :
    traceOf ((micro mv o).initOut ++ ((micro mv o).flatRun (micro mv o).init cs).2) =
      o.spec (traceOf cs) := by
  rw [← o.trans_spec hw]
  have h1 : (micro mv o).initOut = o.strategy.initOut := by
    cases o <;> first | rfl | (simp [tails] at h; done)
  have h2 : up o h (micro mv o).init = o.strategy.init := by
    cases o <;> first | rfl | (simp [tails] at h; done)
  rw [h1]
  refine traceOf_congr _ _ _ ?_
  rw [micro_trans mv o h, h2]

theorem pipe_spec (mv : Bool) : (p : Pipe ε α γ) → Steady p → p.WF → (cs : List (Call α ε)) →
    traceOf ((pipe mv p).initOut ++ ((pipe mv p).flatRun (pipe mv p).init cs).2) = p.spec (traceOf cs)
  | .nil, _, _, cs => by
    have : ∀ cs : List (Call α ε), ((nothing : Micro α α ε Unit).flatRun () cs).2 = cs := by
      intro cs
      induction cs with
      | nil => rfl
      | cons c cs ih =>
        have hc : (nothing : Micro α α ε Unit).call c () = .emit () c .done := by cases c <;> rfl
        simp only [Micro.flatRun, hc, Prog.flat, List.cons_append, List.nil_append]
        rw [ih]
    show traceOf ([] ++ ((nothing : Micro α α ε Unit).flatRun () cs).2) = traceOf cs
    rw [this]; rfl
  | .cons o p, hs, hw, cs => by
    have ih := pipe_spec mv p hs.2.2 hw.2
      ((micro mv o).initOut ++ ((micro mv o).flatRun (micro mv o).init cs).2)
    rw [micro_spec mv o hs.1 hw.1] at ih
    show traceOf (((pipe mv p).initOut ++ _) ++
      ((comp (micro mv o) (pipe mv p)).flatRun ((micro mv o).init, _) cs).2) = p.spec (o.spec (traceOf cs))
    rw [comp_flatRun (calm_micro mv o), List.append_assoc, ← ih]
    congr 1
    rw [flatRun_append]

end Rpp.Feed
