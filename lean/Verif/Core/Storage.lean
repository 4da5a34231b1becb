import Verif.Core.Props

/-!
# How many values a pipeline keeps

Which values the operators of `Verif.Core.Model` keep between two notifications, and the bounds on their number.
-/

namespace Rpp.Storage

variable {ε : Type}

/-- The number of values an operator's strategy holds in its members: take_last.hpp 79 (`m_data`), last.hpp 28 (`value`),
distinct.hpp 29 (`past_values`), distinct_until_changed.hpp 29 (`last_value`), scan.hpp 29 and 80 (`seed`), reduce.hpp 27 and 77
(`seed`), buffer.hpp 67 (`m_bucket`).  The others hold counters and functions only (the log of `tap` in the model is the
outside world's). -/
def held : {α β : Type} → (o : Op ε α β) → o.State → Nat
  | _, _, .takeLast _, s => Ops.TakeLastSt.data s |>.length
  | α, _, .last _, s => Option.toList (α := α) s |>.length
  | α, _, @Op.distinct _ _ _, s => List.length (α := α) s
  | α, _, .distinctUntilChanged _, s => Option.toList (α := α) s |>.length
  | _, _, .scan _ _, _ => 1
  | α, _, .scanNoSeed _, s => Option.toList (α := α) s |>.length
  | _, _, .reduce _ _, _ => 1
  | α, _, .reduceNoSeed _, s => Option.toList (α := α) s |>.length
  | α, _, .buffer _, s => List.length (α := α) s
  | _, _, .map _, _ | _, _, .filter _, _ | _, _, .take _, _ | _, _, .skip _, _ | _, _, .takeWhile _, _ | _, _, .first _, _
  | _, _, .elementAt _ _, _ | _, _, .tap _, _ | _, _, .finallyOp _, _ | _, _, .throttle _, _ => 0

/-- Specification: how many values an operator may hold between two notifications; `none`: any number.  Models no code. -/
def room : {α β : Type} → Op ε α β → Option Nat
  | _, _, .takeLast n => some n
  | _, _, .buffer n => some (max 1 n - 1)
  | _, _, @Op.distinct _ _ _ => none
  | _, _, .last _ | _, _, .distinctUntilChanged _ | _, _, .scan _ _ | _, _, .scanNoSeed _ | _, _, .reduce _ _ | _, _, .reduceNoSeed _ => some 1
  | _, _, .map _ | _, _, .filter _ | _, _, .take _ | _, _, .skip _ | _, _, .takeWhile _ | _, _, .first _
  | _, _, .elementAt _ _ | _, _, .tap _ | _, _, .finallyOp _ | _, _, .throttle _ => some 0

/-- The number of values held by all operators of a pipeline (the members of the nested observers, operators/details/strategy.hpp 36-49). -/
def heldAll {τ : Type} : {α γ : Type} → (p : Pipe ε α γ) → p.State τ → Nat
  | _, _, .nil, _ => 0
  | _, _, .cons o p, s => held o s.1 + heldAll p s.2

/-- Specification: the sum of the bounds; `none` if an operator has none.  Models no code. -/
def roomAll : {α γ : Type} → Pipe ε α γ → Option Nat
  | _, _, .nil => some 0
  | _, _, .cons o p => match room o, roomAll p with
    | some a, some b => some (a + b)
    | _, _ => none

/-! ## Proofs -/

/-- What keeps an operator within its bound; used in the proofs only, models no code. -/
def Fits : {α β : Type} → (o : Op ε α β) → o.State → Prop
  | _, _, .takeLast n, s => Ops.TakeLastSt.cap s = n ∧ (Ops.TakeLastSt.data s).length ≤ n
  | _, _, .buffer n, s => List.length (α := _) s ≤ max 1 n - 1
  | _, _, _, _ => True

theorem held_le {α β : Type} (o : Op ε α β) (s : o.State) (h : Fits o s) (k : Nat) (hk : room o = some k) : held o s ≤ k := by
  cases o <;> simp only [room, Option.some.injEq, reduceCtorEq] at hk <;> subst hk <;> simp only [held, Nat.le_refl]
  case takeLast => exact h.2
  case buffer => exact h
  all_goals cases s <;> simp

theorem fits_init {α β : Type} (o : Op ε α β) : Fits o o.strategy.init := by
  cases o <;> simp [Fits, Op.strategy, Ops.takeLast, Ops.buffer]

theorem fits_next {α β : Type} (o : Op ε α β) (a : α) (s : o.State) (h : Fits o s) : Fits o (o.strategy.onNext a s).st := by
  cases o <;> try trivial
  case takeLast n =>
    obtain ⟨h1, h2⟩ := h
    simp only [Op.strategy, Ops.takeLast, Fits]
    split
    · exact ⟨h1, h2⟩
    · split
      · refine ⟨h1, ?_⟩; simp only [List.length_append, List.length_singleton]; omega
      · refine ⟨h1, ?_⟩; simpa using h2
  case buffer n =>
    have h : List.length (α := α) s ≤ max 1 n - 1 := h
    simp only [Op.strategy, Ops.buffer, Fits]
    split
    · simp
    · next hne =>
      have hl : ((show List α from s) ++ [a]).length = List.length (α := α) s + 1 := by
        rw [List.length_append]; rfl
      have hl : ((show List α from s) ++ [a]).length ≤ max 1 n := by omega
      have hne : ¬ ((show List α from s) ++ [a]).length = max 1 n := hne
      show ((show List α from s) ++ [a]).length ≤ max 1 n - 1
      omega

theorem fits_error {α β : Type} (o : Op ε α β) (e : ε) (s : o.State) (h : Fits o s) : Fits o (o.strategy.onError e s).st := by
  cases o <;> first | trivial | exact h

theorem fits_completed {α β : Type} (o : Op ε α β) (s : o.State) (h : Fits o s) : Fits o (o.strategy.onCompleted s).st := by
  cases o <;> first | trivial | exact h

/-- Every operator of the pipeline is within its bound; used in the proofs only, models no code. -/
def FitsAll {τ : Type} : {α γ : Type} → (p : Pipe ε α γ) → p.State τ → Prop
  | _, _, .nil, _ => True
  | _, _, .cons o p, s => Fits o s.1 ∧ FitsAll p s.2

/-- An observer keeps an invariant; used in the proofs only, models no code. -/
structure Keeps {α σ : Type} (O : Obs α ε σ) (I : σ → Prop) : Prop where
  call : ∀ c s, I s → I (O.call c s)
  release : ∀ d s, I s → I (O.release d s)

theorem Keeps.run {α σ : Type} {O : Obs α ε σ} {I : σ → Prop} (h : Keeps O I) (cs : List (Call α ε)) : ∀ s, I s → I (O.run s cs) := by
  induction cs with
  | nil => intro s hs; exact hs
  | cons c cs ih => intro s hs; exact ih _ (h.call c s hs)

theorem keeps_lift {α β τ : Type} (o : Op ε α β) {O : Obs β ε τ} {I : τ → Prop} (h : Keeps O I) :
    Keeps (o.strategy.lift O) (fun s => Fits o s.1 ∧ I s.2) := by
  have herr : ∀ e (s : o.State × τ), Fits o s.1 ∧ I s.2 →
      (fun s : o.State × τ => Fits o s.1 ∧ I s.2) (implOnError (o.strategy.strategy O) noneDisp e s) := by
    intro e s hs
    simp only [implOnError]
    split
    · exact hs
    · exact ⟨fits_error o e _ hs.1, h.run _ _ hs.2⟩
  refine ⟨fun c s hs => ?_, fun d s hs => ⟨hs.1, h.release _ _ hs.2⟩⟩
  cases c with
  | next a =>
    simp only [Obs.call, OpStrategy.lift, observerImpl]
    split
    · exact hs
    · have h1 : Fits o ((o.strategy.strategy O).onNext a s).1.1 ∧ I ((o.strategy.strategy O).onNext a s).1.2 :=
        ⟨fits_next o a _ hs.1, h.run _ _ hs.2⟩
      split
      · next heq => rw [heq] at h1; exact h1
      · next heq => rw [heq] at h1; exact herr _ _ h1
  | error e => exact herr e s hs
  | completed =>
    simp only [Obs.call, OpStrategy.lift, observerImpl]
    split
    · exact hs
    · exact ⟨fits_completed o _ hs.1, h.run _ _ hs.2⟩
  | up d =>
    simp only [Obs.call, OpStrategy.lift, observerImpl]
    split
    · exact ⟨hs.1, h.release _ _ hs.2⟩
    · exact ⟨hs.1, h.call (.up d) _ hs.2⟩

theorem keeps_pipe {τ : Type} : {α γ : Type} → (p : Pipe ε α γ) → (O : Obs γ ε τ) →
    Keeps (p.lift O) (FitsAll p)
  | _, _, .nil, _ => ⟨fun _ _ _ => trivial, fun _ _ _ => trivial⟩
  | _, _, .cons o p, O' => keeps_lift o (keeps_pipe p O')

end Rpp.Storage
