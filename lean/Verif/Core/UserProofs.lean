import Verif.Core.OpProofs

/-! # Helper lemmas about the subscriber's observer -/

set_option linter.unusedSectionVars false
set_option linter.unusedSimpArgs false

namespace Rpp

variable [DecidableEq α] [DecidableEq ε]

theorem evsOf_append (l m : List (Out α ε)) : evsOf (l ++ m) = evsOf l ++ evsOf m := by
  induction l with
  | nil => rfl
  | cons x l ih => cases x <;> simp [evsOf, ih]

/-- The disposables released in a log. -/
def relsOf : List (Out α ε) → List Nat
  | [] => []
  | .ev _ :: l => relsOf l
  | .released d :: l => d :: relsOf l

theorem relsOf_append (l m : List (Out α ε)) : relsOf (l ++ m) = relsOf l ++ relsOf m := by
  induction l with
  | nil => rfl
  | cons x l ih => cases x <;> simp [relsOf, ih]

theorem mem_relsOf (l : List (Out α ε)) (d : Nat) : d ∈ relsOf l ↔ Out.released d ∈ l := by
  induction l with
  | nil => simp [relsOf]
  | cons x l ih => cases x <;> simp [relsOf, ih]

namespace UserSt

theorem evs_release (s : UserSt α ε) (d) : evsOf (s.release d).log = evsOf s.log := by
  unfold release; split
  · rfl
  · simp [evsOf_append, evsOf]

theorem release_disposed (s : UserSt α ε) (d) : (s.release d).disposed = s.disposed := by
  unfold release; split <;> rfl

theorem release_ups (s : UserSt α ε) (d) : (s.release d).ups = s.ups := by
  unfold release; split <;> rfl

theorem released_release (s : UserSt α ε) (d) : Out.released d ∈ (s.release d).log := by
  unfold release; split
  · assumption
  · simp

theorem release_mono (s : UserSt α ε) (d) (x) (h : x ∈ s.log) : x ∈ (s.release d).log := by
  unfold release; split
  · exact h
  · simp [h]

/-- Shape of every reachable log: events, then releases (each once). -/
structure Shape (s : UserSt α ε) : Prop where
  split : s.log = (evsOf s.log).map Out.ev ++ (relsOf s.log).map Out.released
  nodup : (relsOf s.log).Nodup

theorem Shape.release {s : UserSt α ε} (h : Shape s) (d) : Shape (s.release d) := by
  unfold UserSt.release
  split
  · exact h
  · rename_i hn
    constructor
    · show s.log ++ [Out.released d] = _
      simp only [evsOf_append, relsOf_append, evsOf, relsOf, List.append_nil, List.map_append,
        List.map_cons, List.map_nil]
      rw [← List.append_assoc, ← h.split]
    · simp only [relsOf_append, relsOf]
      rw [List.nodup_append]
      refine ⟨h.nodup, by simp, ?_⟩
      intro a ha b hb
      simp only [List.mem_singleton] at hb
      rintro rfl
      rw [hb] at ha
      exact hn ((mem_relsOf _ _).1 ha)

/-- Releasing a list of disposables. -/
def releaseAll (s : UserSt α ε) (ds : List Nat) : UserSt α ε := ds.foldl (fun s d => s.release d) s

theorem releaseAll_facts (ds : List Nat) : ∀ s : UserSt α ε,
    evsOf (s.releaseAll ds).log = evsOf s.log ∧ (s.releaseAll ds).disposed = s.disposed ∧
    (s.releaseAll ds).ups = s.ups ∧ (∀ d ∈ ds, Out.released d ∈ (s.releaseAll ds).log) ∧
    (∀ x ∈ s.log, x ∈ (s.releaseAll ds).log) ∧ (Shape s → Shape (s.releaseAll ds)) := by
  induction ds with
  | nil => intro s; exact ⟨rfl, rfl, rfl, by simp, fun x h => h, fun h => h⟩
  | cons d ds ih =>
    intro s
    obtain ⟨h1, h2, h3, h4, h5, h6⟩ := ih (s.release d)
    refine ⟨h1.trans (s.evs_release d), h2.trans (s.release_disposed d), h3.trans (s.release_ups d),
      ?_, fun x hx => h5 _ (s.release_mono d x hx), fun h => h6 (h.release d)⟩
    intro x hx
    rcases List.mem_cons.1 hx with rfl | hx
    · exact h5 _ (s.released_release _)
    · exact h4 x hx

theorem dispose_eq (s : UserSt α ε) : s.dispose = ({ s with disposed := true } : UserSt α ε).releaseAll s.ups := rfl

theorem dispose_facts (s : UserSt α ε) :
    evsOf s.dispose.log = evsOf s.log ∧ s.dispose.disposed = true ∧ s.dispose.ups = s.ups ∧
    (∀ d ∈ s.ups, Out.released d ∈ s.dispose.log) ∧ (∀ x ∈ s.log, x ∈ s.dispose.log) ∧
    (Shape s → Shape s.dispose) := by
  rw [dispose_eq]
  obtain ⟨h1, h2, h3, h4, h5, h6⟩ := releaseAll_facts s.ups ({ s with disposed := true } : UserSt α ε)
  exact ⟨h1, h2, h3, h4, h5, fun h => h6 ⟨h.split, h.nodup⟩⟩

end UserSt

variable {cap : Option Nat} {ov : ε} {react : List (Call α ε) → Reaction ε}

@[simp] theorem userObs_isDisposed (s : UserSt α ε) :
    (userObs cap ov react).isDisposed s = s.disposed := by
  simp [userObs, observerImpl, localDisp, lambdaStrategy]

theorem userObs_release (s : UserSt α ε) (d) : (userObs cap ov react).release d s = s.release d := rfl

theorem implOnError_user (s : UserSt α ε) (e : ε) :
    implOnError (lambdaStrategy react) (localDisp cap ov) e s =
      if s.disposed then s else ((lambdaStrategy react).onError e s).dispose := by
  simp [implOnError, localDisp, lambdaStrategy]

theorem userObs_lawful : Lawful (userObs cap ov react) where
  ignore s c hs hc := by
    rw [userObs_isDisposed] at hs
    cases c <;> simp_all [Obs.call, userObs, observerImpl, localDisp, lambdaStrategy, implOnError, Call.isEvent]
  up_disposed s d hs := by
    rw [userObs_isDisposed] at hs
    simp [userObs, observerImpl, localDisp, lambdaStrategy, hs]
  release_disposed s d hs := by
    rw [userObs_isDisposed] at *
    rw [userObs_release, UserSt.release_disposed]; exact hs
  term s c hc := by
    rw [userObs_isDisposed]
    cases hd : s.disposed with
    | true => cases c <;> simp_all [Obs.call, userObs, observerImpl, localDisp, lambdaStrategy, implOnError, Call.isTerm]
    | false =>
      cases c with
      | error e =>
        show (implOnError _ _ e s).disposed = true
        rw [implOnError_user, hd]; simp only [Bool.false_eq_true, if_false]
        exact (UserSt.dispose_facts _).2.1
      | completed =>
        simp only [Obs.call, userObs, observerImpl, localDisp, lambdaStrategy, hd, Bool.or_self,
          Bool.false_eq_true, if_false]
        exact (UserSt.dispose_facts _).2.1
      | next a => simp [Call.isTerm] at hc
      | up d => simp [Call.isTerm] at hc

/-- Invariant of every reachable state of a subscription. -/
structure UInv (s : UserSt α ε) : Prop where
  shape : s.Shape
  live : s.disposed = false → relsOf s.log = [] ∧ ∃ vs : List α, evsOf s.log = vs.map Call.next
  gram : Grammar (evsOf s.log)
  rel : s.disposed = true → ∀ d ∈ s.ups, Out.released d ∈ s.log

theorem UInv.init : UInv ({} : UserSt α ε) :=
  ⟨⟨rfl, by simp [relsOf]⟩, fun _ => ⟨rfl, [], rfl⟩, ⟨[], none, rfl⟩, fun _ => by simp⟩

theorem UInv.dispose {s : UserSt α ε} (h : UInv s) : UInv s.dispose := by
  obtain ⟨h1, h2, h3, h4, h5, h6⟩ := s.dispose_facts
  exact ⟨h6 h.shape, fun hd => (by rw [h2] at hd; cases hd), by rw [h1]; exact h.gram,
    fun _ d hd => by rw [h3] at hd; exact h4 d hd⟩

/-- Appending a notification to a live subscription. -/
theorem shape_push {s : UserSt α ε} (hs : s.Shape) (hl : relsOf s.log = []) (c : Call α ε) :
    UserSt.Shape { s with log := s.log ++ [.ev c] } := by
  have e1 := hs.split
  constructor
  · simp only [evsOf_append, relsOf_append, evsOf, relsOf, List.append_nil, List.map_append, hl,
      List.map_nil, List.map_cons]
    rw [hl] at e1
    simp only [List.map_nil, List.append_nil] at e1
    rw [← e1]
  · simp [relsOf_append, relsOf, hl]

theorem gram_next {l : List (Call α ε)} {vs : List α} (h : l = vs.map Call.next) (a : α) :
    Grammar (l ++ [.next a]) := ⟨vs ++ [a], none, by simp [h]⟩

theorem gram_error {l : List (Call α ε)} {vs : List α} (h : l = vs.map Call.next) (e : ε) :
    Grammar (l ++ [.error e]) := ⟨vs, some (.error e), by simp [h, Term.toCall]⟩

theorem gram_completed {l : List (Call α ε)} {vs : List α} (h : l = vs.map Call.next) :
    Grammar (l ++ [(.completed : Call α ε)]) := ⟨vs, some .completed, by simp [h, Term.toCall]⟩

theorem UInv.push_next {s : UserSt α ε} (h : UInv s) (hd : s.disposed = false) (a : α) :
    UInv { s with log := s.log ++ [.ev (.next a)] } := by
  obtain ⟨hr, vs, hv⟩ := h.live hd
  refine ⟨shape_push h.shape hr _, fun _ => ⟨by simp [relsOf_append, relsOf, hr], vs ++ [a], ?_⟩, ?_, ?_⟩
  · simp [evsOf_append, evsOf, hv]
  · simp only [evsOf_append, evsOf]; exact gram_next hv a
  · intro hd2; simp only at hd2; rw [hd] at hd2; cases hd2

/-- Delivering a terminal notification and disposing. -/
theorem UInv.push_term {s : UserSt α ε} (h : UInv s) (hd : s.disposed = false) (c : Call α ε)
    (hc : c.isTerm = true) (b : Bool) :
    UInv (UserSt.dispose (if b then UserSt.dispose { s with log := s.log ++ [.ev c] }
      else { s with log := s.log ++ [.ev c] })) := by
  obtain ⟨hr, vs, hv⟩ := h.live hd
  have hg : Grammar (evsOf s.log ++ [c]) := by
    cases c with
    | error e => exact gram_error hv e
    | completed => exact gram_completed hv
    | next a => simp [Call.isTerm] at hc
    | up d => simp [Call.isTerm] at hc
  generalize hs1 : ({ s with log := s.log ++ [.ev c] } : UserSt α ε) = s1
  have f1 : s1.Shape := by rw [← hs1]; exact shape_push h.shape hr _
  have f2 : Grammar (evsOf s1.log) := by rw [← hs1]; simpa [evsOf_append, evsOf] using hg
  obtain ⟨g1, g2, g3, g4, g5, g6⟩ := s1.dispose_facts
  have key : ∀ s2 : UserSt α ε, s2.Shape → Grammar (evsOf s2.log) → UInv s2.dispose := by
    intro s2 k1 k2
    obtain ⟨k3, k4, k5, k6, k7, k8⟩ := s2.dispose_facts
    exact ⟨k8 k1, fun hd => (by rw [k4] at hd; cases hd), by rw [k3]; exact k2,
      fun _ d hd => by rw [k5] at hd; exact k6 d hd⟩
  cases b
  · exact key _ f1 f2
  · exact key _ (g6 f1) (by simp only [if_true]; rw [g1]; exact f2)

theorem UInv.onError {s : UserSt α ε} (h : UInv s) (e : ε) :
    UInv (implOnError (lambdaStrategy react) (localDisp cap ov) e s) := by
  rw [implOnError_user]
  cases hd : s.disposed with
  | true => exact h
  | false => exact h.push_term hd (.error e) rfl _

theorem UInv.call {s : UserSt α ε} (h : UInv s) (c : Call α ε) :
    UInv ((userObs cap ov react).call c s) := by
  cases hd : s.disposed with
  | true =>
    cases c with
    | up d =>
      have : (userObs cap ov react).call (.up d) s = s.release d :=
        userObs_lawful.up_disposed s d (by simp [hd])
      rw [this]
      refine ⟨h.shape.release d, fun h2 => ?_, ?_, fun _ d2 hd2 => ?_⟩
      · rw [UserSt.release_disposed, hd] at h2; cases h2
      · rw [UserSt.evs_release]; exact h.gram
      · rw [UserSt.release_ups] at hd2; exact s.release_mono _ _ (h.rel hd d2 hd2)
    | next a => rw [userObs_lawful.ignore s _ (by simp [hd]) rfl]; exact h
    | error a => rw [userObs_lawful.ignore s _ (by simp [hd]) rfl]; exact h
    | completed => rw [userObs_lawful.ignore s _ (by simp [hd]) rfl]; exact h
  | false =>
    cases c with
    | next a =>
      simp only [Obs.call, userObs, observerImpl, localDisp, lambdaStrategy, hd, Bool.or_self,
        Bool.false_eq_true, if_false]
      have h1 : UInv (if (react (evsOf (s.log ++ [.ev (.next a)]))).dispose = true then
          UserSt.dispose { s with log := s.log ++ [.ev (.next a)] }
          else { s with log := s.log ++ [.ev (.next a)] }) := by
        split
        · exact (h.push_next hd a).dispose
        · exact h.push_next hd a
      simp only [hd] at h1
      cases (react (evsOf (s.log ++ [.ev (.next a)]))).throws with
      | none => exact h1
      | some e => exact h1.onError e
    | error e => exact h.onError e
    | completed =>
      simp only [Obs.call, userObs, observerImpl, localDisp, lambdaStrategy, hd, Bool.or_self,
        Bool.false_eq_true, if_false]
      have := h.push_term hd .completed rfl (react (evsOf (s.log ++ [.ev .completed]))).dispose
      simpa [hd] using this
    | up d =>
      have hadd : UInv { s with ups := s.ups ++ [d] } := by
        refine ⟨⟨h.shape.split, h.shape.nodup⟩, h.live, h.gram, fun h2 => ?_⟩
        simp only [hd] at h2; cases h2
      simp only [hd] at hadd
      simp only [Obs.call, userObs, observerImpl, localDisp, hd, Bool.false_or,
        Bool.false_eq_true, if_false]
      cases cap with
      | none => simpa [lambdaStrategy] using hadd
      | some n =>
        by_cases hn : s.ups.length ≥ n
        · simp only [hn, if_true]
          simp only [lambdaStrategy, Bool.false_eq_true, if_false]
          exact h.onError (cap := some n) (react := react) (ov := ov) ov
        · simpa [lambdaStrategy, hn] using hadd

theorem UInv.userRun (acts : List (Act α ε)) : ∀ {s : UserSt α ε}, UInv s →
    UInv (userRun cap ov react s acts) := by
  induction acts with
  | nil => intro s h; exact h
  | cons a acts ih =>
    intro s h
    cases a with
    | call c => exact ih (h.call c)
    | dispose => exact ih h.dispose

theorem UInv.run (cs : List (Call α ε)) : ∀ {s : UserSt α ε}, UInv s →
    UInv ((userObs cap ov react).run s cs) := by
  induction cs with
  | nil => intro s h; exact h
  | cons c cs ih => intro s h; exact ih (h.call c)

/-- `k` disposables fit into a container of this capacity. -/
def Fits (cap : Option Nat) (k : Nat) : Prop := ∀ n, cap = some n → k ≤ n

theorem run_of_disposed {s : UserSt α ε} (hd : s.disposed = true) (cs : List (Call α ε)) :
    evsOf ((userObs cap ov react).run s cs).log = evsOf s.log ∧
    ((userObs cap ov react).run s cs).disposed = true ∧
    (∀ d ∈ upsOf cs, Out.released d ∈ ((userObs cap ov react).run s cs).log) := by
  rw [userObs_lawful.run_disposed cs s (by simp [hd])]
  have := s.releaseAll_facts (upsOf cs)
  exact ⟨this.1, this.2.1.trans hd, this.2.2.2.1⟩

theorem evs_onError {s : UserSt α ε} (hd : s.disposed = false) (e : ε) :
    evsOf (implOnError (lambdaStrategy react) (localDisp cap ov) e s).log = evsOf s.log ++ [.error e] ∧
    (implOnError (lambdaStrategy react) (localDisp cap ov) e s).disposed = true := by
  rw [implOnError_user]
  simp only [hd, Bool.false_eq_true, if_false]
  refine ⟨?_, (UserSt.dispose_facts _).2.1⟩
  rw [(UserSt.dispose_facts _).1]
  simp only [lambdaStrategy]
  split
  · rw [(UserSt.dispose_facts _).1]; simp [evsOf_append, evsOf]
  · simp [evsOf_append, evsOf]

theorem call_up_fits {s : UserSt α ε} (hd : s.disposed = false) (d : Nat)
    (hf : Fits cap (s.ups.length + 1)) :
    (userObs cap ov react).call (.up d) s = { s with ups := s.ups ++ [d] } := by
  simp only [Obs.call, userObs, observerImpl, localDisp, hd, Bool.false_or, Bool.false_eq_true, if_false]
  cases cap with
  | none => simp [lambdaStrategy, hd]
  | some n =>
    have := hf n rfl
    simp [lambdaStrategy, hd, show ¬ s.ups.length ≥ n by omega]

theorem call_next {s : UserSt α ε} (hd : s.disposed = false) (a : α) :
    (userObs cap ov react).call (.next a) s =
      match (react (evsOf (s.log ++ [.ev (.next a)]))).throws with
      | none => (if (react (evsOf (s.log ++ [.ev (.next a)]))).dispose then
          UserSt.dispose { s with log := s.log ++ [.ev (.next a)] }
          else { s with log := s.log ++ [.ev (.next a)] })
      | some e => implOnError (lambdaStrategy react) (localDisp cap ov) e
        (if (react (evsOf (s.log ++ [.ev (.next a)]))).dispose then
          UserSt.dispose { s with log := s.log ++ [.ev (.next a)] }
          else { s with log := s.log ++ [.ev (.next a)] }) := by
  have h0 : ((localDisp cap ov).isDisposed s || (lambdaStrategy react).isDisposed s) = false := by
    simp [localDisp, lambdaStrategy, hd]
  show (if ((localDisp cap ov).isDisposed s || (lambdaStrategy react).isDisposed s) = true then s else _) = _
  rw [h0, if_neg (by simp)]
  simp only [lambdaStrategy]
  cases (react (evsOf (s.log ++ [.ev (.next a)]))).throws <;> rfl

theorem user_deliver (cs : List (Call α ε)) : ∀ s : UserSt α ε, s.disposed = false →
    Fits cap (s.ups.length + (upsOf cs).length) →
    evsOf ((userObs cap ov react).run s cs).log =
      deliver react (evsOf s.log) (traceOf cs).vals (traceOf cs).fin := by
  induction cs with
  | nil => intro s _ _; simp [deliver]
  | cons c cs ih =>
    intro s hd hf
    rw [Obs.run_cons]
    cases c with
    | up d =>
      have hf' : Fits cap (s.ups.length + 1) := fun n hn => by
        have := hf n hn; simp [upsOf] at this; omega
      rw [call_up_fits hd d hf']
      exact ih { s with ups := s.ups ++ [d] } hd
        (fun n hn => by have := hf n hn; simp [upsOf] at this ⊢; omega)
    | error e =>
      show evsOf ((userObs cap ov react).run (implOnError _ _ e s) cs).log = _
      obtain ⟨h1, h2⟩ := evs_onError (cap := cap) (ov := ov) (react := react) hd e
      rw [(run_of_disposed h2 cs).1, h1]
      simp [deliver, Term.toCall]
    | completed =>
      have h2 : ((userObs cap ov react).call .completed s).disposed = true := by
        have := userObs_lawful.term (O := userObs cap ov react) s .completed rfl
        simpa using this
      rw [(run_of_disposed h2 cs).1]
      simp only [Obs.call, userObs, observerImpl, localDisp, hd, lambdaStrategy, Bool.or_self,
        Bool.false_eq_true, if_false]
      rw [(UserSt.dispose_facts _).1]
      split
      · rw [(UserSt.dispose_facts _).1]; simp [evsOf_append, evsOf, deliver, Term.toCall]
      · simp [evsOf_append, evsOf, deliver, Term.toCall]
    | next a =>
      rw [traceOf_next]
      simp only [deliver]
      have hf' : Fits cap (s.ups.length + (upsOf cs).length) := hf
      have hev : evsOf (s.log ++ [.ev (.next a)]) = evsOf s.log ++ [.next a] := by
        simp [evsOf_append, evsOf]
      rw [call_next hd, hev]
      generalize hs1 : ({ s with log := s.log ++ [.ev (.next a)] } : UserSt α ε) = s1
      have hs1d : s1.disposed = false := by rw [← hs1]; exact hd
      have hs1e : evsOf s1.log = evsOf s.log ++ [.next a] := by rw [← hs1, ← hev]
      have hs1u : s1.ups = s.ups := by rw [← hs1]
      by_cases hr : (react (evsOf s.log ++ [.next a])).dispose = true
      · simp only [hr, if_true]
        obtain ⟨d1, d2, _⟩ := s1.dispose_facts
        cases (react (evsOf s.log ++ [.next a])).throws with
        | none => rw [(run_of_disposed d2 cs).1, d1, hs1e]
        | some e =>
          have : implOnError (lambdaStrategy react) (localDisp cap ov) e s1.dispose = s1.dispose := by
            rw [implOnError_user, d2]; rfl
          simp only [this]
          rw [(run_of_disposed d2 cs).1, d1, hs1e]
      · simp only [hr, Bool.false_eq_true, if_false]
        cases (react (evsOf s.log ++ [.next a])).throws with
        | none =>
          have := ih s1 hs1d (by rw [hs1u]; exact hf')
          rw [hs1e] at this
          exact this
        | some e =>
          obtain ⟨h1, h2⟩ := evs_onError (cap := cap) (ov := ov) (react := react) hs1d e
          simp only
          rw [(run_of_disposed h2 cs).1, h1, hs1e]

theorem call_ups {s : UserSt α ε} (c : Call α ε) (hc : c.isEvent = true) :
    ((userObs cap ov react).call c s).ups = s.ups ∧
    (∀ x ∈ s.log, x ∈ ((userObs cap ov react).call c s).log) := by
  have himp : ∀ (e : ε) (s : UserSt α ε),
      (implOnError (lambdaStrategy react) (localDisp cap ov) e s).ups = s.ups ∧
      (∀ x ∈ s.log, x ∈ (implOnError (lambdaStrategy react) (localDisp cap ov) e s).log) := by
    intro e s
    rw [implOnError_user]
    split
    · exact ⟨rfl, fun _ h => h⟩
    · rw [(UserSt.dispose_facts _).2.2.1]
      simp only [lambdaStrategy]
      split
      · rw [(UserSt.dispose_facts _).2.2.1]
        refine ⟨rfl, fun x hx => (UserSt.dispose_facts _).2.2.2.2.1 _ ((UserSt.dispose_facts _).2.2.2.2.1 _ ?_)⟩
        simp [hx]
      · refine ⟨rfl, fun x hx => (UserSt.dispose_facts _).2.2.2.2.1 _ ?_⟩
        simp [hx]
  cases hd : s.disposed with
  | true => rw [userObs_lawful.ignore s _ (by simp [hd]) hc]; exact ⟨rfl, fun _ h => h⟩
  | false =>
    cases c with
    | next a =>
      simp only [Obs.call, userObs, observerImpl, localDisp, hd, lambdaStrategy, Bool.or_self,
        Bool.false_eq_true, if_false]
      generalize hs1 : (if (react (evsOf (s.log ++ [.ev (.next a)]))).dispose = true then
          UserSt.dispose { log := s.log ++ [.ev (.next a)], ups := s.ups, disposed := false }
          else { log := s.log ++ [.ev (.next a)], ups := s.ups, disposed := false }) = s1
      have h1 : s1.ups = s.ups ∧ (∀ x ∈ s.log, x ∈ s1.log) := by
        rw [← hs1]
        split
        · exact ⟨(UserSt.dispose_facts _).2.2.1, fun x hx => (UserSt.dispose_facts _).2.2.2.2.1 _ (by simp [hx])⟩
        · exact ⟨rfl, fun x hx => by simp [hx]⟩
      cases (react (evsOf (s.log ++ [.ev (.next a)]))).throws with
      | none => exact h1
      | some e =>
        have h2 := himp e s1
        exact ⟨h2.1.trans h1.1, fun x hx => h2.2 x (h1.2 x hx)⟩
    | error e => exact himp e s
    | completed =>
      simp only [Obs.call, userObs, observerImpl, localDisp, hd, lambdaStrategy, Bool.or_self,
        Bool.false_eq_true, if_false]
      rw [(UserSt.dispose_facts _).2.2.1]
      split
      · rw [(UserSt.dispose_facts _).2.2.1]
        refine ⟨rfl, fun x hx => (UserSt.dispose_facts _).2.2.2.2.1 _ ((UserSt.dispose_facts _).2.2.2.2.1 _ ?_)⟩
        simp [hx]
      · refine ⟨rfl, fun x hx => (UserSt.dispose_facts _).2.2.2.2.1 _ ?_⟩
        simp [hx]
    | up d => simp [Call.isEvent] at hc

/-- Every disposable handed over is stored or already released. -/
theorem user_ups (cs : List (Call α ε)) : ∀ s : UserSt α ε,
    Fits cap (s.ups.length + (upsOf cs).length) →
    let s' := (userObs cap ov react).run s cs
    (∀ d ∈ upsOf cs, d ∈ s'.ups ∨ Out.released d ∈ s'.log) ∧
    (∀ d ∈ s.ups, d ∈ s'.ups) ∧ (∀ x ∈ s.log, x ∈ s'.log) := by
  induction cs with
  | nil => intro s _; exact ⟨by simp [upsOf], fun _ h => h, fun _ h => h⟩
  | cons c cs ih =>
    intro s hf
    simp only [Obs.run_cons]
    by_cases hc : c.isEvent = true
    · obtain ⟨h1, h2⟩ := call_ups (cap := cap) (ov := ov) (react := react) (s := s) c hc
      have hu : upsOf (c :: cs) = upsOf cs := by cases c <;> first | rfl | simp [Call.isEvent] at hc
      rw [hu] at hf ⊢
      obtain ⟨i1, i2, i3⟩ := ih ((userObs cap ov react).call c s) (by rw [h1]; exact hf)
      exact ⟨i1, fun d hd => i2 d (by rw [h1]; exact hd), fun x hx => i3 x (h2 x hx)⟩
    · cases c with
      | up d =>
        cases hd : s.disposed with
        | true =>
          have hcall : (userObs cap ov react).call (.up d) s = s.release d :=
            userObs_lawful.up_disposed s d (by simp [hd])
          rw [hcall]
          obtain ⟨i1, i2, i3⟩ := ih (s.release d) (fun n hn => by
            have := hf n hn; rw [UserSt.release_ups]; simp [upsOf] at this; omega)
          refine ⟨?_, fun d hd => i2 d (by rw [UserSt.release_ups]; exact hd),
            fun x hx => i3 x (s.release_mono _ _ hx)⟩
          intro x hx
          rcases List.mem_cons.1 hx with rfl | hx
          · exact Or.inr (i3 _ (s.released_release _))
          · exact i1 x hx
        | false =>
          have hf' : Fits cap (s.ups.length + 1) := fun n hn => by
            have := hf n hn; simp [upsOf] at this; omega
          rw [call_up_fits hd d hf']
          obtain ⟨i1, i2, i3⟩ := ih { s with ups := s.ups ++ [d] }
            (fun n hn => by have := hf n hn; simp [upsOf] at this ⊢; omega)
          refine ⟨?_, fun d hd => i2 d (by simp [hd]), i3⟩
          intro x hx
          rcases List.mem_cons.1 hx with rfl | hx
          · exact Or.inl (i2 _ (by simp))
          · exact i1 x hx
      | _ => simp [Call.isEvent] at hc

theorem Pipe.upsOf_trans : {α γ : Type} → (p : Pipe ε α γ) → (cs : List (Call α ε)) →
    upsOf (p.trans cs) = p.finals ++ upsOf cs
  | _, _, .nil, cs => rfl
  | _, _, .cons o p, cs => by
    rw [Pipe.trans, p.upsOf_trans, upsOf_append, OpStrategy.trans_ups o.ok, Pipe.finals]
    rw [List.append_assoc]
    congr 2
    cases o <;> rfl

end Rpp
