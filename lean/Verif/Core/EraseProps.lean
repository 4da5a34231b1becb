import Verif.Core.Erase

/-!
# C118: property theorems

`p : EPipe` is a chain of operators with `as_dynamic()` at any places, `p.forget` the same chain without.
-/

namespace Rpp

section
variable [DecidableEq α] [DecidableEq β] [DecidableEq γ] [DecidableEq ε]

/-- C118: `as_dynamic` of the observer of a subscriber, or of one that operators have put in front of it, is indistinguishable from the observer itself. -/
theorem C118_observer (cap : Option Nat) (ov : ε) (react : List (Call γ ε) → Reaction ε) (p : Pipe ε α γ) :
    erase (p.lift (userObs cap ov react)) = p.lift (userObs cap ov react) := erase_eq (p.lift_lawful userObs_lawful)

/-- C118: a subscriber of a chain sees the same notifications with and without `as_dynamic`. -/
theorem C118_seen (cap : Option Nat) (ov : ε) (react : List (Call γ ε) → Reaction ε) (p : EPipe ε α γ) (cs : List (Call α ε)) :
    evsOf (p.subscriber cap ov react cs).log = subscriberSees cap ov react p.forget cs := by
  obtain ⟨h1, h2⟩ := p.start_rel (O := userObs cap ov react) userObs_lawful {}
  unfold EPipe.subscriber subscriberSees subscriber
  cases hg : (p.start (userObs cap ov react) {}).2 with
  | true => dsimp only; rw [hg, if_pos rfl, h1 hg, p.lift_eq userObs_lawful]
  | false =>
    obtain ⟨hd, ds, hds⟩ := h2 hg
    dsimp only
    rw [hg, if_neg Bool.false_ne_true]
    have hlaw := p.forget.lift_lawful (O := userObs cap ov react) userObs_lawful
    have hdis : (p.forget.lift (userObs cap ov react)).isDisposed (p.forget.start (userObs cap ov react) {}) = true := by
      rw [Pipe.lift_isDisposed, hds]
      have : ∀ (ds : List Nat) (s : UserSt γ ε), (userObs cap ov react).isDisposed s = true → (userObs cap ov react).isDisposed (ds.foldl (fun s d => (userObs cap ov react).release d s) s) = true := by
        intro ds
        induction ds with
        | nil => exact fun s h => h
        | cons d ds ih => exact fun s hs => ih _ (userObs_lawful.release_disposed s d hs)
      exact this ds _ hd
    rw [hlaw.run_disposed _ _ hdis, Pipe.final_releases, hds, evs_releases, evs_releases]

/-- C118: unless the observer has ended while the chain is put together, everything is the same: what the subscriber sees, what is disposed of, and in which order. -/
theorem C118_same (cap : Option Nat) (ov : ε) (react : List (Call γ ε) → Reaction ε) (p : EPipe ε α γ)
    (h : (p.forget.final (p.forget.start (userObs cap ov react) {})).disposed = false) (cs : List (Call α ε)) :
    (p.start (userObs cap ov react) {}).2 = true ∧ p.subscriber cap ov react cs = subscriber cap ov react p.forget cs := by
  obtain ⟨h1, h2⟩ := p.start_rel (O := userObs cap ov react) userObs_lawful {}
  have hg : (p.start (userObs cap ov react) {}).2 = true := by
    cases hg : (p.start (userObs cap ov react) {}).2 with
    | true => rfl
    | false =>
      exfalso
      obtain ⟨hd, ds, hds⟩ := h2 hg
      have : ∀ (ds : List Nat) (s : UserSt γ ε), (userObs cap ov react).isDisposed s = true → (userObs cap ov react).isDisposed (ds.foldl (fun s d => (userObs cap ov react).release d s) s) = true := by
        intro ds
        induction ds with
        | nil => exact fun s h => h
        | cons d ds ih => exact fun s hs => ih _ (userObs_lawful.release_disposed s d hs)
      have hx := this ds _ hd
      rw [← hds] at hx
      have hx' : ((p.forget.final (p.forget.start (userObs cap ov react) {})).disposed || false) = true := hx
      rw [h] at hx'; cases hx'
  refine ⟨hg, ?_⟩
  unfold EPipe.subscriber subscriber
  dsimp only
  rw [hg, if_pos rfl, h1 hg, p.lift_eq userObs_lawful]

/-- C118: if the subscriber leaves while the chain is put together (at the seed of `scan`), an erased source is not subscribed at all; without `as_dynamic` it is. -/
theorem C118_skips (cap : Option Nat) (ov : ε) (react : List (Call γ ε) → Reaction ε) (p : EPipe ε α γ)
    (h : (p.forget.final (p.start (userObs cap ov react) {}).1).disposed = true) : ((EPipe.dyn p).start (userObs cap ov react) {}).2 = false := by
  show ((p.start (userObs cap ov react) {}).2 && !(erase (p.lift (userObs cap ov react))).isDisposed (p.start (userObs cap ov react) {}).1) = false
  rw [p.lift_eq userObs_lawful, erase_eq (p.forget.lift_lawful userObs_lawful), Pipe.lift_isDisposed]
  have : (userObs cap ov react).isDisposed (p.forget.final (p.start (userObs cap ov react) {}).1) = true := by
    show ((p.forget.final (p.start (userObs cap ov react) {}).1).disposed || false) = true
    rw [h]; rfl
  rw [this]; simp

/-- The disposables a subscriber is handed.  Specification; models no code. -/
def handedUps : List (Act α ε) → Nat
  | [] => 0
  | .call (.up _) :: l => handedUps l + 1
  | _ :: l => handedUps l

theorem ups_release (d : Nat) (s : UserSt α ε) : (s.release d).ups = s.ups := by unfold UserSt.release; split <;> rfl

theorem ups_dispose (s : UserSt α ε) : s.dispose.ups = s.ups := by
  unfold UserSt.dispose
  have : ∀ (ds : List Nat) (s : UserSt α ε), (ds.foldl (fun s d => s.release d) s).ups = s.ups := by
    intro ds
    induction ds with
    | nil => exact fun s => rfl
    | cons d ds ih => intro s; rw [List.foldl_cons, ih, ups_release]
  rw [this]

/-- C118: an erased observable subscribes with a container of any size where another may use one of fixed size `n`; the whole history of a subscription is the same as long as not more than `n` disposables are
handed over (C54). -/
theorem C118_capacity (n : Nat) (ov : ε) (react : List (Call α ε) → Reaction ε) (acts : List (Act α ε)) (h : handedUps acts ≤ n) :
    userRun (some n) ov react {} acts = userRun none ov react {} acts := by
  have key : ∀ (acts : List (Act α ε)) (s : UserSt α ε), s.ups.length + handedUps acts ≤ n → userRun (some n) ov react s acts = userRun none ov react s acts := by
    intro acts
    induction acts with
    | nil => intro s _; rfl
    | cons a acts ih =>
      intro s hs
      have herr : ∀ (e : ε) (s : UserSt α ε), (implOnError (lambdaStrategy react) (localDisp none ov) e s).ups = s.ups := by
        intro e s
        unfold implOnError
        split
        · rfl
        · show (UserSt.dispose _).ups = _
          rw [ups_dispose]
          simp only [lambdaStrategy]
          split
          · rw [ups_dispose]
          · rfl
      cases a with
      | dispose => exact ih s.dispose (by rw [ups_dispose]; simpa [handedUps] using hs)
      | call c =>
        cases c with
        | next a =>
          refine ih ((userObs none ov react).onNext a s) ?_
          have : ((userObs none ov react).onNext a s).ups = s.ups := by
            simp only [userObs, observerImpl]
            split
            · rfl
            · simp only [lambdaStrategy]
              split
              · rename_i s' heq
                injection heq with e1 e2
                rw [← e1]; split
                · rw [ups_dispose]
                · rfl
              · rename_i s' e heq
                injection heq with e1 e2
                have := herr e s'
                simp only [lambdaStrategy] at this
                rw [this, ← e1]; split
                · rw [ups_dispose]
                · rfl
          rw [this]; simpa [handedUps] using hs
        | error e =>
          refine ih ((userObs none ov react).onError e s) ?_
          have : ((userObs none ov react).onError e s).ups = s.ups := herr e s
          rw [this]; simpa [handedUps] using hs
        | completed =>
          refine ih ((userObs none ov react).onCompleted s) ?_
          have : ((userObs none ov react).onCompleted s).ups = s.ups := by
            simp only [userObs, observerImpl]
            split
            · rfl
            · show (UserSt.dispose _).ups = _
              rw [ups_dispose]
              simp only [lambdaStrategy]
              split
              · rw [ups_dispose]
              · rfl
          rw [this]; simpa [handedUps] using hs
        | up d =>
          have hlt : s.ups.length < n := by simp only [handedUps] at hs; omega
          have e : (userObs (some n) ov react).setUpstream d s = (userObs none ov react).setUpstream d s := by
            simp only [userObs, observerImpl, localDisp]
            rw [if_neg (by omega : ¬ s.ups.length ≥ n)]; rfl
          have hl : ((userObs none ov react).setUpstream d s).ups.length ≤ s.ups.length + 1 := by
            cases hd : s.disposed with
            | true =>
              have e' : (userObs none ov react).setUpstream d s = s.release d := by simp [userObs, observerImpl, localDisp, lambdaStrategy, hd]
              rw [e', ups_release]; omega
            | false =>
              have e' : (userObs none ov react).setUpstream d s = { s with ups := s.ups ++ [d] } := by simp [userObs, observerImpl, localDisp, lambdaStrategy, hd]
              rw [e']; simp
          show userRun (some n) ov react ((userObs (some n) ov react).setUpstream d s) acts = _
          rw [e]
          exact ih _ (by simp only [handedUps] at hs; omega)
  exact key acts {} (by simpa using h)

end

/-- `source | as_dynamic | scan(0, +) | as_dynamic`, a subscriber that leaves at the seed: nothing is subscribed, and it sees what it sees otherwise. -/
example : let p : EPipe Nat Nat Nat := .dyn (.cons (.scan 0 (fun a b => .ok (a + b))) (.dyn .nil))
    let leave : List (Call Nat Nat) → Reaction Nat := fun _ => { dispose := true }
    (p.start (userObs none 0 leave) {}).2 = false ∧ evsOf (p.subscriber none 0 leave [.up 7, .next 1]).log = [.next 0] ∧ (p.subscriber none 0 leave [.up 7, .next 1]).log = [.ev (.next 0)] ∧
      (subscriber none 0 leave p.forget [.up 7, .next 1]).log = [.ev (.next 0), .released 7] := by decide

example : let p : EPipe Nat Nat Nat := .dyn (.cons (.scan 0 (fun a b => .ok (a + b))) (.dyn .nil))
    (p.forget.final (p.forget.start (userObs none 0 (fun _ => {})) {})).disposed = false ∧
      evsOf (p.subscriber none 0 (fun _ => {}) [.up 7, .next 1, .next 5, .completed]).log = [.next 0, .next 1, .next 6, .completed] := by decide

example : handedUps ([.call (.up 1), .call (.next 5), .call (.up 2), .dispose] : List (Act Nat Nat)) = 2 ∧
    userRun (some 2) 9 (fun _ => {}) ({} : UserSt Nat Nat) [.call (.up 1), .call (.next 5), .call (.up 2), .dispose] =
      userRun none 9 (fun _ => {}) {} [.call (.up 1), .call (.next 5), .call (.up 2), .dispose] ∧
    evsOf (userRun (some 1) 9 (fun _ => {}) ({} : UserSt Nat Nat) [.call (.up 1), .call (.next 5), .call (.up 2), .dispose]).log ≠
      evsOf (userRun none 9 (fun _ => {}) {} [.call (.up 1), .call (.next 5), .call (.up 2), .dispose]).log := by
  refine ⟨rfl, C118_capacity 2 9 _ _ (by decide), by decide⟩

end Rpp
