import Verif.Core.Props

/-!
# C118: type erasure (`as_dynamic`)

Models observers/dynamic_observer.hpp 70-112 (`dynamic_observer`), observables/dynamic_observable.hpp 30-74 (`dynamic_observable`) and the check in `observable::subscribe` (observables/observable.hpp 57-71) that an
erased observable makes and a chain of operators does not (observables/details/chain_strategy.hpp 45-56).

Simplified: the `shared_ptr`s (C90 has the ownership; C99 copies of one `dynamic_observer`); one source, the operators of `Pipe`.
-/

namespace Rpp

/-- `dynamic_strategy` of observers: forwards everything to the observer it holds (dynamic_observer.hpp 91-112, through the table of functions 24-88).  All of it is `noexcept`. -/
def eraseStrategy (O : Obs α ε σ) : Strategy α ε σ where
  onNext a s := (O.onNext a s, none)
  onError := O.onError
  onCompleted := O.onCompleted
  setUpstream := O.setUpstream
  isDisposed := O.isDisposed
  release := O.release

/-- `observer::as_dynamic` (observers/observer.hpp 197-200): an `observer_impl` with `none_disposable_strategy` (237-246). -/
def erase (O : Obs α ε σ) : Obs α ε σ := observerImpl (eraseStrategy O) noneDisp

/-- A chain of operators with `as_dynamic()` of the observable anywhere in it: `dyn p` is `… | as_dynamic | p`.  (observables/observable.hpp 314-319) -/
inductive EPipe (ε : Type) : Type → Type → Type 1 where
  | nil {α} : EPipe ε α α
  | cons {α β γ} (o : Op ε α β) (p : EPipe ε β γ) : EPipe ε α γ
  | dyn {α γ} (p : EPipe ε α γ) : EPipe ε α γ

/-- The chain without `as_dynamic`.  Specification; models no code. -/
def EPipe.forget : EPipe ε α γ → Pipe ε α γ
  | .nil => .nil
  | .cons o p => .cons o p.forget
  | .dyn p => p.forget

/-- The observer handed to the source (chain_strategy.hpp 45-56; dynamic_observable.hpp 51-55: `std::move(observer).as_dynamic()`). -/
def EPipe.lift {τ : Type} : {α γ : Type} → (p : EPipe ε α γ) → Obs γ ε τ → Obs α ε (p.forget.State τ)
  | _, _, .nil, O => O
  | _, _, .cons o p, O => o.strategy.lift (p.lift O)
  | _, _, .dyn p, O => erase (p.lift O)

/-- Putting the chain together, from the subscriber to the source (chain_strategy.hpp 45-56).  An erased observable is subscribed with `observable::subscribe`, which does nothing if the observer is disposed
(dynamic_observable.hpp 22-26, observable.hpp 58-62): then nothing nearer to the source happens any more.  The Boolean says whether the source is reached. -/
def EPipe.start {τ : Type} : {α γ : Type} → (p : EPipe ε α γ) → Obs γ ε τ → τ → p.forget.State τ × Bool
  | _, _, .nil, _, t => (t, true)
  | _, _, .cons o p, O, t =>
    let r := p.start O t
    if r.2 then (o.strategy.start (p.lift O) r.1, true) else ((o.strategy.init, r.1), false)
  | _, _, .dyn p, O, t =>
    let r := p.start O t
    (r.1, r.2 && !(erase (p.lift O)).isDisposed r.1)

/-- State of the subscriber of `source | p` if the source makes the calls `cs` when subscribed. (chain_strategy.hpp 45-56, observable.hpp 57-71) -/
def EPipe.subscriber [DecidableEq γ] [DecidableEq ε] (cap : Option Nat) (ov : ε) (react : List (Call γ ε) → Reaction ε) (p : EPipe ε α γ) (cs : List (Call α ε)) : UserSt γ ε :=
  let r := p.start (userObs cap ov react) {}
  p.forget.final (if r.2 then (p.lift (userObs cap ov react)).run r.1 cs else r.1)

/-! ## Proofs -/

/-- Erasing an observer changes nothing about it. -/
theorem erase_eq {O : Obs α ε σ} (h : Lawful O) : erase O = O := by
  have h1 : (erase O).onNext = O.onNext := by
    funext a s
    show (if (false || O.isDisposed s) = true then s else O.onNext a s) = O.onNext a s
    by_cases hd : O.isDisposed s = true
    · rw [if_pos (by simp [hd])]; exact (h.ignore s (.next a) hd rfl).symm
    · rw [if_neg (by simpa using hd)]
  have h2 : (erase O).onError = O.onError := by
    funext e s
    show (if (false || O.isDisposed s) = true then s else O.onError e s) = O.onError e s
    by_cases hd : O.isDisposed s = true
    · rw [if_pos (by simp [hd])]; exact (h.ignore s (.error e) hd rfl).symm
    · rw [if_neg (by simpa using hd)]
  have h3 : (erase O).onCompleted = O.onCompleted := by
    funext s
    show (if (false || O.isDisposed s) = true then s else O.onCompleted s) = O.onCompleted s
    by_cases hd : O.isDisposed s = true
    · rw [if_pos (by simp [hd])]; exact (h.ignore s .completed hd rfl).symm
    · rw [if_neg (by simpa using hd)]
  have h4 : (erase O).setUpstream = O.setUpstream := by
    funext d s
    show (if (false || O.isDisposed s) = true then O.release d s else O.setUpstream d s) = O.setUpstream d s
    by_cases hd : O.isDisposed s = true
    · rw [if_pos (by simp [hd])]; exact (h.up_disposed s d hd).symm
    · rw [if_neg (by simpa using hd)]
  have h5 : (erase O).isDisposed = O.isDisposed := by funext s; show (false || O.isDisposed s) = _; simp
  have h6 : (erase O).release = O.release := rfl
  cases O
  generalize erase _ = E at *
  cases E
  simp only at h1 h2 h3 h4 h5 h6
  subst h1 h2 h3 h4 h5 h6
  rfl

theorem EPipe.lift_eq {τ : Type} : {α γ : Type} → (p : EPipe ε α γ) → {O : Obs γ ε τ} → Lawful O → p.lift O = p.forget.lift O
  | _, _, .nil, _, _ => rfl
  | _, _, .cons o p, O, h => by
    show o.strategy.lift (p.lift O) = o.strategy.lift (p.forget.lift O)
    rw [p.lift_eq h]
  | _, _, .dyn p, O, h => by
    show erase (p.lift O) = p.forget.lift O
    rw [p.lift_eq h, erase_eq (p.forget.lift_lawful h)]

theorem Pipe.lift_isDisposed {τ : Type} : {α γ : Type} → (p : Pipe ε α γ) → (O : Obs γ ε τ) → (s : p.State τ) → (p.lift O).isDisposed s = O.isDisposed (p.final s)
  | _, _, .nil, _, _ => rfl
  | _, _, .cons o p, O, s => by
    show (false || (p.lift O).isDisposed s.2) = O.isDisposed (p.final s.2)
    rw [Bool.false_or]; exact p.lift_isDisposed O s.2

theorem Pipe.final_release {τ : Type} : {α γ : Type} → (p : Pipe ε α γ) → (O : Obs γ ε τ) → (d : Nat) → (s : p.State τ) → p.final ((p.lift O).release d s) = O.release d (p.final s)
  | _, _, .nil, _, _, _ => rfl
  | _, _, .cons _ p, O, d, s => p.final_release O d s.2

theorem Pipe.final_releases {τ : Type} (p : Pipe ε α γ) (O : Obs γ ε τ) (ds : List Nat) : ∀ s : p.State τ,
    p.final (ds.foldl (fun s d => (p.lift O).release d s) s) = ds.foldl (fun s d => O.release d s) (p.final s) := by
  induction ds with
  | nil => intro s; rfl
  | cons d ds ih => intro s; rw [List.foldl_cons, List.foldl_cons, ih, p.final_release]

/-- The two ways of putting the chain together agree, or the observer was disposed on the way and only disposables are released after that. -/
theorem EPipe.start_rel {τ : Type} : {α γ : Type} → (p : EPipe ε α γ) → {O : Obs γ ε τ} → Lawful O → (t : τ) →
    ((p.start O t).2 = true → (p.start O t).1 = p.forget.start O t) ∧
    ((p.start O t).2 = false → O.isDisposed (p.forget.final (p.start O t).1) = true ∧
      ∃ ds : List Nat, p.forget.final (p.forget.start O t) = ds.foldl (fun s d => O.release d s) (p.forget.final (p.start O t).1))
  | _, _, .nil, _, _, _ => ⟨fun _ => rfl, fun h => by cases h⟩
  | _, _, .cons o p, O, h, t => by
    obtain ⟨h1, h2⟩ := p.start_rel h t
    have hl := p.forget.lift_lawful h
    cases hg : (p.start O t).2 with
    | true =>
      have e : (EPipe.cons o p).start O t = (o.strategy.start (p.lift O) (p.start O t).1, true) := by simp only [EPipe.start, hg, if_true]; rfl
      refine ⟨fun _ => ?_, fun hf => by rw [e] at hf; cases hf⟩
      rw [e, p.lift_eq h, h1 hg]; rfl
    | false =>
      have e : (EPipe.cons o p).start O t = ((o.strategy.init, (p.start O t).1), false) := by simp only [EPipe.start, hg]; rfl
      refine ⟨(fun hf => by rw [e] at hf; cases hf), fun _ => ?_⟩
      obtain ⟨hd, ds, hds⟩ := h2 hg
      rw [e]
      refine ⟨hd, ds ++ upsOf o.strategy.initOut, ?_⟩
      show p.forget.final ((p.forget.lift O).run (p.forget.start O t) o.strategy.initOut) = _
      have hdis : (p.forget.lift O).isDisposed (p.forget.start O t) = true := by
        rw [Pipe.lift_isDisposed, hds]
        have : ∀ (ds : List Nat) (s : τ), O.isDisposed s = true → O.isDisposed (ds.foldl (fun s d => O.release d s) s) = true := by
          intro ds
          induction ds with
          | nil => exact fun s h => h
          | cons d ds ih => exact fun s hs => ih _ (h.release_disposed s d hs)
        exact this ds _ hd
      rw [hl.run_disposed _ _ hdis, Pipe.final_releases, hds, List.foldl_append]
      rfl
  | _, _, .dyn p, O, h, t => by
    obtain ⟨h1, h2⟩ := p.start_rel h t
    have hl := p.forget.lift_lawful h
    have ee : (erase (p.lift O)).isDisposed (p.start O t).1 = O.isDisposed (p.forget.final (p.start O t).1) := by
      rw [p.lift_eq h, erase_eq hl, Pipe.lift_isDisposed]
    have e : (EPipe.dyn p).start O t = ((p.start O t).1, (p.start O t).2 && !O.isDisposed (p.forget.final (p.start O t).1)) := by
      rw [← ee]; rfl
    rw [e]
    refine ⟨fun hg => h1 (by simp only [Bool.and_eq_true] at hg; exact hg.1), fun hg => ?_⟩
    cases hp : (p.start O t).2 with
    | false => exact h2 hp
    | true =>
      rw [hp] at hg
      have hd : O.isDisposed (p.forget.final (p.start O t).1) = true := by simpa using hg
      exact ⟨hd, [], by rw [h1 hp]; rfl⟩

theorem evsOf_append' (a b : List (Out α ε)) : evsOf (a ++ b) = evsOf a ++ evsOf b := by
  induction a with
  | nil => rfl
  | cons x a ih => cases x <;> simp [evsOf, ih]

theorem evs_releases [DecidableEq γ] [DecidableEq ε] (cap : Option Nat) (ov : ε) (react : List (Call γ ε) → Reaction ε) (ds : List Nat) : ∀ s : UserSt γ ε,
    evsOf (ds.foldl (fun s d => (userObs cap ov react).release d s) s).log = evsOf s.log := by
  induction ds with
  | nil => intro s; rfl
  | cons d ds ih =>
    intro s
    rw [List.foldl_cons, ih]
    show evsOf (s.release d).log = _
    unfold UserSt.release
    split
    · rfl
    · simp [evsOf_append', evsOf]

end Rpp
