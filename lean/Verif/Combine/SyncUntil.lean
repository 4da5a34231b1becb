import Verif.Combine.SyncPairProps

/-!
# `take_until` on one thread

`/repo/src/rpp/rpp/operators/take_until.hpp`, if the trigger and the main observable hand over all their values inside `subscribe`.  `lift` subscribes to the trigger first (109-115).
-/

namespace Rpp.SyncUntil

open SyncResub (finCalls)
open SyncPair (Src calls)

/-- Where the thread is: in the loop of the trigger or of the main observable, about to look at value `i`; returned. (sources/from.hpp 107-113) -/
inductive Pc where
  | trigger (i : Nat)
  | main (i : Nat)
  | done

/-- `stopped`: `m_stopped` (take_until.hpp 43); `fired`, `got`: how many values of the trigger and of the main observable were handed over, which the code does not count. -/
structure St (σ : Type) where
  obs : σ
  pc : Pc := .trigger 0
  stopped : Bool := false
  fired : Nat := 0
  got : Nat := 0

/-- A value of the trigger. (take_until.hpp 73-79) -/
def fire (O : Obs α ε σ) (s : St σ) : St σ := { s with obs := if s.stopped then s.obs else O.onCompleted s.obs, stopped := true }

/-- A value of the main observable. (take_until.hpp 85-90) -/
def next (O : Obs α ε σ) (s : St σ) (a : α) : St σ := { s with obs := if s.stopped then s.obs else O.onNext a s.obs }

/-- An end of either. (take_until.hpp 53-63) -/
def ends (O : Obs α ε σ) (s : St σ) : Option (Term ε) → St σ
  | none => s
  | some (.error e) => { s with obs := if s.stopped then s.obs else O.onError e s.obs, stopped := true }
  | some .completed => { s with obs := if s.stopped then s.obs else O.onCompleted s.obs, stopped := true }

/-- One step; values are handed over only if the observer is not disposed (from.hpp 109, take_until.hpp 67), and ends are dropped if it is (observers/observer.hpp 99-120).
Simplifications: `subscribe` does not throw; the mutex, which one thread takes and lets go of (re-entrance: C69, C95), is left out. (sources/from.hpp 101-121, take_until.hpp 109-115) -/
def step (O : Obs α ε σ) (x : Src α ε) (y : Src β ε) (s : St σ) : St σ :=
  match s.pc with
  | .done => s
  | .trigger i => if O.isDisposed s.obs then { s with pc := .main 0 } else match y.at' i with
    | none => { ends O s y.fin with pc := .main 0 }
    | some _ => { fire O s with pc := .trigger (i + 1), fired := s.fired + 1 }
  | .main i => if O.isDisposed s.obs then { s with pc := .done } else match x.at' i with
    | none => { ends O s x.fin with pc := .done }
    | some a => { next O s a with pc := .main (i + 1), got := s.got + 1 }

/-- After `k` steps; the observer is given at most one disposable (a simplification: the trigger and the main observable each may give it one). (take_until.hpp 65) -/
def exec (O : Obs α ε σ) (x : Src α ε) (y : Src β ε) (s : σ) (k : Nat) : St σ := Nat.repeat (step O x y) k { obs := O.call (.up 0) s }

/-! ## Proofs -/

section
variable {O : Obs α ε σ} {x : Src α ε} {y : Src β ε}

/-- `k` steps lead from here to there. -/
def Gets (O : Obs α ε σ) (x : Src α ε) (y : Src β ε) (k : Nat) (s t : St σ) : Prop := Nat.repeat (step O x y) k s = t

theorem Gets.one {s t : St σ} (h : step O x y s = t) : Gets O x y 1 s t := h

theorem Gets.trans {k j : Nat} {s t u : St σ} (h : Gets O x y k s t) (h' : Gets O x y j t u) : Gets O x y (k + j) s u := by
  unfold Gets at *
  rw [SyncPair.repeat_add, h, h']

theorem done_stays (k : Nat) {t : St σ} (h : t.pc = .done) : Nat.repeat (step O x y) k t = t := by
  induction k with
  | zero => rfl
  | succ k ih => show step O x y (Nat.repeat _ k t) = t; rw [ih]; simp only [step, h]

/-- A trigger that says nothing. -/
theorem silent {o : σ} (h : y.at' 0 = none) (hf : y.fin = none) : Gets O x y 1 { obs := o } { obs := o, pc := .main 0 } := by
  apply Gets.one
  cases hd : O.isDisposed o <;> simp only [step, hd, h, hf, ends, Bool.false_eq_true, if_false, if_true]

/-- The first values of the main observable. -/
theorem main_values {o : σ} (n : Nat) : ∀ as : List α, as.length = n → (∀ k < n, O.isDisposed (O.run o ((as.take k).map .next)) = false) → (∀ i (h : i < as.length), x.at' i = some as[i]) →
    Gets O x y n { obs := o, pc := .main 0 } { obs := O.run o (as.map .next), pc := .main n, got := n } := by
  induction n with
  | zero => intro as h _ _; rw [List.length_eq_zero_iff.1 h]; rfl
  | succ n ih =>
    intro as h hd hx
    rcases List.eq_nil_or_concat as with rfl | ⟨bs, a, rfl⟩
    · cases h
    · rw [List.concat_eq_append] at *
      have hb : bs.length = n := by simpa using h
      have h1 := ih bs hb (fun k hk => by have := hd k (by omega); rwa [List.take_append_of_le_length (by omega)] at this) (fun i hi => by
        have := hx i (by simp; omega)
        rw [this, List.getElem_append_left hi])
      have h0 := hd n (by omega)
      rw [List.take_left' hb] at h0
      have hxa : x.at' n = some a := by
        have := hx bs.length (by simp)
        rw [← hb, this]
        simp
      refine h1.trans (Gets.one ?_)
      simp only [step, h0, hxa, next, Bool.false_eq_true, if_false]
      rw [List.map_append, Obs.run_append]
      rfl

end

end Rpp.SyncUntil
