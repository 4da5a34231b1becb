import Verif.Combine.SwitchFineCalls
import Verif.Combine.SwitchFineRefs

/-!
# switch_on_next, atomic operation by atomic operation: every history keeps the invariant
-/

namespace Rpp.SwFine

open Comb (Sig)

variable {α ε : Type}

theorem after_over (s : St α ε) (i : Nat) (n : After) : (s.after i n).over = s.over := by cases n <;> rfl

theorem over_mono (s : St α ε) (l : Lbl α ε) (h : s.over = true) : (step s l).over = true := by
  cases l with
  | run i =>
    simp only [step, St.run]
    split
    · exact h
    · rw [after_over]; exact h
    · split
      · rw [after_over]; exact h
      · exact h
    · split
      · rw [after_over]; exact h
      · split
        · exact h
        · rw [after_over]; exact h
    · rw [after_over]; exact h
    · split <;> exact h
    · split
      · exact h
      · rw [after_over]; exact h
    · exact h
    · rw [if_pos h]; exact h
  | gone => rfl
  | _ =>
    simp only [step]
    split <;> exact h

theorem no_ref {s : St α ε} (h : Inv s) (hb : Busy (s.pc 0)) : s.cnt ≠ none ∧ s.dead = false := by
  have h0 := (h.busy 0 hb).2
  have hc : s.cnt ≠ none := by
    intro hc
    have := h.out 0 (by have := h.nxt; omega) (by rw [h.cntN hc]; simp)
    rw [h0] at this; cases this
  refine ⟨hc, ?_⟩
  cases hd : s.dead with
  | false => rfl
  | true => exact absurd (h.deadN hd) hc

theorem inv_run {s : St α ε} (h : Inv s) (ho : s.over = false) (i : Nat) (h' : (s.run i).over = false) : Inv (s.run i) := by
  revert h'
  unfold St.run
  match hp : s.pc i with
  | .idle => intro _; exact h
  | .exch none n => intro _; exact inv_exchN h hp
  | .exch (some r) n =>
    intro _
    dsimp only
    cases hf : s.flags r with
    | true =>
      rw [if_pos rfl]
      rcases (h.exch i r n hp).2 with ⟨rfl, -⟩ | ⟨rfl, -⟩
      · exact inv_exchR h hp hf
      · exact inv_exchT h hp hf
    | false =>
      rw [if_neg Bool.false_ne_true]
      exact inv_exch h hp hf
  | .rel r n =>
    intro _
    dsimp only
    cases hc : s.cnt with
    | none =>
      have := (h.rel i r n hp).1
      rw [h.cntN hc] at this
      cases this
    | some c =>
      dsimp only
      by_cases h1 : c = 1
      · rw [if_pos h1]; subst h1
        exact inv_rel1 h hp hc
      · rw [if_neg h1]
        rcases (h.rel i r n hp).2.2 with ⟨rfl, rfl⟩ | rfl
        · exact inv_relR h hp hc h1
        · exact inv_relT h hp hc h1
  | .flag n =>
    intro _
    obtain rfl := (h.flag i n hp).2
    exact inv_flag h hp
  | .ref =>
    intro _
    dsimp only
    have hi := (h.busy i (by rw [hp]; trivial)).1
    subst hi
    cases hc : s.cnt with
    | none => exact absurd hc (no_ref h (by rw [hp]; trivial)).1
    | some c => exact inv_ref h hp hc
  | .reg k =>
    intro _
    dsimp only
    have hi := (h.busy i (by rw [hp]; trivial)).1
    subst hi
    rw [(no_ref h (by rw [hp]; trivial)).2, if_neg Bool.false_ne_true]
    exact inv_reg h hp
  | .test =>
    intro _
    dsimp only
    cases hd : s.dead with
    | true => rw [if_pos rfl]; exact inv_test h hp hd
    | false => rw [if_neg Bool.false_ne_true]; exact inv_testN h hp hd
  | .call (.next v) =>
    intro _
    dsimp only
    rw [ho, if_neg Bool.false_ne_true]
    have := inv_call h hp
    have e : ({ s with over := false } : St α ε) = s := by rw [← ho]
    rw [e]
    exact this
  | .call (.term t) =>
    dsimp only
    rw [ho, if_neg Bool.false_ne_true]
    intro h'
    cases h'

theorem inv_step {s : St α ε} (h : s.over = false → Inv s) (l : Lbl α ε) : (step s l).over = false → Inv (step s l) := by
  intro h'
  have ho : s.over = false := by
    cases ho : s.over with
    | false => rfl
    | true =>
      exfalso
      have := over_mono s l ho
      rw [h'] at this; cases this
  have hi := h ho
  cases l with
  | outer =>
    simp only [step]
    split
    · exact inv_outer hi ‹_›
    · exact hi
  | emit i v =>
    simp only [step]
    split
    · rename_i hc
      exact inv_emit hi hc.1 hc.2
    · exact hi
  | fin i t =>
    simp only [step]
    split
    · cases t with
      | completed => exact inv_fin hi ‹_›
      | error e => exact inv_fail hi ‹_›
    · exact hi
  | run i => exact inv_run hi ho i h'
  | gone => cases h'
  | shut =>
    simp only [step, ho]
    exact hi
  | wipe =>
    simp only [step]
    split
    · rename_i hd
      have e : ({ s with cnt := none } : St α ε) = s := by rw [← hi.deadN hd]
      rw [e]; exact hi
    · exact hi
  | kill k =>
    simp only [step]
    split
    · rename_i hc
      simp only [Bool.and_eq_true, decide_eq_true_eq] at hc
      exact inv_kill hi hc.1.1 hc.2
    · exact hi

theorem inv_exec (ls : List (Lbl α ε)) : (exec ls).over = false → Inv (exec ls) := by
  suffices h : ∀ (ls : List (Lbl α ε)) (s : St α ε), (s.over = false → Inv s) → (ls.foldl step s).over = false → Inv (ls.foldl step s) by
    exact h ls {} (fun _ => inv_init)
  intro ls
  induction ls with
  | nil => exact fun s h => h
  | cons l ls ih => exact fun s h => ih _ (inv_step h l)

end Rpp.SwFine
