import Verif.Combine.SwitchFine

/-!
# switch_on_next, atomic operation by atomic operation: invariants
-/

namespace Rpp.SwFine

open Comb (Sig)

variable {α ε : Type}

/-- The outer observable's `on_next` is running; used in proofs only, models no code. -/
def Busy : Pc α ε → Prop
  | .exch _ .ref | .rel _ .ref | .flag .ref | .ref | .reg _ => True
  | _ => False

/-- It has disposed of the last reference; used in proofs only, models no code. -/
def Past : Pc α ε → Prop
  | .rel _ .ref | .flag .ref | .ref | .reg _ => True
  | _ => False

/-- Invariant of the proofs while the observer has not ended; models no code. -/
structure Inv (s : St α ε) : Prop where
  cntS : ∀ c, s.cnt = some c → c = s.held.length ∧ 1 ≤ c
  cntN : s.cnt = none → s.held = []
  nd : s.held.Nodup
  lt : ∀ r ∈ s.held, r < s.next
  out : ∀ r, r < s.next → r ∉ s.held → s.flags r = true
  fl : ∀ r, s.flags r = true → r < s.next
  late : ∀ r, s.flags r = true → r ∈ s.held → ∃ i n, s.pc i = .rel r n
  rel : ∀ i r n, s.pc i = .rel r n → r ∈ s.held ∧ s.flags r = true ∧ (n = .ref ∧ i = 0 ∨ n = .test)
  uniq : ∀ i j r n m, s.pc i = .rel r n → s.pc j = .rel r m → i = j
  zero : s.flags 0 = true → .recv 0 (.term .completed) ∈ s.log
  last : ∀ k, s.cur = some k → s.flags k = true → .recv k (.term .completed) ∈ s.log ∨ Busy (s.pc 0)
  busy : ∀ i, Busy (s.pc i) → i = 0 ∧ s.flags 0 = false
  exch : ∀ i r n, s.pc i = .exch (some r) n → r < s.next ∧ (n = .ref ∧ i = 0 ∧ s.cur = some r ∨ n = .test ∧ r = i ∧ .recv i (.term .completed) ∈ s.log ∧ (i = 0 ∨ isOpen s.log i = true))
  exchN : ∀ i n, s.pc i = .exch none n → n = .ref ∧ s.cur = none
  past : Past (s.pc 0) → ∀ r, s.cur = some r → s.flags r = true
  fresh : ∀ i k, s.pc i = .reg k → i = 0 ∧ k < s.next ∧ k ≠ 0 ∧ s.flags k = false ∧ isOpen s.log k = false
  old : ∀ r, r < s.next → s.flags r = true ∨ r = 0 ∨ s.cur = some r ∨ s.pc 0 = .reg r
  curLt : ∀ k, s.cur = some k → k < s.next ∧ k ≠ 0
  nxt : 1 ≤ s.next
  flag : ∀ i n, s.pc i = .flag n → s.cnt = none ∧ n = .test
  deadN : s.dead = true → s.cnt = none
  noneD : s.cnt = none → s.dead = true ∨ ∃ i, s.pc i = .flag .test
  wit : s.dead = true → ∃ i, s.pc i = .test ∨ s.pc i = .call (.term .completed)
  cc : ∀ i, s.pc i = .call (.term .completed) → s.dead = true
  fin : ∀ i, s.ended i = true → s.flags i = true ∨ s.pc i = .exch (some i) .test ∨ ∃ e, s.pc i = .call (.term (.error e))
  endLog : ∀ i, s.ended i = true ↔ ∃ t, .recv i (.term t) ∈ s.log
  opn : ∀ k, isOpen s.log k = true → k < s.next ∧ k ≠ 0
  cur : s.cur = current s.log

theorem inv_init : Inv ({} : St α ε) := by
  constructor <;> simp [Busy, Past, isOpen, current]

theorem isOpen_append (log : List (Ev α ε)) (e : Ev α ε) (k : Nat) : isOpen (log ++ [e]) k = (isOpen log k || match e with | .opened j => j == k | _ => false) := by
  simp only [isOpen, List.any_append, List.any_cons, List.any_nil, Bool.or_false]; cases e <;> rfl

theorem current_append (log : List (Ev α ε)) (e : Ev α ε) : current (log ++ [e]) = match e with | .opened k => some k | _ => current log := by
  unfold current
  rw [List.filterMap_append]
  cases e <;> simp

theorem idle_of {p : Pc α ε} (h : p.isIdle = true) : p = .idle := by cases p <;> simp [Pc.isIdle] at h; rfl

end Rpp.SwFine
