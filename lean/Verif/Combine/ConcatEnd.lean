import Verif.Combine.ConcatInv

/-! concat: the reference count, the end, the values and the order. -/

namespace Rpp.Cat

open Rpp.Comb (Sig Res)

variable {α ε : Type}

/-- `lv`: the outer source still holds its reference; `ds`: the threads about to give one back. -/
structure Inv4 (s : St α ε) (lv : Bool) (ds : List Nat) : Prop where
  refs : s.refs = (if lv then 1 else 0) + (if s.stage = .none then 0 else 1) + ds.length
  live : lv = true ↔ (.recv 0 (.term .completed) ∉ s.log ∨ s.calls 0 = .odisp)
  nodup : ds.Nodup
  mem : ∀ j, j ∈ ds ↔ s.calls j = .disp
  dead : s.dead = true → s.gone = true ∨ s.refs = 0
  zero : s.refs = 0 → s.dead = true
  odisp : ∀ i, s.calls i = .odisp → i = 0 ∧ .recv 0 (.term .completed) ∈ s.log
  arr : ∀ i k, s.calls i = .cas k ∨ s.calls i = .push k → .recv 0 (.term .completed) ∉ s.log
  told : s.refs = 0 → s.gone = true ∨ Ended s.log ∨
    ∃ j, s.calls j = .test ∨ s.calls j = .out (.term .completed) ∨ s.calls j = .inn (.term .completed)
  comp : ∀ j, s.calls j = .out (.term .completed) ∨ s.calls j = .inn (.term .completed) → s.gone = true ∨ s.refs = 0
  beg : ∀ i, .beg i (.term .completed) ∈ s.log → s.refs = 0

theorem Inv4.init : Inv4 ({} : St α ε) true [] := by constructor <;> simp

set_option maxHeartbeats 2000000 in
theorem Inv4.tr {s s' : St α ε} {own cur : Option Nat} {lv : Bool} {ds : List Nat} (h0 : Inv1 s) (h2 : Inv2 s own cur) (h : Inv4 s lv ds)
    (t : Tr s s') : ∃ lv' ds', Inv4 s' lv' ds' := by
  have hb := h2.casBy
  have hdn := h0.done 0
  cases t with
  | recv i c hc ha hd hs hn =>
    refine ⟨lv, ds, ?_⟩
    have he := entry_cases i c
    obtain ⟨a1, a2, a3, a4, a5, a6, a7, a8, a9, a10, a11⟩ := h
    constructor <;> simp only [St.goto, St.emit, List.mem_append, List.mem_singleton, Ended] at * <;> grind
  | empty i hc =>
    refine ⟨lv, i :: ds, ?_⟩
    have hst : s.stage ≠ .none := by
      intro hh; have := h2.sNone hh; have := h2.owner i (by rw [hc]; rfl); grind
    obtain ⟨a1, a2, a3, a4, a5, a6, a7, a8, a9, a10, a11⟩ := h
    constructor <;> simp only [St.goto, St.emit, List.mem_append, List.mem_singleton, Ended, List.length_cons, List.nodup_cons, List.mem_cons] at * <;> grind
  | disp i hc =>
    refine ⟨lv, ds.erase i, ?_⟩
    have hi : i ∈ ds := (h.mem i).mpr hc
    have hl := List.length_erase_of_mem hi
    have hp : 0 < ds.length := List.length_pos_of_mem hi
    have hm := fun j => h.nodup.mem_erase_iff (a := j) (b := i)
    have hnd := h.nodup.erase i
    obtain ⟨a1, a2, a3, a4, a5, a6, a7, a8, a9, a10, a11⟩ := h
    constructor <;> simp only [St.goto, St.emit, List.mem_append, List.mem_singleton, Ended] at * <;> grind
  | sub i k hc =>
    refine ⟨lv, ds, ?_⟩
    have hst : s.stage ≠ .none := by
      intro hh; have := h2.sNone hh; have := h2.owner i (by rw [hc]; rfl); grind
    obtain ⟨a1, a2, a3, a4, a5, a6, a7, a8, a9, a10, a11⟩ := h
    constructor <;> simp only [St.goto, St.emit, List.mem_append, List.mem_singleton, Ended] at * <;> grind
  | beg i o hc hg =>
    refine ⟨lv, ds, ?_⟩
    obtain ⟨a1, a2, a3, a4, a5, a6, a7, a8, a9, a10, a11⟩ := h
    constructor <;> simp only [St.goto, St.emit, List.mem_append, List.mem_singleton, Ended] at *
    case told =>
      intro hr
      rcases o with v | t
      · have := a9 hr; grind
      · exact .inr (.inl (.inl ⟨i, t, .inr rfl⟩))
    all_goals grind
  | odisp i hc =>
    refine ⟨false, ds, ?_⟩
    obtain ⟨a1, a2, a3, a4, a5, a6, a7, a8, a9, a10, a11⟩ := h
    have := a7 i hc
    constructor <;> simp only [St.goto, St.emit, List.mem_append, List.mem_singleton, Ended] at * <;> grind
  | _ =>
    refine ⟨lv, ds, ?_⟩
    obtain ⟨a1, a2, a3, a4, a5, a6, a7, a8, a9, a10, a11⟩ := h
    constructor <;> simp only [St.goto, St.emit, List.mem_append, List.mem_singleton, Ended] at * <;> grind

theorem inv4 (ls : List (Lbl α ε)) : ∃ own cur lv ds, Inv2 (exec ls) own cur ∧ Inv3 (exec ls) own ∧ Inv4 (exec ls) lv ds := by
  have : Inv1 (exec ls) ∧ ∃ own cur lv ds, Inv2 (exec ls) own cur ∧ Inv3 (exec ls) own ∧ Inv4 (exec ls) lv ds := by
    refine exec_induct (P := fun s => Inv1 s ∧ ∃ own cur lv ds, Inv2 s own cur ∧ Inv3 s own ∧ Inv4 s lv ds)
      ⟨.init, none, none, true, [], .init, .init, .init⟩ ?_ ls
    rintro s s' ⟨h1, own, cur, lv, ds, h2, h3, h4⟩ t
    obtain ⟨own', cur', h2', m⟩ := h2.tr h1 h3 t
    obtain ⟨lv', ds', h4'⟩ := h4.tr h1 h2 t
    exact ⟨h1.tr t, own', cur', lv', ds', h2', h3.tr h1 m, h4'⟩
  exact this.2

/-! ## Values -/

/-- Used in the proofs; models no code. -/
def Pc.way : Pc α ε → List α
  | .out (.next v) | .inn (.next v) => [v]
  | _ => []

/-- Used in the proofs; models no code. -/
def wayOf (cur : Option Nat) (calls : Nat → Pc α ε) : List α :=
  match cur with
  | some i => (calls i).way
  | none => []

/-- The values of the subscribed inner sources, one source after the other. -/
def joined (log : List (Ev α ε)) : List α := (openings log).flatMap fun k => sent k log

/-- Invariant of the proofs; models no code. -/
structure Inv5 (s : St α ε) (cur : Option Nat) : Prop where
  last : ∀ i, cur = some i → ∃ p, openings s.log = p ++ [i]
  way : ∀ i v, s.calls i = .out (.next v) ∨ s.calls i = .inn (.next v) → i ≠ 0 ∧ s.done i = false ∧ s.active i = true
  exact : s.gone = false → values s.log ++ wayOf cur s.calls = joined s.log
  pre : values s.log <+: joined s.log
  err : ∀ i e, .recv i (.term (.error e)) ∈ s.log → s.gone = true ∨ Ended s.log ∨ s.calls i = .out (.term (.error e)) ∨ s.calls i = .inn (.term (.error e))
  src : ∀ i e, s.calls i = .out (.term (.error e)) ∨ s.calls i = .inn (.term (.error e)) → .recv i (.term (.error e)) ∈ s.log
  begE : ∀ i e, .beg i (.term (.error e)) ∈ s.log → .recv i (.term (.error e)) ∈ s.log

theorem Inv5.init : Inv5 ({} : St α ε) none := by constructor <;> simp [values, joined, openings, wayOf]

end Rpp.Cat
