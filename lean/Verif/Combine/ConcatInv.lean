import Verif.Combine.ConcatProofs

/-! The hand-over of concat: at most one inner source runs, at most one thread subscribes. -/

namespace Rpp.Cat

open Rpp.Comb (Sig Res)

variable {α ε : Type}

/-- The thread is responsible for the next subscription. -/
def Pc.owner : Pc α ε → Bool
  | .sub _ | .insub | .casP | .chk | .pop | .empty => true
  | _ => false
/-- … and no inner source is running. -/
def Pc.free : Pc α ε → Bool
  | .sub _ | .chk | .pop | .empty => true
  | _ => false
/-- Used in the proofs; models no code. -/
def Pc.waiting : Pc α ε → Bool
  | .insub | .casP => true
  | _ => false

theorem owner_of_free {p : Pc α ε} (h : p.free = true) : p.owner = true := by cases p <;> first | rfl | cases h
theorem owner_of_waiting {p : Pc α ε} (h : p.waiting = true) : p.owner = true := by cases p <;> first | rfl | cases h

/-- `own`: the thread responsible for the next subscription; `cur`: the inner source that is running. -/
structure Inv2 (s : St α ε) (own cur : Option Nat) : Prop where
  owner : ∀ j, (s.calls j).owner = true → own = some j
  owned : ∀ j, own = some j → (s.calls j).owner = true ∨ s.dead = true
  curr : ∀ i, (.opened i ∈ s.log ∧ .closed i ∉ s.log) ↔ cur = some i
  sNone : s.stage = .none → own = none ∧ cur = none
  sDraining : s.stage = .draining → own ≠ none
  sCompleted : s.stage = .completed → own ≠ none ∧ cur = none
  sProcessing : s.stage = .processing → (own = none ∧ cur ≠ none) ∨ (own ≠ none ∧ cur = none)
  free : ∀ j, (s.calls j).free = true → cur = none
  waiting : ∀ j, (s.calls j).waiting = true → (s.stage = .draining ∧ cur ≠ none) ∨ (s.stage = .completed ∧ cur = none)
  casC : ∀ i, s.calls i = .casC → .recv i (.term .completed) ∈ s.log ∧ .closed i ∉ s.log ∧ i ≠ 0
  closed : ∀ i, .closed i ∈ s.log → .recv i (.term .completed) ∈ s.log
  noted : ∀ i, .recv i (.term .completed) ∈ s.log → i ≠ 0 → .closed i ∈ s.log ∨ s.calls i = .casC
  heard : ∀ i c, .recv i c ∈ s.log → s.active i = true
  casBy : ∀ i k, s.calls i = .cas k ∨ s.calls i = .push k → i = 0

/-- Used in the proofs; models no code. -/
def Pc.subs : Pc α ε → List Nat
  | .sub k => [k]
  | _ => []
/-- Used in the proofs; models no code. -/
def subOf (own : Option Nat) (calls : Nat → Pc α ε) : List Nat :=
  match own with
  | some j => (calls j).subs
  | none => []
/-- Used in the proofs; models no code. -/
def Pc.pend : Pc α ε → List Nat
  | .cas k | .push k => [k]
  | _ => []

/-- The inner sources in the order in which they have been or are going to be subscribed. -/
def line (own : Option Nat) (s : St α ε) : List Nat := openings s.log ++ subOf own s.calls ++ s.queue ++ (s.calls 0).pend

/-- How a step changes the line. -/
def Moves (s s' : St α ε) (own own' : Option Nat) : Prop :=
  (line own' s' = line own s ∧ arrivals s'.log = arrivals s.log) ∨
  (∃ k, s.seen k = false ∧ line own' s' = line own s ++ [k] ∧ arrivals s'.log = arrivals s.log ++ [k]) ∨
  (∃ k, s.stage = .none ∧ line own s = openings s.log ++ s.queue ++ [k] ∧ line own' s' = openings s.log ++ [k] ++ s.queue ∧
    arrivals s'.log = arrivals s.log)

/-- Every inner source that has arrived is accounted for. -/
structure Inv3 (s : St α ε) (own : Option Nat) : Prop where
  perm : (line own s).Perm (arrivals s.log)
  nodup : (arrivals s.log).Nodup
  zero : 0 ∉ arrivals s.log

theorem mem_openings {k : Nat} {l : List (Ev α ε)} : k ∈ openings l ↔ .opened k ∈ l := by
  simp only [openings, List.mem_filterMap]
  constructor
  · rintro ⟨e, he, hk⟩; cases e <;> simp at hk; subst hk; exact he
  · exact fun h => ⟨_, h, rfl⟩
theorem mem_arrivals {k : Nat} {l : List (Ev α ε)} : k ∈ arrivals l ↔ .arrive k ∈ l := by
  simp only [arrivals, List.mem_filterMap]
  constructor
  · rintro ⟨e, he, hk⟩; cases e <;> simp at hk; subst hk; exact he
  · exact fun h => ⟨_, h, rfl⟩

theorem subOf_mem {own : Option Nat} {s : St α ε} {j k : Nat} (h : own = some j) (hk : s.calls j = .sub k) : subOf own s.calls = [k] := by
  subst h; simp [subOf, hk, Pc.subs]

theorem fresh {s : St α ε} {own cur : Option Nat} (h1 : Inv1 s) (h2 : Inv2 s own cur) (h3 : Inv3 s own) {j k : Nat} (h : s.calls j = .sub k) :
    k ≠ 0 ∧ .opened k ∉ s.log ∧ .closed k ∉ s.log ∧ (∀ c, .recv k c ∉ s.log) ∧ s.active k = false := by
  have ho := h2.owner j (by rw [h]; rfl)
  have hp := h3.perm
  rw [line, subOf_mem ho h] at hp
  have hnd := (hp.nodup_iff).mpr h3.nodup
  have hk0 : k ≠ 0 := by
    rintro rfl; exact h3.zero (hp.mem_iff.mp (by simp))
  have hk : .opened k ∉ s.log := by
    intro hm; rw [← mem_openings] at hm
    have hd : (openings s.log ++ [k]).Nodup := by
      refine hnd.sublist ?_
      simp only [List.append_assoc]
      exact (List.Sublist.refl _).append (List.sublist_append_left _ _)
    rw [List.nodup_append] at hd
    exact hd.2.2 k hm k (by simp) rfl
  have ha : s.active k = false := by
    cases h : s.active k with
    | false => rfl
    | true => rcases (h1.active k).mp h with h | h
              · exact absurd h hk0
              · exact absurd h hk
  have hr : ∀ c, .recv k c ∉ s.log := fun c hc => by have := h2.heard k c hc; rw [ha] at this; cases this
  exact ⟨hk0, hk, fun hc => hr _ (h2.closed k hc), hr, ha⟩

theorem Inv2.init : Inv2 ({} : St α ε) none none := by constructor <;> simp [Pc.owner, Pc.free, Pc.waiting]
theorem Inv3.init : Inv3 ({} : St α ε) none := by constructor <;> simp [line, subOf, Pc.pend, openings, arrivals]

set_option maxHeartbeats 1000000 in
theorem Inv2.tr {s s' : St α ε} {own cur : Option Nat} (h0 : Inv1 s) (h : Inv2 s own cur) (h3 : Inv3 s own) (t : Tr s s') :
    ∃ own' cur', Inv2 s' own' cur' ∧ Moves s s' own own' := by
  cases t with
  | recv i c hc ha hd hs hn =>
    have he := entry_cases i c
    have hd' := h0.done i
    refine ⟨own, cur, ?_, ?_⟩
    · obtain ⟨a1, a2, a3, a4, a5, a6, a7, a8, a9, a10, a11, a12, a13, a14⟩ := h
      constructor <;> simp only [St.goto, St.emit, List.mem_append, List.mem_singleton] at * <;> grind [Pc.owner, Pc.free, Pc.waiting, owner_of_free, owner_of_waiting]
    · obtain ⟨a1, a2, a3, a4, a5, a6, a7, a8, a9, a10, a11, a12, a13, a14⟩ := h
      refine .inl ?_
      simp only [line, St.goto, St.emit, openings_snoc, arrivals_snoc, List.append_nil, subOf]
      cases own <;> grind [Pc.subs, Pc.pend]
  | casOk i k hc hs =>
    refine ⟨some i, none, ?_, ?_⟩
    · obtain ⟨a1, a2, a3, a4, a5, a6, a7, a8, a9, a10, a11, a12, a13, a14⟩ := h
      constructor <;> simp only [St.goto, St.emit, List.mem_append, List.mem_singleton] at * <;> grind [Pc.owner, Pc.free, Pc.waiting, owner_of_free, owner_of_waiting]
    · obtain rfl := h.casBy i k (.inl hc)
      have hn := h.sNone hs
      refine .inr (.inr ⟨k, hs, ?_⟩)
      simp [line, St.goto, subOf, hc, Pc.pend, Pc.subs, hn.1]
  | sub i k hc =>
    have hf := fresh h0 h h3 hc
    refine ⟨some i, some k, ?_, ?_⟩
    · obtain ⟨a1, a2, a3, a4, a5, a6, a7, a8, a9, a10, a11, a12, a13, a14⟩ := h
      constructor <;> simp only [St.goto, St.emit, List.mem_append, List.mem_singleton] at * <;> grind [Pc.owner, Pc.free, Pc.waiting, owner_of_free, owner_of_waiting]
    · obtain ⟨a1, a2, a3, a4, a5, a6, a7, a8, a9, a10, a11, a12, a13, a14⟩ := h
      refine .inl ?_
      simp only [line, St.goto, St.emit, openings_snoc, arrivals_snoc, List.append_nil, subOf]
      cases own <;> grind [Pc.owner, Pc.subs, Pc.pend]
  | casPOk i hc hs =>
    refine ⟨none, cur, ?_, ?_⟩
    · obtain ⟨a1, a2, a3, a4, a5, a6, a7, a8, a9, a10, a11, a12, a13, a14⟩ := h
      constructor <;> simp only [St.goto, St.emit, List.mem_append, List.mem_singleton] at * <;> grind [Pc.owner, Pc.free, Pc.waiting, owner_of_free, owner_of_waiting]
    · obtain ⟨a1, a2, a3, a4, a5, a6, a7, a8, a9, a10, a11, a12, a13, a14⟩ := h
      refine .inl ?_
      simp only [line, St.goto, St.emit, openings_snoc, arrivals_snoc, List.append_nil, subOf]
      cases own <;> grind [Pc.owner, Pc.subs, Pc.pend]
  | empty i hc =>
    refine ⟨none, none, ?_, ?_⟩
    · obtain ⟨a1, a2, a3, a4, a5, a6, a7, a8, a9, a10, a11, a12, a13, a14⟩ := h
      constructor <;> simp only [St.goto, St.emit, List.mem_append, List.mem_singleton] at * <;> grind [Pc.owner, Pc.free, Pc.waiting, owner_of_free, owner_of_waiting]
    · obtain ⟨a1, a2, a3, a4, a5, a6, a7, a8, a9, a10, a11, a12, a13, a14⟩ := h
      refine .inl ?_
      simp only [line, St.goto, St.emit, openings_snoc, arrivals_snoc, List.append_nil, subOf]
      cases own <;> grind [Pc.owner, Pc.subs, Pc.pend]
  | casCOk i hc hs =>
    have ha := h0.active i
    refine ⟨own, none, ?_, ?_⟩
    · obtain ⟨a1, a2, a3, a4, a5, a6, a7, a8, a9, a10, a11, a12, a13, a14⟩ := h
      have hcur : cur = some i := by
        have := a10 i hc; have := a13 i _ this.1; grind
      constructor <;> simp only [St.goto, St.emit, List.mem_append, List.mem_singleton] at * <;> grind [Pc.owner, Pc.free, Pc.waiting, owner_of_free, owner_of_waiting]
    · obtain ⟨a1, a2, a3, a4, a5, a6, a7, a8, a9, a10, a11, a12, a13, a14⟩ := h
      refine .inl ?_
      simp only [line, St.goto, St.emit, openings_snoc, arrivals_snoc, List.append_nil, subOf]
      cases own <;> grind [Pc.owner, Pc.subs, Pc.pend]
  | casCNo i hc hs =>
    have ha := h0.active i
    have hcur : cur = some i := (h.curr i).mp (by
      have h1 := h.casC i hc
      have := (h0.active i).mp (h.heard i _ h1.1)
      exact ⟨by grind, h1.2.1⟩)
    have hst : s.stage = .processing := by
      cases hh : s.stage
      · have := h.sNone hh; grind
      · exact absurd hh hs
      · have := h.sCompleted hh; grind
      · rfl
    obtain rfl : own = none := by have := h.sProcessing hst; grind
    refine ⟨some i, none, ?_, ?_⟩
    · obtain ⟨a1, a2, a3, a4, a5, a6, a7, a8, a9, a10, a11, a12, a13, a14⟩ := h
      constructor <;> simp only [St.goto, St.emit, List.mem_append, List.mem_singleton] at * <;> grind [Pc.owner, Pc.free, Pc.waiting, owner_of_free, owner_of_waiting]
    · obtain ⟨a1, a2, a3, a4, a5, a6, a7, a8, a9, a10, a11, a12, a13, a14⟩ := h
      refine .inl ?_
      simp only [line, St.goto, St.emit, openings_snoc, arrivals_snoc, List.append_nil, subOf]
      grind [Pc.owner, Pc.subs, Pc.pend]
  | arrive k hc hd hs hk =>
    refine ⟨own, cur, ?_, ?_⟩
    · obtain ⟨a1, a2, a3, a4, a5, a6, a7, a8, a9, a10, a11, a12, a13, a14⟩ := h
      constructor <;> simp only [St.goto, St.emit, List.mem_append, List.mem_singleton] at * <;> grind [Pc.owner, Pc.free, Pc.waiting, owner_of_free, owner_of_waiting]
    · obtain ⟨a1, a2, a3, a4, a5, a6, a7, a8, a9, a10, a11, a12, a13, a14⟩ := h
      refine .inr (.inl ⟨k, hk, ?_⟩)
      simp only [line, St.goto, St.emit, openings_snoc, arrivals_snoc, List.append_nil, subOf]
      cases own <;> grind [Pc.owner, Pc.subs, Pc.pend]
  | push i k hc =>
    obtain rfl := h.casBy i k (by simp [hc])
    refine ⟨own, cur, ?_, ?_⟩
    · obtain ⟨a1, a2, a3, a4, a5, a6, a7, a8, a9, a10, a11, a12, a13, a14⟩ := h
      constructor <;> simp only [St.goto, St.emit, List.mem_append, List.mem_singleton] at * <;> grind [Pc.owner, Pc.free, Pc.waiting, owner_of_free, owner_of_waiting]
    · obtain ⟨a1, a2, a3, a4, a5, a6, a7, a8, a9, a10, a11, a12, a13, a14⟩ := h
      refine .inl ?_
      simp only [line, St.goto, St.emit, openings_snoc, arrivals_snoc, List.append_nil, subOf]
      cases own <;> grind [Pc.owner, Pc.subs, Pc.pend]
  | casNo i k hc hs =>
    obtain rfl := h.casBy i k (by simp [hc])
    refine ⟨own, cur, ?_, ?_⟩
    · obtain ⟨a1, a2, a3, a4, a5, a6, a7, a8, a9, a10, a11, a12, a13, a14⟩ := h
      constructor <;> simp only [St.goto, St.emit, List.mem_append, List.mem_singleton] at * <;> grind [Pc.owner, Pc.free, Pc.waiting, owner_of_free, owner_of_waiting]
    · obtain ⟨a1, a2, a3, a4, a5, a6, a7, a8, a9, a10, a11, a12, a13, a14⟩ := h
      refine .inl ?_
      simp only [line, St.goto, St.emit, openings_snoc, arrivals_snoc, List.append_nil, subOf]
      cases own <;> grind [Pc.owner, Pc.subs, Pc.pend]
  | _ =>
    refine ⟨own, cur, ?_, ?_⟩
    · obtain ⟨a1, a2, a3, a4, a5, a6, a7, a8, a9, a10, a11, a12, a13, a14⟩ := h
      constructor <;> simp only [St.goto, St.emit, List.mem_append, List.mem_singleton] at * <;> grind [Pc.owner, Pc.free, Pc.waiting, owner_of_free, owner_of_waiting]
    · obtain ⟨a1, a2, a3, a4, a5, a6, a7, a8, a9, a10, a11, a12, a13, a14⟩ := h
      refine .inl ?_
      simp only [line, St.goto, St.emit, openings_snoc, arrivals_snoc, List.append_nil, subOf]
      cases own <;> grind [Pc.owner, Pc.subs, Pc.pend]

theorem Inv3.tr {s s' : St α ε} {own own' : Option Nat} (h1 : Inv1 s) (h : Inv3 s own) (m : Moves s s' own own') : Inv3 s' own' := by
  obtain ⟨b1, b2, b3⟩ := h
  rcases m with ⟨e1, e2⟩ | ⟨k, hk, e1, e2⟩ | ⟨k, -, e0, e1, e2⟩
  · exact ⟨by rw [e1, e2]; exact b1, by rw [e2]; exact b2, by rw [e2]; exact b3⟩
  · have hs := h1.seen k
    rw [hk, ← mem_arrivals] at hs
    refine ⟨by rw [e1, e2]; exact b1.append_right _, ?_, ?_⟩ <;> rw [e2] <;> grind [List.nodup_append]
  · refine ⟨?_, by rw [e2]; exact b2, by rw [e2]; exact b3⟩
    rw [e1, e2]
    refine List.Perm.trans ?_ b1
    rw [e0, List.append_assoc, List.append_assoc]
    exact List.Perm.append_left _ List.perm_append_comm

theorem inv23 (ls : List (Lbl α ε)) : ∃ own cur, Inv2 (exec ls) own cur ∧ Inv3 (exec ls) own := by
  have : Inv1 (exec ls) ∧ ∃ own cur, Inv2 (exec ls) own cur ∧ Inv3 (exec ls) own := by
    refine exec_induct (P := fun s => Inv1 s ∧ ∃ own cur, Inv2 s own cur ∧ Inv3 s own) ⟨.init, none, none, .init, .init⟩ ?_ ls
    rintro s s' ⟨h1, own, cur, h2, h3⟩ t
    obtain ⟨own', cur', h2', m⟩ := h2.tr h1 h3 t
    exact ⟨h1.tr t, own', cur', h2', h3.tr h1 m⟩
  exact this.2

end Rpp.Cat
