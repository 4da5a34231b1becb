import Verif.Combine.Concat

/-! Invariants of the concat machine. -/

namespace Rpp.Cat

open Rpp.Comb (Sig Res)

variable {α ε : Type}

/-- A test on the constructor; models no code. -/
def isTerm : Sig α ε → Bool
  | .next _ => false
  | .term _ => true

/-- How one step changes state and log (for the proofs); models no code. -/
inductive Tr (s : St α ε) : St α ε → Prop where
  | recv (i : Nat) (c : Sig α ε) (h : s.calls i = .idle) (ha : s.active i = true) (hd : s.done i = false) (hs : s.dead = false)
      (hn : isTerm c = false → i ≠ 0) :
      Tr s ({ s with done := fun j => if j = i ∧ isTerm c then true else s.done j }.goto i (entry i c) |>.emit (.recv i c))
  | arrive (k : Nat) (h : s.calls 0 = .idle) (hd : s.done 0 = false) (hs : s.dead = false) (hk : s.seen k = false) :
      Tr s ({ s with seen := fun j => if j = k then true else s.seen j }.goto 0 (.cas k) |>.emit (.arrive k))
  | casOk (i k : Nat) (h : s.calls i = .cas k) (hs : s.stage = .none) : Tr s ({ s with stage := .draining, refs := s.refs + 1 }.goto i (.sub k))
  | casNo (i k : Nat) (h : s.calls i = .cas k) (hs : s.stage ≠ .none) : Tr s (s.goto i (.push k))
  | push (i k : Nat) (h : s.calls i = .push k) : Tr s ({ s with queue := s.queue ++ [k] }.goto i .idle)
  | sub (i k : Nat) (h : s.calls i = .sub k) :
      Tr s ({ s with stage := .draining, active := fun j => if j = k then true else s.active j }.goto i .insub |>.emit (.opened k))
  | insub (i : Nat) (h : s.calls i = .insub) : Tr s (s.goto i .casP)
  | casPOk (i : Nat) (h : s.calls i = .casP) (hs : s.stage = .draining) : Tr s ({ s with stage := .processing }.goto i .idle)
  | casPNo (i : Nat) (h : s.calls i = .casP) (hs : s.stage ≠ .draining) : Tr s (s.goto i .chk)
  | chkDead (i : Nat) (h : s.calls i = .chk) (hd : s.dead = true) : Tr s (s.goto i .idle)
  | chk (i : Nat) (h : s.calls i = .chk) (hd : s.dead = false) : Tr s (s.goto i .pop)
  | popNil (i : Nat) (h : s.calls i = .pop) (hq : s.queue = []) : Tr s (s.goto i .empty)
  | popCons (i k : Nat) (q : List Nat) (h : s.calls i = .pop) (hq : s.queue = k :: q) : Tr s ({ s with queue := q }.goto i (.sub k))
  | empty (i : Nat) (h : s.calls i = .empty) : Tr s ({ s with stage := .none }.goto i .disp)
  | disp (i : Nat) (h : s.calls i = .disp) : Tr s ({ s with refs := s.refs - 1, dead := s.dead || s.refs - 1 == 0 }.goto i .test)
  | odisp (i : Nat) (h : s.calls i = .odisp) : Tr s ({ s with refs := s.refs - 1, dead := s.dead || s.refs - 1 == 0 }.goto i .test)
  | testDead (i : Nat) (h : s.calls i = .test) (hd : s.dead = true) : Tr s (s.goto i (.out (.term .completed)))
  | test (i : Nat) (h : s.calls i = .test) (hd : s.dead = false) : Tr s (s.goto i .idle)
  | casCOk (i : Nat) (h : s.calls i = .casC) (hs : s.stage = .draining) : Tr s ({ s with stage := .completed }.goto i .idle |>.emit (.closed i))
  | casCNo (i : Nat) (h : s.calls i = .casC) (hs : s.stage ≠ .draining) : Tr s (s.goto i .chk |>.emit (.closed i))
  | enter (i : Nat) (o : Sig α ε) (h : s.calls i = .out o) (hl : s.lock = none) : Tr s ({ s with lock := some i }.goto i (.inn o))
  | skip (i : Nat) (h : (∃ o, s.calls i = .inn o) ∨ ∃ e, s.calls i = .err e) (hg : s.gone = true) : Tr s (s.goto i .rel)
  | beg (i : Nat) (o : Sig α ε) (h : s.calls i = .inn o) (hg : s.gone = false) : Tr s ((s.goto i (.cb o)).emit (.beg i o))
  | own (i : Nat) (e : ε) (h : s.calls i = .err e) (hg : s.gone = false) : Tr s ((s.goto i .cbErr).emit (.own i e))
  | mark (i : Nat) (h : s.calls i = .mark) : Tr s ({ s with gone := true }.goto i .rel)
  | rel (i : Nat) (h : s.calls i = .rel) : Tr s ({ s with lock := none }.goto i .idle)
  | finNext (i : Nat) (v : α) (p : Pc α ε) (h : s.calls i = .cb (.next v)) (hp : p = .rel ∨ ∃ e, p = .err e) : Tr s ((s.goto i p).emit (.fin i))
  | finTerm (i : Nat) (h : (∃ t, s.calls i = .cb (.term t)) ∨ s.calls i = .cbErr) : Tr s ((s.goto i .mark).emit (.fin i))
  | gone (hg : s.gone = false) : Tr s ({ s with gone := true }.emit .gone)
  | shut (hg : s.gone = true) : Tr s { s with dead := true }

theorem isIdle_eq {p : Pc α ε} (h : p.isIdle = true) : p = .idle := by cases p <;> first | rfl | cases h

theorem step_tr (s : St α ε) (l : Lbl α ε) : step s l = s ∨ Tr s (step s l) := by
  cases l with
  | next i v =>
    simp only [step]; split
    · next h =>
      right
      simp only [Bool.and_eq_true, Bool.not_eq_true', bne_iff_ne] at h
      obtain ⟨⟨⟨⟨h1, h2⟩, h3⟩, h4⟩, h5⟩ := h
      have := Tr.recv i (.next v) (isIdle_eq h1) h2 h3 h4 (fun _ => h5)
      have e : (fun j => if j = i ∧ isTerm (Sig.next v : Sig α ε) then true else s.done j) = s.done := by
        funext j; simp [isTerm]
      rw [e] at this; exact this
    · exact .inl rfl
  | term i t =>
    simp only [step]; split
    · next h =>
      right
      simp only [Bool.and_eq_true, Bool.not_eq_true'] at h
      obtain ⟨⟨⟨h1, h2⟩, h3⟩, h4⟩ := h
      have := Tr.recv i (.term t) (isIdle_eq h1) h2 h3 h4 (fun h => by cases h)
      have e : (fun j => if j = i ∧ isTerm (Sig.term t : Sig α ε) then true else s.done j) = fun j => if j = i then true else s.done j := by
        funext j; simp [isTerm]
      rw [e] at this; exact this
    · exact .inl rfl
  | arrive k =>
    simp only [step]; split
    · next h =>
      right
      simp only [Bool.and_eq_true, Bool.not_eq_true'] at h
      obtain ⟨⟨⟨h1, h2⟩, h3⟩, h4⟩ := h
      exact Tr.arrive k (isIdle_eq h1) h2 h3 h4
    · exact .inl rfl
  | run i =>
    simp only [step]
    unfold St.advance
    split
    · exact .inl rfl
    · exact .inl rfl
    · exact .inl rfl
    · next k h => split
                  · next hs => exact .inr (.casOk i k h hs)
                  · next hs => exact .inr (.casNo i k h hs)
    · next k h => exact .inr (.push i k h)
    · next k h => exact .inr (.sub i k h)
    · next h => exact .inr (.insub i h)
    · next h => split
                · next hs => exact .inr (.casPOk i h hs)
                · next hs => exact .inr (.casPNo i h hs)
    · next h => split
                · next hs => exact .inr (.chkDead i h hs)
                · next hs => exact .inr (.chk i h (by simpa using hs))
    · next h => split
                · next hs => exact .inr (.popNil i h hs)
                · next k q hs => exact .inr (.popCons i k q h hs)
    · next h => exact .inr (.empty i h)
    · next h => exact .inr (.disp i h)
    · next h => exact .inr (.odisp i h)
    · next h => split
                · next hs => exact .inr (.testDead i h hs)
                · next hs => exact .inr (.test i h (by simpa using hs))
    · next h => split
                · next hs => exact .inr (.casCOk i h hs)
                · next hs => exact .inr (.casCNo i h hs)
    · next o h => split
                  · exact .inl rfl
                  · next hl => exact .inr (.enter i o h hl)
    · next o h => split
                  · next hg => exact .inr (.skip i (.inl ⟨o, h⟩) hg)
                  · next hg => exact .inr (.beg i o h (by simpa using hg))
    · next e h => split
                  · next hg => exact .inr (.skip i (.inr ⟨e, h⟩) hg)
                  · next hg => exact .inr (.own i e h (by simpa using hg))
    · next h => exact .inr (.mark i h)
    · next h => exact .inr (.rel i h)
  | ret i r =>
    simp only [step]
    split
    · next v h => exact .inr (.finNext i v _ h (.inl rfl))
    · next v e h => exact .inr (.finNext i v _ h (.inr ⟨e, rfl⟩))
    · next t h => exact .inr (.finTerm i (.inl ⟨t, h⟩))
    · next h => exact .inr (.finTerm i (.inr h))
    · exact .inl rfl
  | gone =>
    simp only [step]; split
    · exact .inl rfl
    · next hg => exact .inr (.gone (by simpa using hg))
  | shut =>
    simp only [step]; split
    · next hg => exact .inr (.shut hg)
    · exact .inl rfl

theorem exec_snoc (ls : List (Lbl α ε)) (l : Lbl α ε) : exec (ls ++ [l]) = step (exec ls) l := by simp [exec, List.foldl_append]

theorem exec_induct {P : St α ε → Prop} (h0 : P {}) (hs : ∀ s s', P s → Tr s s' → P s') (ls : List (Lbl α ε)) : P (exec ls) := by
  unfold exec
  have : ∀ (ls : List (Lbl α ε)) (s : St α ε), P s → P (ls.foldl step s) := by
    intro ls
    induction ls with
    | nil => exact fun s h => h
    | cons l ls ih =>
      intro s h
      refine ih _ ?_
      rcases step_tr s l with e | e
      · rw [e]; exact h
      · exact hs _ _ h e
  exact this ls _ h0

section snoc
variable (l : List (Ev α ε)) (ev : Ev α ε)
theorem arrivals_snoc : arrivals (l ++ [ev]) = arrivals l ++ (match ev with | .arrive k => [k] | _ => []) := by
  unfold arrivals; rw [List.filterMap_append]; cases ev <;> simp
theorem openings_snoc : openings (l ++ [ev]) = openings l ++ (match ev with | .opened k => [k] | _ => []) := by
  unfold openings; rw [List.filterMap_append]; cases ev <;> simp
theorem values_snoc : values (l ++ [ev]) = values l ++ (match ev with | .beg _ (.next v) => [v] | _ => []) := by
  unfold values; rw [List.filterMap_append]
  cases ev with
  | beg i o => cases o <;> simp
  | _ => simp
theorem sent_snoc (i : Nat) : sent i (l ++ [ev]) = sent i l ++ (match ev with | .recv j (.next v) => if j = i then [v] else [] | _ => []) := by
  unfold sent; rw [List.filterMap_append]
  cases ev with
  | recv j c => cases c <;> simp; split <;> simp [*]
  | _ => simp
theorem busy_snoc : busy (l ++ [ev]) = (match ev with | .beg _ _ | .own _ _ => true | .fin _ => false | _ => busy l) := by
  simp only [busy, List.foldl_append, List.foldl_cons, List.foldl_nil]; cases ev <;> rfl
end snoc

/-- Used in the proofs; models no code. -/
def Pc.holds : Pc α ε → Bool
  | .inn _ | .cb _ | .err _ | .cbErr | .mark | .rel => true
  | _ => false
/-- Used in the proofs; models no code. -/
def Pc.inCb : Pc α ε → Bool
  | .cb _ | .cbErr => true
  | _ => false
/-- Used in the proofs; models no code. -/
def Pc.ending : Pc α ε → Bool
  | .cb (.term _) | .cbErr | .mark => true
  | _ => false
theorem holds_of_inCb {p : Pc α ε} (h : p.inCb = true) : p.holds = true := by cases p <;> first | rfl | cases h
theorem holds_of_ending {p : Pc α ε} (h : p.ending = true) : p.holds = true := by cases p <;> first | rfl | cases h

/-- Mutual exclusion and bookkeeping. -/
structure Inv1 (s : St α ε) : Prop where
  lock : ∀ i, s.lock = some i ↔ (s.calls i).holds = true
  gone : .gone ∈ s.log → s.gone = true
  busy : busy s.log = true ↔ ∃ i, (s.calls i).inCb = true
  done : ∀ i, s.done i = true ↔ ∃ t, .recv i (.term t) ∈ s.log
  active : ∀ i, s.active i = true ↔ i = 0 ∨ .opened i ∈ s.log
  seen : ∀ i, s.seen i = true ↔ i = 0 ∨ .arrive i ∈ s.log
  ended : Ended s.log → s.gone = true ∨ ∃ i, (s.calls i).ending = true
  why : s.gone = true → .gone ∈ s.log ∨ Ended s.log
  told : ∀ i, (s.calls i).ending = true → Ended s.log

theorem Inv1.init : Inv1 ({} : St α ε) := by
  constructor <;> simp [Pc.holds, Cat.busy, Pc.inCb, Ended, Pc.ending]

theorem entry_cases (i : Nat) (c : Sig α ε) : (c ≠ .term .completed ∧ entry i c = .out c) ∨ (c = .term .completed ∧ i = 0 ∧ entry i c = .odisp) ∨
    (c = .term .completed ∧ i ≠ 0 ∧ entry i c = .casC) := by
  rcases c with v | e | _ <;> simp [entry]
  by_cases h : i = 0 <;> simp [h]

set_option maxHeartbeats 1000000 in
theorem Inv1.tr {s s' : St α ε} (h : Inv1 s) (t : Tr s s') : Inv1 s' := by
  obtain ⟨h1, h2, h3, h4, h5, h6, h7, h8, h9⟩ := h
  cases t with
  | recv i c hc ha hd hs hn =>
    have he := entry_cases i c
    constructor <;> simp only [St.goto, St.emit, busy_snoc, List.mem_append, List.mem_singleton, Ended] at *
    · grind [Pc.holds]
    · grind
    · grind [Pc.inCb]
    · intro j; cases c <;> grind [isTerm]
    · grind
    · grind
    · grind [Pc.ending]
    · grind
    · grind [Pc.ending]
  | skip i hc hg =>
    rcases hc with ⟨o, hc⟩ | ⟨e, hc⟩ <;>
    constructor <;> simp only [St.goto, Ended] at * <;> grind [Pc.holds, Pc.inCb, Pc.ending]
  | finNext i v p hc hp =>
    rcases hp with rfl | ⟨e, rfl⟩ <;>
    constructor <;> simp only [St.goto, St.emit, busy_snoc, List.mem_append, List.mem_singleton, Ended] at * <;>
      grind [Pc.holds, Pc.inCb, Pc.ending, holds_of_inCb]
  | finTerm i hc =>
    rcases hc with ⟨t, hc⟩ | hc <;>
    constructor <;> simp only [St.goto, St.emit, busy_snoc, List.mem_append, List.mem_singleton, Ended] at * <;>
      grind [Pc.holds, Pc.inCb, Pc.ending, holds_of_inCb]
  | beg i o hc hg =>
    have hi : s.lock = some i := (h1 i).mpr (by rw [hc]; rfl)
    have hne : ¬ Ended s.log := fun he => by
      rcases h7 he with h | ⟨j, hj⟩
      · rw [hg] at h; cases h
      · have := (h1 j).mpr (holds_of_ending hj)
        obtain rfl : j = i := by grind
        rw [hc] at hj; cases hj
    constructor <;> simp only [St.goto, St.emit, busy_snoc, List.mem_append, List.mem_singleton, Ended] at *
    · grind [Pc.holds]
    · grind
    · grind [Pc.inCb]
    · grind
    · grind
    · grind
    · intro _; right; refine ⟨i, ?_⟩; rw [if_pos rfl]; cases o <;> grind [Pc.ending]
    · grind
    · intro j; by_cases hj : j = i
      · subst hj; rw [if_pos rfl]; cases o <;> grind [Pc.ending]
      · rw [if_neg hj]; intro hh; exact absurd (h9 j hh) hne
  | own i e hc hg =>
    constructor <;> simp only [St.goto, St.emit, busy_snoc, List.mem_append, List.mem_singleton, Ended] at *
    · grind [Pc.holds]
    · grind
    · grind [Pc.inCb]
    · grind
    · grind
    · grind
    · intro _; right; refine ⟨i, ?_⟩; rw [if_pos rfl]; rfl
    · grind
    · grind
  | _ =>
    constructor <;> simp only [St.goto, St.emit, busy_snoc, List.mem_append, List.mem_singleton, Ended] at * <;>
      grind [Pc.holds, Pc.inCb, Pc.ending]

theorem inv1 (ls : List (Lbl α ε)) : Inv1 (exec ls) := exec_induct .init (fun _ _ h t => h.tr t) ls

end Rpp.Cat
