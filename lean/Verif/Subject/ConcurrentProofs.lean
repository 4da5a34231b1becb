import Verif.Subject.Concurrent

/-! # Invariant of the concurrent subject model -/

namespace Rpp.Subj.Conc
open Rpp.Subj

variable {α ε σ : Type} [DecidableEq α] [DecidableEq ε]

/-! ## Specification vocabulary -/

/-- The observers in the order of their registration. -/
def regs (log : List (Ev α ε)) : List Nat := log.filterMap fun | .reg k => some k | _ => none

/-- The values call `i` has delivered to observer `k`, in order. -/
def given (i k : Nat) (log : List (Ev α ε)) : List α :=
  log.filterMap fun | .beg j m (.next v) => if j = i ∧ m = k then some v else none | _ => none

/-- What the store holds after a history. -/
def storeOf (S : Store α σ) (log : List (Ev α ε)) : σ :=
  log.foldl (fun x ev => match ev with
    | .stored _ v now => S.put now v x
    | .read _ d now _ => (S.get d now x).2
    | _ => x) S.init

/-- The call an event belongs to. -/
def Ev.call : Ev α ε → Option Nat
  | .emit i _ | .finish i _ | .stored i _ _ | .snap i _ _ | .read i _ _ _ | .reg i | .ub i | .beg i _ _ | .fin i _
  | .done i => some i
  | .gone _ => none

attribute [local grind =] Ev.call

/-- What must have happened before an event. -/
def Ok (S : Store α σ) (pre : List (Ev α ε)) : Ev α ε → Prop
  | .emit i _ | .finish i _ => ∀ ev ∈ pre, ev.call ≠ some i
  | .stored i v _ => .emit i v ∈ pre ∧ ∀ v n, Ev.stored i v n ∉ pre
  | .snap i v l => (∃ n, Ev.stored i v n ∈ pre) ∧ (∀ v l, Ev.snap i v l ∉ pre) ∧ l.Sublist (regs pre) ∧
      (∀ k, .reg k ∈ pre → k ∈ l ∨ .gone k ∈ pre) ∧ ∀ k c, Ev.beg i k c ∉ pre
  | .read k d now vs => vs = (S.get d now (storeOf S pre)).1 ∧ ∀ ev ∈ pre, ev.call ≠ some k
  | .reg k => .reg k ∉ pre ∧ ∃ d n vs, .read k d n vs ∈ pre ∧ (given k k pre = vs ∨ .gone k ∈ pre)
  | .beg i k c => .gone k ∉ pre ∧ match c with
      | .next v => (i = k ∧ .reg k ∉ pre ∧ ∃ d n vs, .read k d n vs ∈ pre ∧ v ∈ vs) ∨
          ∃ l, .snap i v l ∈ pre ∧ k ∈ l ∧ ∀ c, Ev.beg i k c ∉ pre
      | .term t => (∃ j, .finish j t ∈ pre) ∨ ∃ v, .beg i k (.next v) ∈ pre
  | .done i => ∀ v l, .snap i v l ∈ pre → ∀ k ∈ l, .beg i k (.next v) ∈ pre ∨ .gone k ∈ pre
  | _ => True

/-- What the logs satisfy (for the proofs); models no code. -/
def Legal (S : Store α σ) (log : List (Ev α ε)) : Prop := ∀ pre ev post, log = pre ++ ev :: post → Ok S pre ev

theorem Legal.snoc {S : Store α σ} {log : List (Ev α ε)} {ev : Ev α ε} (h : Legal S log) (ho : Ok S log ev) :
    Legal S (log ++ [ev]) := by
  intro pre e post he
  rcases List.eq_nil_or_concat post with rfl | ⟨post', x, rfl⟩
  · obtain ⟨rfl, h2⟩ := List.append_inj' he rfl
    cases h2; exact ho
  · rw [List.concat_eq_append, ← List.cons_append, ← List.append_assoc] at he
    exact h pre e post' (List.append_inj_left' he rfl)

@[simp] theorem regs_snoc (log : List (Ev α ε)) (ev) :
    regs (log ++ [ev]) = regs log ++ (match ev with | .reg k => [k] | _ => []) := by
  simp only [regs, List.filterMap_append]; cases ev <;> rfl

theorem mem_regs {log : List (Ev α ε)} {k : Nat} : k ∈ regs log ↔ .reg k ∈ log := by
  simp only [regs, List.mem_filterMap]
  constructor
  · rintro ⟨ev, h, h2⟩; cases ev <;> simp at h2; subst h2; exact h
  · intro h; exact ⟨_, h, rfl⟩

theorem given_snoc (i k : Nat) (log : List (Ev α ε)) (ev) :
    given i k (log ++ [ev]) = given i k log ++ (match ev with
      | .beg j m (.next v) => if j = i ∧ m = k then [v] else [] | _ => []) := by
  simp only [given, List.filterMap_append]
  cases ev with
  | beg j m c => cases c <;> simp only [List.filterMap_cons] <;> first | rfl | (split <;> simp_all)
  | _ => rfl

theorem storeOf_snoc (S : Store α σ) (log : List (Ev α ε)) (ev) :
    storeOf S (log ++ [ev]) = match ev with
      | .stored _ v now => S.put now v (storeOf S log)
      | .read _ d now _ => (S.get d now (storeOf S log)).2
      | _ => storeOf S log := by
  simp only [storeOf, List.foldl_append, List.foldl_cons, List.foldl_nil]

/-! ## The invariant -/

/-- An event of a subscription or a mere callback. -/
def Ev.sub : Ev α ε → Bool
  | .read .. | .beg .. | .fin .. => true
  | _ => false

/-- Call `i` is a subscription that has not registered. -/
def NoEm (log : List (Ev α ε)) (i : Nat) : Prop := ∀ ev ∈ log, ev.call = some i → ev.sub = true

theorem NoEm.snoc {log : List (Ev α ε)} {i} (h : NoEm log i) {ev : Ev α ε} (he : ev.call = some i → ev.sub = true) :
    NoEm (log ++ [ev]) i := by
  intro e hm hc
  simp only [List.mem_append, List.mem_singleton] at hm
  rcases hm with hm | rfl
  · exact h e hm hc
  · exact he hc

attribute [local grind =] Ev.sub
attribute [local grind ←] NoEm.snoc

/-- Used in the proofs; models no code. -/
def CurOk (log : List (Ev α ε)) (i : Nat) : Job α ε → List Nat → Cur α ε → Prop
  | _, _, .none => True
  | .nxt v l _, todo, .inCb k _ => k ∈ l ∧ k ∉ todo ∧ .beg i k (.next v) ∈ log
  | .nxt v l _, todo, .err k _ => k ∈ l ∧ k ∉ todo ∧ .beg i k (.next v) ∈ log
  | .nxt _ l _, todo, .mark k => k ∈ l ∧ k ∉ todo
  | .term t, _, .inCb k c => .reg k ∈ log ∧ c = .term t
  | .term _, _, .err _ _ => False
  | .term _, _, .mark k => .reg k ∈ log
  | .sub, _, .inCb k _ => k = i ∧ ∃ v, Ev.beg i k (.next v) ∈ log
  | .sub, _, .err k _ => k = i ∧ ∃ v, Ev.beg i k (.next v) ∈ log
  | .sub, _, .mark k => k = i
  | .late, _, .inCb k c => k = i ∧ ∃ t, c = .term t
  | .late, _, .err _ _ => False
  | .late, _, .mark k => k = i

/-- Used in the proofs; models no code. -/
def PcOk (log : List (Ev α ε)) (i : Nat) : Pc α ε → Prop
  | .idle | .sRead _ => ∀ ev ∈ log, ev.call ≠ some i
  | .nPut v => .emit i v ∈ log ∧ ∀ ev ∈ log, ev.call = some i → ev = .emit i v
  | .nSnap v => ∃ n, Ev.stored i v n ∈ log ∧ ∀ ev ∈ log, ev.call = some i → ev = .emit i v ∨ ev = .stored i v n
  | .nLock v l _ => .snap i v l ∈ log ∧
      ∀ ev ∈ log, ev.call = some i → ev = .emit i v ∨ (∃ n, ev = .stored i v n) ∨ ev = .snap i v l
  | .tLock t | .tExch t => .finish i t ∈ log ∧ ∀ ev ∈ log, ev.call = some i → ev = .finish i t
  | .work (.nxt v l d) todo cur => .snap i v l ∈ log ∧ (∀ v' l', .snap i v' l' ∈ log → v' = v ∧ l' = l) ∧
      (todo.map (·.1)).Nodup ∧ (∀ p ∈ todo, p.2 = .next v ∧ p.1 ∈ l ∧ ∀ c, Ev.beg i p.1 c ∉ log) ∧
      (∀ k ∈ l, k ∈ todo.map (·.1) ∨ .beg i k (.next v) ∈ log ∨ .gone k ∈ log) ∧ .reg i ∉ log ∧
      CurOk log i (.nxt v l d) (todo.map (·.1)) cur
  | .work (.term t) todo cur => .finish i t ∈ log ∧ (∀ p ∈ todo, p.2 = .term t ∧ .reg p.1 ∈ log) ∧
      (∀ v l, Ev.snap i v l ∉ log) ∧ .reg i ∉ log ∧ CurOk log i (.term t) (todo.map (·.1)) cur
  | .work .sub todo cur => (∃ d n vs, .read i d n vs ∈ log ∧ (∀ p ∈ todo, p.1 = i ∧ ∃ v ∈ vs, p.2 = .next v) ∧
      ((given i i log).map Sig.next ++ todo.map (·.2) = vs.map (.next) ∨ .gone i ∈ log)) ∧ NoEm log i ∧ .reg i ∉ log ∧
      CurOk log i .sub (todo.map (·.1)) cur
  | .sReg => (∃ d n vs, .read i d n vs ∈ log ∧ (given i i log = vs ∨ .gone i ∈ log)) ∧ NoEm log i ∧ .reg i ∉ log
  | .work .late todo cur => (∀ p ∈ todo, p.1 = i ∧ ∃ t j, p.2 = .term t ∧ .finish j t ∈ log) ∧ NoEm log i ∧
      .reg i ∉ log ∧ CurOk log i .late (todo.map (·.1)) cur
  | .dFlag | .dExch | .done => True

/-- Used in the proofs; models no code. -/
def PhOk (log : List (Ev α ε)) : Ph ε → Prop
  | .live _ l => l.Sublist (regs log) ∧ ∀ k, .reg k ∈ log → k ∈ l ∨ .gone k ∈ log
  | .ended t => ∃ j, .finish j t ∈ log
  | .disposed => True

/-- Invariant of the proofs; models no code. -/
structure Inv (C : Cfg α σ) (s : St α ε σ) : Prop where
  gone : ∀ k, k ∈ s.gone ↔ .gone k ∈ s.log
  store : s.store = storeOf C.store s.log
  uniq : (regs s.log).Nodup
  ph : PhOk s.log s.phase
  pc : ∀ i, PcOk s.log i (s.calls i)
  legal : Legal C.store s.log

theorem CurOk.snoc {log : List (Ev α ε)} {i j todo cur} (ev : Ev α ε) (h : CurOk log i j todo cur) :
    CurOk (log ++ [ev]) i j todo cur := by
  cases j <;> cases cur <;> simp only [CurOk, List.mem_append] at * <;> grind

theorem given_other {log : List (Ev α ε)} {i k : Nat} {ev : Ev α ε} (h : ev.call ≠ some i) :
    given i k (log ++ [ev]) = given i k log := by
  rw [given_snoc]
  cases ev with
  | beg j m c => cases c <;> simp [Ev.call] at h ⊢; exact fun e => absurd e h
  | _ => simp

/-- Events of other calls do not matter. -/
theorem PcOk.snoc {log : List (Ev α ε)} {i pc} (ev : Ev α ε) (h : PcOk log i pc) (he : ev.call ≠ some i) :
    PcOk (log ++ [ev]) i pc := by
  have hg : given i i (log ++ [ev]) = given i i log := given_other he
  have h0 : ∀ e : Ev α ε, e.call = some i → (e ∈ log ++ [ev] ↔ e ∈ log) := by
    intro e h'; simp only [List.mem_append, List.mem_singleton]
    constructor
    · rintro (h | rfl); exact h; exact absurd h' he
    · exact Or.inl
  have h1 : ∀ v l, Ev.snap i v l ∈ log ++ [ev] ↔ .snap i v l ∈ log := fun v l => h0 _ rfl
  have h2 : ∀ k c, Ev.beg i k c ∈ log ++ [ev] ↔ .beg i k c ∈ log := fun v l => h0 _ rfl
  have h3 : Ev.reg i ∈ log ++ [ev] ↔ .reg i ∈ log := h0 _ rfl
  have h4 : ∀ t, Ev.finish i t ∈ log ++ [ev] ↔ .finish i t ∈ log := fun v => h0 _ rfl
  cases pc with
  | work j todo cur =>
    cases j <;> simp only [PcOk, hg, h1, h2, h3, h4] at *
    · obtain ⟨a, b, c, d, e, f, g⟩ := h
      exact ⟨a, b, c, d, fun k hk => by rcases e k hk with h | h | h <;> simp [h], f, g.snoc ev⟩
    · obtain ⟨a, b, c, d, g⟩ := h
      exact ⟨a, fun p hp => by have := b p hp; simp [this], c, d, g.snoc ev⟩
    · obtain ⟨⟨d, n, vs, a, b, c⟩, e, f, g⟩ := h
      exact ⟨⟨d, n, vs, by simp [a], b, c.imp id fun h => by simp [h]⟩, e.snoc (fun h => absurd h he), f, g.snoc ev⟩
    · obtain ⟨a, b, c, g⟩ := h
      refine ⟨fun p hp => ?_, b.snoc (fun h => absurd h he), c, g.snoc ev⟩
      obtain ⟨h1, t, j, h2, h3⟩ := a p hp
      exact ⟨h1, t, j, h2, by simp [h3]⟩
  | sReg =>
    simp only [PcOk, hg, h3] at *
    obtain ⟨⟨d, n, vs, a, b⟩, e, f⟩ := h
    exact ⟨⟨d, n, vs, by simp [a], b.imp id fun h => by simp [h]⟩, e.snoc (fun h => absurd h he), f⟩
  | _ => simp only [PcOk, hg, h1, h2, h3, h4] at * <;> grind

theorem PhOk.snoc {log : List (Ev α ε)} {ph} (ev : Ev α ε) (h : PhOk log ph) (he : ∀ k, ev ≠ .reg k) :
    PhOk (log ++ [ev]) ph := by
  cases ph with
  | live d l =>
    obtain ⟨h1, h2⟩ := h
    refine ⟨?_, fun k hk => ?_⟩
    · rw [regs_snoc]; exact h1.trans (by simp)
    · simp only [List.mem_append, List.mem_singleton] at hk
      rcases hk with hk | hk
      · rcases h2 k hk with h | h <;> simp [h]
      · exact absurd hk.symm (he k)
  | ended t => obtain ⟨j, hj⟩ := h; exact ⟨j, by simp [hj]⟩
  | disposed => trivial

variable {C : Cfg α σ} {s : St α ε σ}

/-- Call `i` moves without leaving a trace. -/
theorem Inv.silent (h : Inv C s) (s' : St α ε σ) (i : Nat) (p : Pc α ε) (hp : PcOk s.log i p)
    (hlog : s'.log = s.log) (hgone : s'.gone = s.gone) (hstore : s'.store = s.store) (hph : PhOk s.log s'.phase)
    (hcalls : s'.calls = fun j => if j = i then p else s.calls j) : Inv C s' where
  gone := by rw [hlog, hgone]; exact h.gone
  store := by rw [hlog, hstore]; exact h.store
  uniq := by rw [hlog]; exact h.uniq
  ph := by rw [hlog]; exact hph
  pc := by
    intro j; rw [hlog, hcalls]; dsimp only
    split
    · next e => subst e; exact hp
    · exact h.pc j
  legal := by rw [hlog]; exact h.legal

/-- Call `i` moves and one of its events is recorded. -/
theorem Inv.emits (h : Inv C s) (s' : St α ε σ) (i : Nat) (p : Pc α ε) (ev : Ev α ε) (hp : PcOk (s.log ++ [ev]) i p)
    (hev : ev.call = some i)
    (hlog : s'.log = s.log ++ [ev]) (hgone : s'.gone = s.gone) (hstore : s'.store = storeOf C.store (s.log ++ [ev]))
    (hph : PhOk (s.log ++ [ev]) s'.phase) (hok : Ok C.store s.log ev)
    (hcalls : s'.calls = fun j => if j = i then p else s.calls j) : Inv C s' where
  gone := by
    intro k; rw [hlog, hgone, h.gone]
    simp only [List.mem_append, List.mem_singleton]
    constructor
    · exact Or.inl
    · rintro (h | rfl); exact h; simp [Ev.call] at hev
  store := by rw [hlog, hstore]
  uniq := by
    rw [hlog, regs_snoc]
    cases ev <;> simp only [List.append_nil] <;> try exact h.uniq
    rename_i k
    refine List.nodup_append.2 ⟨h.uniq, by simp, ?_⟩
    intro a ha b hb hab
    simp at hb; subst hb; subst hab
    exact hok.1 (mem_regs.1 ha)
  ph := by rw [hlog]; exact hph
  pc := by
    intro j; rw [hlog, hcalls]; dsimp only
    split
    · next e => subst e; exact hp
    · next e => exact (h.pc j).snoc ev (by rw [hev]; exact fun h => e (Option.some.inj h).symm)
  legal := by rw [hlog]; exact h.legal.snoc hok

theorem Inv.init : Inv (ε := ε) C { store := C.store.init } where
  gone := by simp
  store := rfl
  uniq := by simp [regs]
  ph := by simp [PhOk]
  pc := by simp [PcOk]
  legal := by intro pre ev post h; simp at h

/-- A call of an observer, from the list. -/
theorem Inv.turn (h : Inv C s) {i j k c rest} (hc : s.calls i = .work j ((k, c) :: rest) .none) :
    Inv C (s.turn i j k c rest) := by
  have hp := h.pc i
  rw [hc] at hp
  unfold St.turn
  split
  · next hg =>
    have hg := (h.gone k).1 hg
    refine h.silent _ i (.work j rest .none) ?_ rfl rfl rfl h.ph rfl
    cases j <;> simp only [PcOk, List.map_cons, List.nodup_cons, List.mem_cons, CurOk] at hp ⊢
    · obtain ⟨h1, h2, ⟨h3, h4⟩, h5, h6, h7, -⟩ := hp
      exact ⟨h1, h2, h4, fun p hp => h5 p (Or.inr hp), by grind, h7, trivial⟩
    · exact ⟨hp.1, fun p h => hp.2.1 p (Or.inr h), hp.2.2⟩
    · obtain ⟨⟨d, n, vs, h1, h2, h3⟩, h4, h5, -⟩ := hp
      obtain ⟨rfl, -⟩ := h2 (k, c) (Or.inl rfl)
      exact ⟨⟨d, n, vs, h1, fun p h => h2 p (Or.inr h), Or.inr hg⟩, h4, h5, trivial⟩
    · exact ⟨fun p h => hp.1 p (Or.inr h), hp.2⟩
  · next hg =>
    have hg' : Ev.gone k ∉ s.log := fun h' => hg ((h.gone k).2 h')
    refine h.emits _ i (.work j rest (.inCb k c)) (.beg i k c) ?_ rfl rfl rfl ?_ (h.ph.snoc _ (by simp)) ?_ rfl
    · cases j <;> simp only [PcOk, List.map_cons, List.nodup_cons, List.mem_cons, CurOk, List.mem_append,
        List.mem_singleton, given_snoc] at hp ⊢
      · obtain ⟨h1, h2, ⟨h3, h4⟩, h5, h6, h7, -⟩ := hp
        have h8 := h5 (k, c) (Or.inl rfl)
        refine ⟨Or.inl h1, by simpa using h2, h4, fun p hp => ?_, by grind, by simpa using h7, h8.2.1, h3, Or.inr (by grind)⟩
        have h9 := h5 p (Or.inr hp)
        refine ⟨h9.1, h9.2.1, fun c' hc' => ?_⟩
        rcases hc' with hc' | hc'
        · exact h9.2.2 c' hc'
        · simp at hc'
          exact h3 (hc'.1 ▸ List.mem_map_of_mem hp)
      · obtain ⟨h1, h2, h3, h4, -⟩ := hp
        have h5 := h2 (k, c) (Or.inl rfl)
        refine ⟨Or.inl h1, fun p hp => ⟨(h2 p (Or.inr hp)).1, Or.inl (h2 p (Or.inr hp)).2⟩, by simpa using h3, by simpa using h4,
          Or.inl h5.2, h5.1⟩
      · obtain ⟨⟨d, n, vs, h1, h2, h3⟩, h4, h5, -⟩ := hp
        obtain ⟨rfl, v, hv, rfl⟩ := h2 (k, c) (Or.inl rfl)
        refine ⟨⟨d, n, vs, by simp [h1], fun p hp => h2 p (Or.inr hp), ?_⟩, h4.snoc (fun _ => rfl), by simpa using h5, rfl, v, by simp⟩
        rcases h3 with h3 | h3
        · left; simpa using h3
        · simp [h3]
      · obtain ⟨h1, h2, h3, -⟩ := hp
        obtain ⟨rfl, t, j, rfl, hj⟩ := h1 (k, c) (Or.inl rfl)
        refine ⟨fun p hp => ?_, h2.snoc (fun _ => rfl), by simpa using h3, rfl, t, rfl⟩
        obtain ⟨a, t, j, b, c⟩ := h1 p (Or.inr hp)
        exact ⟨a, t, j, b, Or.inl c⟩
    · rw [storeOf_snoc]; exact h.store
    · refine ⟨hg', ?_⟩
      cases j <;> simp only [PcOk, List.map_cons, List.nodup_cons, List.mem_cons] at hp
      · have h1 := hp.2.2.2.1 (k, c) (Or.inl rfl)
        dsimp only at h1
        rw [h1.1]; exact Or.inr ⟨_, hp.1, h1.2⟩
      · have h1 := hp.2.1 (k, c) (Or.inl rfl)
        dsimp only at h1
        rw [h1.1]; exact Or.inl ⟨_, hp.1⟩
      · obtain ⟨⟨d, n, vs, h1, h2, h3⟩, h4, h5, -⟩ := hp
        obtain ⟨rfl, v, hv, rfl⟩ := h2 (k, c) (Or.inl rfl)
        exact Or.inl ⟨rfl, h5, d, n, vs, h1, hv⟩
      · obtain ⟨rfl, t, j, rfl, hj⟩ := hp.1 (k, c) (Or.inl rfl)
        exact Or.inl ⟨j, hj⟩

/-- A call of `on_error` after the callback threw. -/
theorem Inv.turnErr (h : Inv C s) {i j k e rest} (hc : s.calls i = .work j rest (.err k e)) :
    Inv C (s.turn i j k (.term (.error e)) rest) := by
  have hp := h.pc i
  rw [hc] at hp
  unfold St.turn
  split
  · next hg =>
    refine h.silent _ i (.work j rest .none) ?_ rfl rfl rfl h.ph rfl
    cases j <;> simp only [PcOk, CurOk] at hp ⊢ <;> grind
  · next hg =>
    have hg' : Ev.gone k ∉ s.log := fun h' => hg ((h.gone k).2 h')
    refine h.emits _ i (.work j rest (.inCb k (.term (.error e)))) (.beg i k (.term (.error e))) ?_ rfl rfl rfl ?_
      (h.ph.snoc _ (by simp)) ?_ rfl
    · cases j <;> simp only [PcOk, CurOk, List.mem_append, List.mem_singleton, given_snoc] at hp ⊢
      · grind
      · grind
      · simp only [List.append_nil]; grind
      · grind
    · rw [storeOf_snoc]; exact h.store
    · refine ⟨hg', ?_⟩
      cases j <;> simp only [PcOk, CurOk] at hp <;> grind

theorem Inv.advance (h : Inv C s) (i : Nat) (now : Int) : Inv C (s.advance C i now) := by
  have hp := h.pc i
  unfold St.advance
  split
  · exact h
  · exact h
  · next v hc =>
    rw [hc] at hp
    refine h.emits _ i (.nSnap v) (.stored i v now) ?_ rfl rfl rfl ?_ (h.ph.snoc _ (by simp)) ?_ rfl
    · exact ⟨now, by simp, fun ev hev hc => by have := hp.2 ev; grind⟩
    · rw [storeOf_snoc]; exact congrArg _ h.store
    · simp only [PcOk, Ok] at *; grind [Ev.call]
  · next v hc =>
    rw [hc] at hp
    have hdone : Inv C ((s.goto i .done).emit (.done i)) := by
      refine h.emits _ i .done (.done i) trivial rfl rfl rfl ?_ (h.ph.snoc _ (by simp)) ?_ rfl
      · rw [storeOf_snoc]; exact h.store
      · simp only [PcOk, Ok] at *; grind [Ev.call]
    split
    · next d l hph =>
      have hph' := h.ph
      rw [hph] at hph'
      refine h.emits _ i (.nLock v l d) (.snap i v l) ?_ rfl rfl rfl ?_ (h.ph.snoc _ (by simp)) ?_ rfl
      · simp only [PcOk] at *; grind
      · rw [storeOf_snoc]; exact h.store
      · simp only [PcOk, Ok, PhOk] at *; grind [Ev.call]
    · exact hdone
    · exact hdone
  · next v l d hc =>
    rw [hc] at hp
    have hp' : PcOk s.log i (.work (.nxt v l d) (l.map fun k => (k, .next v)) .none) := by
      have hl : l.Nodup := by
        obtain ⟨pre, post, he⟩ := List.append_of_mem hp.1
        have h1 := h.legal _ _ _ he
        have h2 := h.uniq
        rw [he, show regs (pre ++ .snap i v l :: post) = regs pre ++ regs post by simp [regs]] at h2
        exact h1.2.2.1.nodup (List.nodup_append.1 h2).1
      have hm : (l.map fun k => (k, Sig.next (ε := ε) v)).map (·.1) = l := by
        rw [List.map_map]; exact List.map_id l
      simp only [PcOk, CurOk, hm] at *
      grind [Ev.call]
    unfold St.acquire
    split
    · split
      · exact h.silent _ i _ hp' rfl rfl rfl h.ph rfl
      · exact h
    · exact h.silent _ i _ hp' rfl rfl rfl h.ph rfl
  · next t hc =>
    rw [hc] at hp
    unfold St.acquire
    split
    · split
      · exact h.silent _ i (.tExch t) hp rfl rfl rfl h.ph rfl
      · exact h
    · exact h.silent _ i (.tExch t) hp rfl rfl rfl h.ph rfl
  · next t hc =>
    rw [hc] at hp
    have hph' := h.ph
    split
    · next d l hph =>
      rw [hph] at hph'
      refine h.silent _ i (.work (.term t) (l.map fun k => (k, .term t)) .none) ?_ rfl rfl rfl ⟨i, hp.1⟩ rfl
      have : ∀ k ∈ l, Ev.reg k ∈ s.log := fun k hk => mem_regs.1 (hph'.1.subset hk)
      simp only [PcOk, CurOk] at *
      grind [Ev.call]
    · refine h.silent _ i (.work (.term t) [] .none) ?_ rfl rfl rfl h.ph rfl
      simp only [PcOk, CurOk] at *
      grind [Ev.call]
  · next d hc =>
    rw [hc] at hp
    have hs := h.store
    refine h.emits _ i _ (.read i d now (C.store.get d now s.store).1) ?_ rfl rfl rfl ?_ (h.ph.snoc _ (by simp)) ?_ rfl
    · have hg : given i i s.log = [] := by
        simp only [given, List.filterMap_eq_nil_iff]
        intro ev hev
        have := hp ev hev
        cases ev with
        | beg j m c => cases c <;> simp [Ev.call] at this ⊢; exact fun e => absurd e this
        | _ => rfl
      simp only [PcOk, CurOk, given_snoc, hg] at *
      refine ⟨⟨d, now, (C.store.get d now s.store).1, by simp, ?_, by simp⟩, fun ev hev hc => ?_, by grind, trivial⟩
      · simp
      · have := hp ev; grind
    · rw [storeOf_snoc]; simp only [← hs]; rfl
    · simp only [PcOk, Ok, ← hs] at *
      grind [Ev.call]
  · next hc =>
    rw [hc] at hp
    have hph' := h.ph
    have hreg : ∀ d d' l, s.phase = .live d l → PhOk (s.log ++ [.reg i]) (.live (ε := ε) d' (l ++ [i])) := by
      intro d d' l hl
      rw [hl] at hph'
      refine ⟨?_, ?_⟩
      · rw [regs_snoc]; exact hph'.1.append (List.Sublist.refl _)
      · intro k hk
        simp only [List.mem_append, List.mem_singleton, Ev.reg.injEq] at hk ⊢
        have := hph'.2 k
        grind
    have key : ∀ d d' l f, s.phase = .live d l →
        Inv C ({ s with phase := .live d' (l ++ [i]), fresh := f }.goto i .done |>.emit (.reg i)) := by
      intro d d' l f hl
      refine h.emits _ i .done (.reg i) trivial rfl rfl rfl ?_ (hreg d d' l hl) ?_ rfl
      · rw [storeOf_snoc]; exact h.store
      · simp only [PcOk, Ok] at *; grind
    split
    · next l hl => exact key none _ l _ hl
    · next d l hl =>
      have := key (some d) (some d) l s.fresh hl
      dsimp only
      split
      · refine this.emits _ i .done (.ub i) trivial rfl rfl rfl ?_ (this.ph.snoc _ (by simp)) trivial ?_
        · rw [storeOf_snoc]; exact this.store
        · funext j; simp only [St.goto, St.emit]; split <;> simp_all
      · exact this
    · next t ht =>
      rw [ht] at hph'
      obtain ⟨j, hj⟩ := hph'
      refine h.silent _ i (.work .late [(i, .term t)] .none) ?_ rfl rfl rfl h.ph rfl
      simp only [PcOk, CurOk] at *
      grind
    · exact h.silent _ i .done trivial rfl rfl rfl h.ph rfl
  · next j k c rest hc => exact h.turn hc
  · exact h
  · next j todo k e hc => exact h.turnErr hc
  · next j todo k hc =>
    rw [hc] at hp
    refine ⟨?_, ?_, ?_, h.ph.snoc _ (by simp), ?_, h.legal.snoc trivial⟩
    · intro m; have := h.gone m; simp only [St.goto, St.emit]; grind
    · simp only [St.goto, St.emit, storeOf_snoc]; exact h.store
    · simp only [St.goto, St.emit, regs_snoc, List.append_nil]; exact h.uniq
    · intro m
      simp only [St.goto, St.emit]
      split
      · next e =>
        subst e
        refine PcOk.snoc _ ?_ (by simp [Ev.call])
        cases j <;> simp only [PcOk, CurOk] at hp ⊢ <;> grind
      · exact (h.pc m).snoc _ (by simp [Ev.call])
  · next v l d hc =>
    rw [hc] at hp
    have hst : (s.release C).store = s.store ∧ (s.release C).log = s.log ∧ (s.release C).gone = s.gone ∧
        (s.release C).phase = s.phase ∧ (s.release C).calls = s.calls := by
      unfold St.release; split <;> simp
    refine h.emits _ i .done (.done i) trivial rfl ?_ ?_ ?_ ?_ ?_ ?_
    · simp only [St.goto, St.emit, hst]
    · simp only [St.goto, St.emit, hst]
    · simp only [St.goto, St.emit, hst, storeOf_snoc]; exact h.store
    · simp only [St.goto, St.emit, hst]; exact h.ph.snoc _ (by simp)
    · simp only [PcOk, Ok] at *; grind
    · simp only [St.goto, St.emit, hst]
  · next t hc =>
    rw [hc] at hp
    unfold St.release
    split <;> exact h.silent _ i .dFlag trivial rfl rfl rfl h.ph rfl
  · next hc =>
    rw [hc] at hp
    refine h.silent _ i .sReg ?_ rfl rfl rfl h.ph rfl
    simp only [PcOk, CurOk] at *
    obtain ⟨⟨d, n, vs, h1, h2, h3⟩, h4, h5, -⟩ := hp
    refine ⟨⟨d, n, vs, h1, h3.imp (fun h => ?_) id⟩, h4, h5⟩
    simp only [List.map_nil, List.append_nil] at h
    exact (List.map_inj_right (fun a b h => by injection h)).1 h
  · exact h.silent _ i .done trivial rfl rfl rfl h.ph rfl
  · split
    · exact h.silent _ i .done trivial rfl rfl rfl h.ph rfl
    · exact h.silent _ i .dExch trivial rfl rfl rfl h.ph rfl
  · split
    · exact h.silent _ i .done trivial rfl rfl rfl trivial rfl
    · exact h.silent _ i .done trivial rfl rfl rfl h.ph rfl

theorem Inv.step (h : Inv C s) (l : Lbl α ε) : Inv C (step C s l) := by
  cases l with
  | next i v =>
    simp only [Conc.step]
    split
    · next hc =>
      have hp := h.pc i
      rw [hc.1] at hp
      refine h.emits _ i (.nPut v) (.emit i v) ?_ rfl rfl rfl ?_ (h.ph.snoc _ (by simp)) hp rfl
      · simp only [PcOk] at *; grind
      · rw [storeOf_snoc]; exact h.store
    · exact h
  | finish i t =>
    simp only [Conc.step]
    split
    · next hc =>
      have hp := h.pc i
      rw [hc.1] at hp
      refine h.emits _ i (.tLock t) (.finish i t) ?_ rfl rfl rfl ?_ (h.ph.snoc _ (by simp)) hp rfl
      · simp only [PcOk] at *; grind
      · rw [storeOf_snoc]; exact h.store
    · exact h
  | sub k =>
    simp only [Conc.step]
    split
    · next hc =>
      have hp := h.pc k
      rw [hc] at hp
      exact h.silent _ k (.sRead s.down) hp rfl rfl rfl h.ph rfl
    · exact h
  | down i =>
    simp only [Conc.step]
    split
    · exact h.silent _ i .dFlag trivial rfl rfl rfl h.ph rfl
    · exact h
  | run i now => exact h.advance i now
  | ret i r =>
    simp only [Conc.step]
    split
    · next j todo k c hc =>
      have hp := h.pc i
      rw [hc] at hp
      have key : ∀ cur, PcOk s.log i (.work j todo cur) → Inv C ((s.goto i (.work j todo cur)).emit (.fin i k)) := by
        intro cur hcur
        refine h.emits _ i (.work j todo cur) (.fin i k) ?_ rfl rfl rfl ?_ (h.ph.snoc _ (by simp)) trivial rfl
        · cases j <;> simp only [PcOk, given_snoc, List.mem_append, List.append_nil] at hcur ⊢
          · have := hcur.2.2.2.2.2.2.snoc (.fin i k); grind
          · have := hcur.2.2.2.2.snoc (.fin i k); grind
          · have := hcur.2.2.2.snoc (.fin i k); grind
          · have := hcur.2.2.2.snoc (.fin i k); grind
        · rw [storeOf_snoc]; exact h.store
      split <;> refine key _ ?_ <;> cases j <;> simp only [PcOk, CurOk] at hp ⊢ <;> grind
    · exact h
  | gone k =>
    simp only [Conc.step]
    split
    · exact h
    · refine ⟨?_, ?_, ?_, h.ph.snoc _ (by simp), fun m => (h.pc m).snoc _ (by simp [Ev.call]), h.legal.snoc trivial⟩
      · intro m; have := h.gone m; simp only [St.emit]; grind
      · simp only [St.emit, storeOf_snoc]; exact h.store
      · simp only [St.emit, regs_snoc, List.append_nil]; exact h.uniq
  | clean k =>
    simp only [Conc.step]
    split
    · split
      · next d l hl =>
        have hph := h.ph
        rw [hl] at hph
        refine ⟨h.gone, h.store, h.uniq, ⟨List.filter_sublist.trans hph.1, fun m hm => ?_⟩, h.pc, h.legal⟩
        have := hph.2 m hm
        have := h.gone m
        simp only [List.mem_filter, decide_eq_true_eq]
        grind
      · exact h
    · exact h

theorem inv (C : Cfg α σ) (ls : List (Lbl α ε)) : Inv C (exec C ls) := by
  unfold exec
  generalize hs : ({ store := C.store.init } : St α ε σ) = s0
  have h : Inv C s0 := hs ▸ Inv.init
  clear hs
  induction ls generalizing s0 with
  | nil => exact h
  | cons l ls ih => exact ih _ (h.step l)

end Rpp.Subj.Conc
