/-!
# `refcount_disposable` used from any number of threads (C51)

Models disposables/refcount_disposable.hpp 29-115 (`add_ref`, `release`, `refocunt_disposable_inner`) on top
of disposables/composite_disposable.hpp. One label executes one atomic step of one thread.

Simplifications: `add`/`remove` of the underlying composite are one step each and its `dispose()` is the CAS,
the hook and one step per child (that concurrent calls of the composite behave like that is C49/C50); the
disposables a user attaches to a reference are not represented; sequentially consistent atomics.
-/

namespace Rpp.Refcount

/-! `S` is `s_disposed`, line 68: the largest `size_t`; `size_t` arithmetic is modulo `S + 1`. The properties
are stated for `sizeMax`. -/

/-- `std::numeric_limits<size_t>::max()`, the count of a disposed refcount_disposable (disposables/refcount_disposable.hpp 33-46). -/
def sizeMax : Nat := 2 ^ 64 - 1

example : sizeMax = 0xffffffffffffffff := by decide

/-- `size_t` increment and decrement away from the wrap-around. -/
theorem inc_lt {S c : Nat} (h : c + 1 < S) : (c + 1) % (S + 1) = c + 1 := Nat.mod_eq_of_lt (by omega)
theorem dec_lt {S c : Nat} (h0 : 0 < c) (h : c < S) : (c + S) % (S + 1) = c - 1 := by
  have e : c + S = (c - 1) + (S + 1) := by omega
  rw [e, Nat.add_mod_right]; exact Nat.mod_eq_of_lt (by omega)

/-- Program points. References are numbered in the order in which `add_ref` issued them. -/
inductive Frame where
  | arLoad                        -- add_ref, line 101
  | arCas (cur : Nat)             -- 104-108
  | arAdd (r : Nat)               -- 110-112: `add(inner)`
  | refCas (r : Nat)              -- composite_disposable.hpp 49 of the reference
  | refRem (r : Nat)              -- 83-84: m_state.remove(self)
  | relLoad (r : Nat)             -- release, line 35
  | relCas (r : Nat) (cur : Nat)  -- 36-45
  | outCas                        -- composite_disposable.hpp 49 of the refcount_disposable
  | outHook                       -- 48-51: m_refcount.store(s_disposed)
  | outIter (i : Nat)             -- composite_disposable.hpp 53 (i-th child), 54
deriving DecidableEq, Repr

/-- `dead`: references whose `dispose()` took effect. Ghost: `next` = number of references issued,
`released` = references whose `release()` changed the counter, `direct` = somebody called `dispose()` on the
refcount_disposable itself. (disposables/refcount_disposable.hpp 29-115) -/
structure St where
  cnt : Nat := 0
  disposed : Bool := false
  kids : List Nat := []
  dead : List Nat := []
  next : Nat := 0
  released : List Nat := []
  direct : Bool := false
  th : Nat → List Frame := fun _ => []

/-- Replace one component of the state; no counterpart in /repo. -/
def St.put (s : St) (t : Nat) (stk : List Frame) : St :=
  { s with th := fun u => if u = t then stk else s.th u }

/-- One step of thread `t` whose stack is `f :: rest`. -/
def runFrame (S : Nat) (s : St) (t : Nat) (f : Frame) (rest : List Frame) : St :=
  match f with
  | .arLoad => s.put t (.arCas s.cnt :: rest)
  | .arCas cur =>
    if cur = S then s.put t rest                     -- returns an empty disposable
    else if s.cnt = cur then
      { s with cnt := (cur + 1) % (S + 1), next := s.next + 1 }.put t (.arAdd s.next :: rest)
    else s.put t (.arCas s.cnt :: rest)
  | .arAdd r =>
    if r ∈ s.dead then s.put t rest                  -- composite_disposable.hpp 67
    else if s.disposed then s.put t (.refCas r :: rest)  -- composite_disposable.hpp 92
    else { s with kids := s.kids ++ [r] }.put t rest
  | .refCas r =>
    if r ∈ s.dead then s.put t rest
    else { s with dead := r :: s.dead }.put t (.refRem r :: rest)
  | .refRem r =>
    if s.disposed then s.put t (.relLoad r :: rest)
    else { s with kids := s.kids.filter (· ≠ r) }.put t (.relLoad r :: rest)
  | .relLoad r => s.put t (.relCas r s.cnt :: rest)
  | .relCas r cur =>
    if cur = S then s.put t rest
    else if s.cnt = cur then
      let new := if cur = 1 then S else (cur + S) % (S + 1)     -- current_value - 1 on size_t
      if new = S then { s with cnt := new, released := r :: s.released }.put t (.outCas :: rest)
      else { s with cnt := new, released := r :: s.released }.put t rest
    else s.put t (.relCas r s.cnt :: rest)
  | .outCas =>
    if s.disposed then s.put t rest
    else { s with disposed := true }.put t (.outHook :: rest)
  | .outHook => { s with cnt := S }.put t (.outIter 0 :: rest)
  | .outIter i =>
    match s.kids[i]? with
    | some r => s.put t (.refCas r :: .outIter (i + 1) :: rest)
    | none => { s with kids := [] }.put t rest

/-- What may happen next; the choice is arbitrary; no counterpart in /repo. -/
inductive Lbl where
  | addRef (t : Nat)
  | disposeRef (t : Nat) (r : Nat)
  | dispose (t : Nat)
  | run (t : Nat)
deriving DecidableEq, Repr

/-- Calls are accepted from idle threads; only issued references can be disposed. (disposables/refcount_disposable.hpp 29-115) -/
def step (S : Nat) (s : St) : Lbl → St
  | .addRef t => match s.th t with
    | [] => s.put t [.arLoad]
    | _ => s
  | .disposeRef t r => match s.th t with
    | [] => if r < s.next then s.put t [.refCas r] else s
    | _ => s
  | .dispose t => match s.th t with
    | [] => { s with direct := true }.put t [.outCas]
    | _ => s
  | .run t => match s.th t with
    | [] => s
    | f :: rest => runFrame S s t f rest

/-- The state after a sequence of steps; no counterpart in /repo. -/
def exec (S : Nat) (s : St) (ls : List Lbl) : St := ls.foldl (step S) s

/-- What the logs satisfy (for the proofs); models no code. -/
def Quiet (s : St) : Prop := ∀ t, s.th t = []

/-! ## Invariant -/

/-- Frames of the one `dispose()` call of reference `r` that will release it. (disposables/refcount_disposable.hpp 29-115) -/
def Frame.rel (r : Nat) : Frame → Bool
  | .refRem x | .relLoad x | .relCas x _ => x == r
  | _ => false

/-- Invariant of the proofs; models no code. -/
structure Inv (S : Nat) (s : St) (own : Nat → Option Nat) : Prop where
  c1 : ∀ r t, (s.th t).countP (Frame.rel r) = if own r = some t then 1 else 0
  c2 : ∀ r, own r ≠ none → r ∈ s.dead ∧ r ∉ s.released
  c3 : ∀ r ∈ s.released, r ∈ s.dead
  c3' : ∀ r ∈ s.dead, r < s.next
  c4 : s.released.Nodup
  c5 : s.cnt ≠ S → s.cnt + s.released.length = s.next ∧ (s.next = 0 ∨ 0 < s.cnt)
  c6 : s.cnt = S → s.disposed = true ∨ ∃ t, Frame.outCas ∈ s.th t
  c7 : s.disposed = true → s.cnt = S ∨ ∃ t, Frame.outHook ∈ s.th t
  c7a : ∀ t, Frame.outHook ∈ s.th t → s.disposed = true
  c7b : ∀ t i, Frame.outIter i ∈ s.th t → s.disposed = true ∧ s.cnt = S
  c8 : s.direct = false → s.cnt = S → ∀ r, r < s.next → r ∈ s.dead
  c8a : s.direct = false → s.disposed = true → s.cnt = S
  c8b : ∀ t, s.direct = false → Frame.outCas ∈ s.th t → s.cnt = S
  c9 : ∀ r, r < s.next → r ∈ s.dead ∨ r ∈ s.kids ∨ ∃ t, Frame.arAdd r ∈ s.th t ∨ Frame.refCas r ∈ s.th t
  c10 : ∀ r ∈ s.dead, r ∈ s.released ∨ own r ≠ none ∨ s.cnt = S
  c11 : ∀ t r, Frame.arAdd r ∈ s.th t ∨ Frame.refCas r ∈ s.th t → r < s.next
  c11a : ∀ r ∈ s.kids, r < s.next
  c12 : s.disposed = true → s.kids = [] ∨ ∃ t, Frame.outHook ∈ s.th t ∨ ∃ i, Frame.outIter i ∈ s.th t
  c13 : ∀ t i, Frame.outIter i ∈ s.th t → ∀ j r, j < i → s.kids[j]? = some r →
    r ∈ s.dead ∨ ∃ u, Frame.refCas r ∈ s.th u
  c14 : ∀ t r, Frame.relCas r S ∈ s.th t → s.cnt = S

theorem Inv.init {S : Nat} (hS : 1 < S) : Inv S {} (fun _ => none) := by
  constructor <;> simp <;> omega

/-- Distinct numbers below `n` are at most `n` many. -/
theorem bound : ∀ (n : Nat) (l : List Nat), l.Nodup → (∀ x ∈ l, x < n) → l.length ≤ n := by
  intro n
  induction n with
  | zero =>
    intro l _ hb
    cases l with
    | nil => simp
    | cons x l => exact absurd (hb x (by simp)) (by omega)
  | succ n ih =>
    intro l hn hb
    have h := ih (l.erase n) (hn.erase n) (by
      intro x hx
      have h1 := hb x (List.mem_of_mem_erase hx)
      have h2 : x ≠ n := by rintro rfl; exact (hn.not_mem_erase) hx
      omega)
    have := List.le_length_erase (l := l) (a := n)
    omega

/-- Distinct numbers below `n`, at least `n` many, are all of them. -/
theorem covers (n : Nat) (l : List Nat) (hn : l.Nodup) (hb : ∀ x ∈ l, x < n) (hl : n ≤ l.length)
    (r : Nat) (hr : r < n) : r ∈ l := by
  refine Classical.byContradiction fun h => ?_
  have := bound n (r :: l) (List.nodup_cons.2 ⟨h, hn⟩) (by simpa using ⟨hr, hb⟩)
  simp at this; omega

/-! ## Preservation -/

section
variable {s : St} {t : Nat} {f : Frame} {rest new : List Frame}

@[simp] theorem put_cnt (stk) : (s.put t stk).cnt = s.cnt := rfl
@[simp] theorem put_disposed (stk) : (s.put t stk).disposed = s.disposed := rfl
@[simp] theorem put_kids (stk) : (s.put t stk).kids = s.kids := rfl
@[simp] theorem put_dead (stk) : (s.put t stk).dead = s.dead := rfl
@[simp] theorem put_next (stk) : (s.put t stk).next = s.next := rfl
@[simp] theorem put_released (stk) : (s.put t stk).released = s.released := rfl
@[simp] theorem put_direct (stk) : (s.put t stk).direct = s.direct := rfl
theorem put_th (stk u) : (s.put t stk).th u = if u = t then stk else s.th u := rfl

theorem mem_new (hs : s.th t = f :: rest) {s' : St} (hth : s'.th = s.th) {u g} :
    g ∈ (s'.put t (new ++ rest)).th u → g ∈ new ∨ g ∈ s.th u := by
  rw [put_th, hth]; split
  · rename_i e; subst e; rw [hs]; simp; intro h; rcases h with h | h <;> simp [h]
  · exact Or.inr

theorem mem_old (hs : s.th t = f :: rest) {s' : St} (hth : s'.th = s.th) {u g} :
    g ∈ s.th u → g = f ∨ g ∈ (s'.put t (new ++ rest)).th u := by
  rw [put_th, hth]; split
  · rename_i e; subst e; rw [hs]; simp; intro h; rcases h with h | h <;> simp [h]
  · exact Or.inr

theorem mem_self (_ : s.th t = f :: rest) {s' : St} : ∀ g ∈ new, g ∈ (s'.put t (new ++ rest)).th t := by
  rw [put_th, if_pos rfl]; intro g h; simp [h]
end

theorem countP_put {s s' : St} {t f rest new} (hs : s.th t = f :: rest) (hth : s'.th = s.th) (r u : Nat) :
    ((s'.put t (new ++ rest)).th u).countP (Frame.rel r) =
      if u = t then new.countP (Frame.rel r) + rest.countP (Frame.rel r) else (s.th u).countP (Frame.rel r) := by
  rw [put_th, hth]; split <;> simp [List.countP_append]

set_option hygiene false in
/-- Everything but the counters, for a step `f ↦ new` on thread `t` with new shared state `s'`. -/
macro "inv_case " t:ident hs:ident h:ident new:term ", " s':term ", " own:term : tactic => `(tactic| (
    refine ⟨$own, ?_⟩
    have N := @mem_new _ _ _ _ $new $hs $s' rfl
    have O := @mem_old _ _ _ _ $new $hs $s' rfl
    have M := @mem_self _ _ _ _ $new $hs $s'
    have C := @countP_put _ $s' _ _ _ $new $hs rfl
    have hc := ($h).c1
    constructor
    · intro r u
      have h1 := hc r u
      have h2 := C r u
      simp only [List.nil_append, List.cons_append] at h2
      rw [h2]
      clear N O M C h2
      by_cases e : u = $t
      · subst e; rw [$hs:ident] at h1
        simp [Frame.rel, List.countP_cons] at h1 ⊢
        grind
      · rw [if_neg e]; grind
    all_goals obtain ⟨-, c2, c3, c3', c4, c5, c6, c7, c7a, c7b, c8, c8a, c8b, c9, c10, c11, c11a, c12, c13, c14⟩ := $h
    all_goals clear C hc hb
    all_goals try simp only [List.forall_mem_cons] at M
    all_goals simp only [put_cnt, put_disposed, put_kids, put_dead, put_next, put_released, put_direct]
    all_goals simp only [List.nil_append, List.cons_append, List.mem_cons, List.not_mem_nil, or_false, false_or,
      false_implies, implies_true, and_true] at *
    all_goals grind))

set_option maxHeartbeats 1000000 in
theorem Inv.runFrame {S : Nat} {s own t f rest} (h : Inv S s own) (hs : s.th t = f :: rest)
    (hb : (runFrame S s t f rest).next < S) : ∃ own', Inv S (runFrame S s t f rest) own' := by
  have hmem : f ∈ s.th t := by rw [hs]; simp
  cases f with
  | arLoad =>
    simp only [Refcount.runFrame] at hb ⊢
    inv_case t hs h [.arCas s.cnt], s, own
  | arCas cur =>
    simp only [Refcount.runFrame] at hb ⊢
    split
    · inv_case t hs h [], s, own
    · rename_i h1
      rw [if_neg h1] at hb
      split
      · rename_i h2
        rw [if_pos h2] at hb
        simp at hb
        have h5 := h.c5 (by omega)
        have h3 : (cur + 1) % (S + 1) = cur + 1 := inc_lt (by omega)
        rw [h3]
        have h4 : cur + 1 ≠ S := by omega
        inv_case t hs h [.arAdd s.next], { s with cnt := cur + 1, next := s.next + 1 }, own
      · inv_case t hs h [.arCas s.cnt], s, own
  | arAdd r =>
    simp only [Refcount.runFrame] at hb ⊢
    split
    · inv_case t hs h [], s, own
    · split
      · inv_case t hs h [.refCas r], s, own
      · inv_case t hs h [], { s with kids := s.kids ++ [r] }, own
  | refCas r =>
    simp only [Refcount.runFrame] at hb ⊢
    split
    · inv_case t hs h [], s, own
    · have hnone : own r = none := by
        refine Classical.byContradiction fun e => ?_
        exact absurd (h.c2 r e).1 (by assumption)
      inv_case t hs h [.refRem r], { s with dead := r :: s.dead }, fun x => if x = r then some t else own x
  | refRem r =>
    simp only [Refcount.runFrame] at hb ⊢
    split
    · inv_case t hs h [.relLoad r], s, own
    · have hd : r ∈ s.dead := by
        refine (h.c2 r fun e => ?_).1
        have := h.c1 r t
        rw [hs] at this
        simp [Frame.rel, e] at this
      have hmf : ∀ x, x ∈ s.kids.filter (fun y => decide (y ≠ r)) ↔ x ∈ s.kids ∧ x ≠ r := by
        intro x; simp
      inv_case t hs h [.relLoad r], { s with kids := s.kids.filter (· ≠ r) }, own
  | relLoad r =>
    simp only [Refcount.runFrame] at hb ⊢
    inv_case t hs h [.relCas r s.cnt], s, own
  | relCas r cur =>
    have hown : own r = some t := by
      have := h.c1 r t
      rw [hs] at this
      simp [Frame.rel] at this
      by_cases e : own r = some t
      · exact e
      · rw [if_neg e] at this; omega
    obtain ⟨hd, hnr⟩ := h.c2 r (by simp [hown])
    simp only [Refcount.runFrame] at hb ⊢
    split
    · inv_case t hs h [], s, fun x => if x = r then none else own x
    · rename_i h1
      split
      · rename_i h2
        have h5 := h.c5 (by omega)
        have hlen := bound s.next (r :: s.released) (List.nodup_cons.2 ⟨hnr, h.c4⟩)
          (by intro x hx; rcases List.mem_cons.1 hx with rfl | hx; exact h.c3' _ hd; exact h.c3' _ (h.c3 _ hx))
        simp at hlen
        by_cases h6 : cur = 1
        · have hcov := covers s.next (r :: s.released) (List.nodup_cons.2 ⟨hnr, h.c4⟩)
            (by intro x hx; rcases List.mem_cons.1 hx with rfl | hx; exact h.c3' _ hd; exact h.c3' _ (h.c3 _ hx))
            (by simp; omega)
          simp only [h6, if_true]
          inv_case t hs h [.outCas], { s with cnt := S, released := r :: s.released },
            fun x => if x = r then none else own x
        · have hnx : s.next < S := by
            rw [if_neg h1, if_pos h2] at hb
            simp only [if_neg h6] at hb
            split at hb <;> exact hb
          have h7 : (cur + S) % (S + 1) = cur - 1 := dec_lt (by omega) (by omega)
          have h8 : cur - 1 ≠ S := by omega
          simp only [h6, if_false, h7, h8]
          inv_case t hs h [], { s with cnt := cur - 1, released := r :: s.released },
            fun x => if x = r then none else own x
      · inv_case t hs h [.relCas r s.cnt], s, own
  | outCas =>
    simp only [Refcount.runFrame] at hb ⊢
    split
    · inv_case t hs h [], s, own
    · inv_case t hs h [.outHook], { s with disposed := true }, own
  | outHook =>
    simp only [Refcount.runFrame] at hb ⊢
    inv_case t hs h [.outIter 0], { s with cnt := S }, own
  | outIter i =>
    simp only [Refcount.runFrame] at hb ⊢
    split
    · rename_i r hr
      have h13 : ∀ j x, j < i + 1 → s.kids[j]? = some x → x = r ∨ x ∈ s.dead ∨ ∃ u, Frame.refCas x ∈ s.th u := by
        intro j x hj hx
        by_cases e : j = i
        · subst e; rw [hr] at hx; exact Or.inl (Option.some.inj hx).symm
        · exact Or.inr (h.c13 t i hmem j x (by omega) hx)
      have hlt := h.c11a r (List.mem_of_getElem? hr)
      clear hr
      inv_case t hs h [.refCas r, .outIter (i + 1)], s, own
    · rename_i hn
      have h13 : ∀ x ∈ s.kids, x ∈ s.dead ∨ ∃ u, Frame.refCas x ∈ s.th u := by
        intro x hx
        obtain ⟨j, hj⟩ := List.mem_iff_getElem?.1 hx
        refine h.c13 t i hmem j x ?_ hj
        have := List.getElem?_eq_none_iff.1 hn
        have := (List.getElem?_eq_some_iff.1 hj).1
        omega
      inv_case t hs h [], { s with kids := [] }, own

theorem Inv.call {S : Nat} {s own t} (h : Inv S s own) (hs : s.th t = []) (f : Frame) (d : Bool)
    (hf : f = .arLoad ∨ (∃ r, r < s.next ∧ f = .refCas r) ∨ (f = .outCas ∧ d = true)) :
    Inv S ({ s with direct := s.direct || d }.put t [f]) own := by
  have N : ∀ {u g}, g ∈ ({ s with direct := s.direct || d }.put t [f]).th u → g = f ∨ g ∈ s.th u := by
    intro u g; rw [put_th]; split
    · simp; exact Or.inl
    · exact Or.inr
  have O : ∀ {u g}, g ∈ s.th u → g ∈ ({ s with direct := s.direct || d }.put t [f]).th u := by
    intro u g; rw [put_th]; split
    · rename_i e; subst e; rw [hs]; simp
    · simp
  have M : f ∈ ({ s with direct := s.direct || d }.put t [f]).th t := by rw [put_th]; simp
  constructor
  · intro r u
    have h1 := h.c1 r u
    rw [put_th]; split
    · rename_i e; subst e; rw [hs] at h1
      rw [← h1]
      rcases hf with rfl | ⟨x, _, rfl⟩ | ⟨rfl, _⟩ <;> simp [Frame.rel]
    · exact h1
  all_goals obtain ⟨-, c2, c3, c3', c4, c5, c6, c7, c7a, c7b, c8, c8a, c8b, c9, c10, c11, c11a, c12, c13, c14⟩ := h
  all_goals simp only [put_cnt, put_disposed, put_kids, put_dead, put_next, put_released, put_direct]
  all_goals grind

theorem next_mono (S : Nat) (s : St) (l : Lbl) : s.next ≤ (step S s l).next := by
  cases l with
  | addRef t => simp only [step]; split <;> simp
  | disposeRef t r => simp only [step]; split <;> (try split) <;> simp
  | dispose t => simp only [step]; split <;> simp
  | run t =>
    simp only [step]
    split
    · simp
    · rename_i f rest hs
      cases f <;> simp only [runFrame] <;> (repeat' split) <;> simp

theorem Inv.step {S : Nat} {s own} (h : Inv S s own) (l : Lbl) (hb : (step S s l).next < S) :
    ∃ own', Inv S (step S s l) own' := by
  cases l with
  | addRef t =>
    simp only [Refcount.step]
    split
    · rename_i hs
      have := h.call hs .arLoad false (Or.inl rfl)
      simp only [Bool.or_false] at this
      exact ⟨own, this⟩
    · exact ⟨own, h⟩
  | disposeRef t r =>
    simp only [Refcount.step]
    split
    · rename_i hs
      split
      · rename_i hr
        have := h.call hs (.refCas r) false (Or.inr (Or.inl ⟨r, hr, rfl⟩))
        simp only [Bool.or_false] at this
        exact ⟨own, this⟩
      · exact ⟨own, h⟩
    · exact ⟨own, h⟩
  | dispose t =>
    simp only [Refcount.step]
    split
    · rename_i hs
      have := h.call hs .outCas true (Or.inr (Or.inr ⟨rfl, rfl⟩))
      simp only [Bool.or_true] at this
      exact ⟨own, this⟩
    · exact ⟨own, h⟩
  | run t =>
    simp only [Refcount.step] at hb ⊢
    split
    · exact ⟨own, h⟩
    · rename_i f rest hs
      rw [hs] at hb
      exact h.runFrame hs hb

theorem exec_next_mono (S : Nat) : ∀ (ls : List Lbl) (s : St), s.next ≤ (exec S s ls).next := by
  intro ls
  induction ls with
  | nil => intro s; exact Nat.le_refl _
  | cons l ls ih => intro s; exact Nat.le_trans (next_mono S s l) (ih _)

theorem Inv.exec {S : Nat} : ∀ (ls : List Lbl) {s own}, Inv S s own → (exec S s ls).next < S →
    ∃ own', Inv S (exec S s ls) own' := by
  intro ls
  induction ls with
  | nil => intro s own h _; exact ⟨own, h⟩
  | cons l ls ih =>
    intro s own h hb
    obtain ⟨own', h'⟩ := h.step l (Nat.lt_of_le_of_lt (exec_next_mono S ls _) hb)
    exact ih h' hb

end Rpp.Refcount
