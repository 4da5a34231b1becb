import Verif.Disposable.GraphProps

/-!
# Disposing reaches upstream: C91

The weak references which keep C90 true must not cut the way by which a subscription is disposed.
-/

namespace Rpp.Graph

/-- `b` is `a`, or held by it through members only. -/
inductive Heap.Holds (h : Heap) : Nat → Nat → Prop where
  | refl (a : Nat) : h.Holds a a
  | step {a b c : Nat} : (a, b) ∈ h.fields → h.Holds b c → h.Holds a c

/-- Disposing container `a` disposes container `b`: there is a wrapper in it, or one in a container disposed that way. Weak or strong, what the wrapper points to is there as long as somebody holds `w`, which holds it through members. -/
inductive Heap.Chain (h : Heap) (w : Nat) : Nat → Nat → Prop where
  | refl (a : Nat) : h.Chain w a a
  | step {a b c : Nat} {strong : Bool} : (a, b, strong) ∈ h.entries → h.Holds w b → h.Chain w b c → h.Chain w a c

/-- Disposing container `a` disposes `d`, as long as somebody holds `w`. -/
def Heap.Disposes (h : Heap) (w a d : Nat) : Prop := ∃ x, h.Chain w a x ∧ (x, d, true) ∈ h.entries

/-- `n` is the observer made by an operator applied to `o`, or to an observer made that way on top of `o`, and so on. -/
inductive Heap.Above (h : Heap) : Nat → Nat → Prop where
  | refl (n : Nat) : h.Above n n
  | step {n m o : Nat} : (n, m) ∈ h.under → h.Above m o → h.Above n o

theorem Heap.Holds.trans {h : Heap} {a b c : Nat} (p : h.Holds a b) (q : h.Holds b c) : h.Holds a c := by
  induction p with
  | refl a => exact q
  | step e _ ih => exact .step e (ih q)

theorem Heap.Holds.mono {h h' : Heap} (hf : ∀ p ∈ h.fields, p ∈ h'.fields) {a b : Nat} (p : h.Holds a b) : h'.Holds a b := by
  induction p with
  | refl a => exact .refl a
  | step e _ ih => exact .step (hf _ e) ih

theorem Heap.Holds.field {h : Heap} {a b : Nat} (p : (a, b) ∈ h.fields) : h.Holds a b := .step p (.refl b)

theorem Heap.Chain.trans {h : Heap} {w a b c : Nat} (p : h.Chain w a b) (q : h.Chain w b c) : h.Chain w a c := by
  induction p with
  | refl a => exact q
  | step e s _ ih => exact .step e s (ih q)

theorem Heap.Chain.mono {h h' : Heap} (hf : ∀ p ∈ h.fields, p ∈ h'.fields) (he : ∀ p ∈ h.entries, p ∈ h'.entries) {w a b : Nat} (p : h.Chain w a b) : h'.Chain w a b := by
  induction p with
  | refl a => exact .refl a
  | step e s _ ih => exact .step (he _ e) (s.mono hf) ih

theorem Heap.Chain.held {h : Heap} {v w a b : Nat} (r : h.Holds v w) (p : h.Chain w a b) : h.Chain v a b := by
  induction p with
  | refl a => exact .refl a
  | step e s _ ih => exact .step e (r.trans s) ih

/-- A test on the constructor; models no code. -/
def Op.isCut : Op → Bool
  | .cut .. => true
  | _ => false

/-- Containers `l` are disposed with one of `k` as long as somebody holds `w`. -/
def Cover (h : Heap) (w : Nat) (k l : List Nat) : Prop := ∀ x ∈ l, ∃ a ∈ k, h.Chain w a x

/-- Used in the proofs; models no code. -/
def RoleOk (h : Heap) (key : Nat → List Nat) : Role → Prop
  | .merge st d o | .latest st d o | .concat st d o | .again st d o => h.ups o ≠ [] ∧ h.Holds st o ∧ Cover h st (key o) [d]
  | .queued st d o => h.ups o ≠ [] ∧ h.Holds st o ∧ ∃ c, Cover h st (key o) [c] ∧ (c, d, true) ∈ h.entries
  | .fwd st o _ => h.ups o ≠ [] ∧ h.Holds st o
  | .switch st o => h.ups o ≠ [] ∧ h.Holds st o ∧ Cover h st (key o) [st]
  | _ => True

/-- Used in the proofs; models no code. -/
structure Keyed (h : Heap) (key : Nat → List Nat) : Prop where
  fresh : ∀ o, h.size ≤ o → h.role o = .plain ∧ h.ups o = []
  ids : ∀ o x, x ∈ (h.role o).ids → x < h.size
  unders : ∀ n o, (n, o) ∈ h.under → n < h.size ∧ o < h.size
  sub : ∀ n, ∀ x ∈ key n, x ∈ h.ups n
  some : ∀ n, h.ups n ≠ [] → key n ≠ []
  under : ∀ n o, (n, o) ∈ h.under → h.Holds n o ∧ Cover h n (key o) (key n)
  role : ∀ n, RoleOk h key (h.role n)

theorem Keyed.init : Keyed {} (fun _ => []) := by
  constructor <;> simp [Role.ids, RoleOk]

theorem Cover.mono {h h' : Heap} {w : Nat} {k l : List Nat} (hf : ∀ p ∈ h.fields, p ∈ h'.fields) (he : ∀ p ∈ h.entries, p ∈ h'.entries) (c : Cover h w k l) : Cover h' w k l := by
  intro x hx
  obtain ⟨a, ha, p⟩ := c x hx
  exact ⟨a, ha, p.mono hf he⟩

theorem Cover.held {h : Heap} {v w : Nat} {k l : List Nat} (r : h.Holds v w) (c : Cover h w k l) : Cover h v k l := by
  intro x hx
  obtain ⟨a, ha, p⟩ := c x hx
  exact ⟨a, ha, p.held r⟩

theorem Cover.refl {h : Heap} {w : Nat} {k : List Nat} : Cover h w k k := fun x hx => ⟨x, hx, .refl x⟩

/-- What stays when nodes are added: the new nodes are `≥ h.size`. -/
structure Grow (h h' : Heap) : Prop where
  size : h.size ≤ h'.size
  fields : ∀ p ∈ h.fields, p ∈ h'.fields
  entries : ∀ p ∈ h.entries, p ∈ h'.entries
  ups : ∀ o, o < h.size → h'.ups o = h.ups o
  role : ∀ o, o < h.size → h'.role o = h.role o
  fresh : ∀ o, h'.size ≤ o → h'.role o = .plain ∧ h'.ups o = []

theorem RoleOk.mono {h h' : Heap} {key key' : Nat → List Nat} {r : Role} (g : Grow h h')
    (hk : ∀ o, o < h.size → key' o = key o) (hid : ∀ x ∈ r.ids, x < h.size) (q : RoleOk h key r) : RoleOk h' key' r := by
  cases r <;> simp only [RoleOk, Role.ids, List.mem_cons, List.not_mem_nil, or_false, forall_eq_or_imp, forall_eq] at q hid ⊢
  case merge st d o | latest st d o | concat st d o | again st d o =>
    rw [g.ups _ hid.2.2, hk _ hid.2.2]; exact ⟨q.1, q.2.1.mono g.fields, q.2.2.mono g.fields g.entries⟩
  case queued st d o =>
    obtain ⟨q1, q2, c, q3, q4⟩ := q
    rw [g.ups _ hid.2.2, hk _ hid.2.2]; exact ⟨q1, q2.mono g.fields, c, q3.mono g.fields g.entries, g.entries _ q4⟩
  case fwd st o l => rw [g.ups _ hid.2]; exact ⟨q.1, q.2.mono g.fields⟩
  case switch st o => rw [g.ups _ hid.2, hk _ hid.2]; exact ⟨q.1, q.2.1.mono g.fields, q.2.2.mono g.fields g.entries⟩

/-- Adding nodes: it is enough to look at the new ones. -/
theorem Keyed.grow {h h' : Heap} {key : Nat → List Nat} (q : Keyed h key) (g : Grow h h') (key' : Nat → List Nat)
    (hk : ∀ o, o < h.size → key' o = key o)
    (hu : ∀ n o, (n, o) ∈ h'.under → (n, o) ∈ h.under ∨ (h.size ≤ n ∧ n < h'.size ∧ o < h'.size ∧ h'.Holds n o ∧ Cover h' n (key' o) (key' n)))
    (hn : ∀ n, h.size ≤ n → (∀ x ∈ key' n, x ∈ h'.ups n) ∧ (h'.ups n ≠ [] → key' n ≠ []))
    (hr : ∀ n, h.size ≤ n → (∀ x ∈ (h'.role n).ids, x < h'.size) ∧ RoleOk h' key' (h'.role n)) : Keyed h' key' := by
  constructor
  · exact g.fresh
  · intro o x hx
    by_cases ho : o < h.size
    · rw [g.role o ho] at hx
      have := q.ids o x hx
      have := g.size
      omega
    · exact (hr o (by omega)).1 x hx
  · intro n o hno
    rcases hu n o hno with h1 | ⟨_, h2, h3, _⟩
    · have := q.unders n o h1
      have := g.size
      omega
    · exact ⟨h2, h3⟩
  · intro n x hx
    by_cases ho : n < h.size
    · rw [hk n ho] at hx; rw [g.ups n ho]; exact q.sub n x hx
    · exact (hn n (by omega)).1 x hx
  · intro n hx
    by_cases ho : n < h.size
    · rw [hk n ho]; rw [g.ups n ho] at hx; exact q.some n hx
    · exact (hn n (by omega)).2 hx
  · intro n o hno
    rcases hu n o hno with h1 | ⟨_, _, _, h4⟩
    · have := q.unders n o h1
      rw [hk n this.1, hk o this.2]
      exact ⟨(q.under n o h1).1.mono g.fields, (q.under n o h1).2.mono g.fields g.entries⟩
    · exact h4
  · intro n
    by_cases ho : n < h.size
    · rw [g.role n ho]; exact (q.role n).mono g hk (q.ids n)
    · exact (hr n (by omega)).2

/-- What is given to an observer is disposed with its key containers. -/
theorem cover_given {h h' : Heap} {key : Nat → List Nat} {w o d : Nat} {s : Bool} (q : Keyed h key) (ho : h.ups o ≠ [])
    (he : ∀ p ∈ h.given o d s, p ∈ h'.entries) (hs : h'.Holds w d) : Cover h' w (key o) [d] := by
  intro x hx
  simp only [List.mem_singleton] at hx
  subst hx
  obtain ⟨a, l, e⟩ := List.exists_cons_of_ne_nil (q.some o ho)
  have ha : a ∈ key o := by simp [e]
  refine ⟨a, ha, .step (strong := s) (he _ (mem_given.2 ⟨q.sub o a ha, rfl⟩)) hs (.refl _)⟩

theorem Cover.trans {h : Heap} {w : Nat} {k l m : List Nat} (c : Cover h w k l) (d : Cover h w l m) : Cover h w k m := by
  intro x hx
  obtain ⟨a, ha, p⟩ := d x hx
  obtain ⟨b, hb, p'⟩ := c a ha
  exact ⟨b, hb, p'.trans p⟩

theorem Cover.step {h : Heap} {k : List Nat} {w d i : Nat} {s : Bool} (c : Cover h w k [d]) (e : (d, i, s) ∈ h.entries) (hs : h.Holds w i) : Cover h w k [i] := by
  intro x hx
  simp only [List.mem_singleton] at hx
  subst hx
  obtain ⟨a, ha, p⟩ := c d (by simp)
  exact ⟨a, ha, p.trans (.step e hs (.refl _))⟩

set_option hygiene false in
macro "gr" : tactic => `(tactic| (
  constructor
  · simp only; omega
  · intro p hp; simp only [List.mem_append]; grind
  · intro p hp; simp only [List.mem_append]; grind
  · intro o ho; first | rfl | (simp only [upd]; grind)
  · intro o ho; first | rfl | (simp only [upd]; grind)
  · intro o ho; first | exact fr o (by simp only at ho; omega) | (simp only [upd] at ho ⊢; grind)))

/-- One new observer `n`, its key containers `l`; the other new nodes are not observers. -/
theorem Keyed.observer {h h' : Heap} {key : Nat → List Nat} (q : Keyed h key) (g : Grow h h') {n : Nat} (hn : h.size ≤ n) (hn' : n < h'.size)
    {l : List Nat} (hl : ∀ x ∈ l, x ∈ h'.ups n) (hne : l ≠ [])
    (other : ∀ m, h.size ≤ m → m ≠ n → h'.ups m = [] ∧ h'.role m = .plain)
    (hid : ∀ x ∈ (h'.role n).ids, x < h'.size) (hr : RoleOk h' (upd key n l) (h'.role n))
    (hu : ∀ m o, (m, o) ∈ h'.under → (m, o) ∈ h.under ∨ (m = n ∧ o < h.size ∧ h'.Holds n o ∧ Cover h' n (key o) l)) : ∃ key', Keyed h' key' := by
  refine ⟨fun m => if h.size ≤ m ∧ m ≠ n then [] else upd key n l m, q.grow g _ ?_ ?_ ?_ ?_⟩
  · intro x hx; simp only [upd]; rw [if_neg (by omega), if_neg (by omega)]
  · intro m o hx
    rcases hu m o hx with h1 | ⟨rfl, h2, h4, h3⟩
    · exact .inl h1
    · refine .inr ⟨hn, hn', ?_, h4, ?_⟩
      · have := g.size; omega
      · simp only [upd]
        rw [if_neg (by omega), if_neg (by omega), if_neg (by simp)]
        simpa using h3
  · intro m hm
    by_cases e : m = n
    · subst e
      simp only [upd, ne_eq, not_true_eq_false, and_false, if_false, if_true]
      exact ⟨hl, fun _ => hne⟩
    · rw [if_pos ⟨hm, e⟩]
      exact ⟨by simp, fun hx => absurd (other m hm e).1 hx⟩
  · intro m hm
    by_cases e : m = n
    · subst e
      refine ⟨hid, ?_⟩
      have key_eq : ∀ o, o ∈ (h'.role m).ids → (h'.ups o ≠ []) → (if h.size ≤ o ∧ o ≠ m then [] else upd key m l o) = upd key m l o := by
        intro o _ ho
        by_cases c : h.size ≤ o ∧ o ≠ m
        · exact absurd (other o c.1 c.2).1 ho
        · rw [if_neg c]
      revert hr key_eq
      cases h'.role m <;> simp only [RoleOk, Role.ids, List.mem_cons, List.not_mem_nil, or_false] <;> intro hr key_eq
      case merge st d o | latest st d o | concat st d o | again st d o | queued st d o =>
        rw [key_eq o (by simp) hr.1]; exact hr
      case fwd st o b => exact hr
      case switch st o => rw [key_eq o (by simp) hr.1]; exact hr
      all_goals trivial
    · rw [(other m hm e).2]; exact ⟨by simp [Role.ids], trivial⟩

/-- New nodes which stand on nothing, or whose relation to what they stand on is not recorded. -/
theorem Keyed.aside {h h' : Heap} {key : Nat → List Nat} (q : Keyed h key) (g : Grow h h')
    (hr : ∀ n, h.size ≤ n → (∀ x ∈ (h'.role n).ids, x < h'.size) ∧ ∀ k, RoleOk h' k (h'.role n))
    (hu : h'.under = h.under) : ∃ key', Keyed h' key' := by
  refine ⟨fun m => if h.size ≤ m then h'.ups m else key m, q.grow g _ ?_ ?_ ?_ ?_⟩
  · intro x hx; rw [if_neg (by omega)]
  · intro m o hx; rw [hu] at hx; exact .inl hx
  · intro m hm
    rw [if_pos hm]
    exact ⟨fun x hx => hx, fun hx => hx⟩
  · intro m hm; exact ⟨(hr m hm).1, (hr m hm).2 _⟩


theorem upd_self {α : Type} {f : Nat → α} {i : Nat} {v : α} : upd f i v i = v := by simp [upd]
theorem upd_ne {α : Type} {f : Nat → α} {i j : Nat} {v : α} (h : j ≠ i) : upd f i v j = f j := by simp [upd, h]

theorem keyed_pass {h : Heap} {key : Nat → List Nat} {o : Nat} (q : Keyed h key) (ho : o < h.size) (hu : h.ups o ≠ []) :
    ∃ key', Keyed (h.pass o) key' := by
  have fr := q.fresh
  have g : Grow h (h.pass o) := by simp only [Heap.pass]; gr
  have hs := q.sub o
  have hk := q.some o hu
  have rn : (h.pass o).Holds (h.size) o := .field (by simp [Heap.pass])
  have ctop : Cover (h.pass o) (h.size) (key o) (key o) := .refl
  apply q.observer g (n := h.size) (l := key o)
  · omega
  · simp only [Heap.pass]; omega
  · simp only [Heap.pass, upd]; grind
  · grind
  · simp only [Heap.pass, upd]; grind
  · simp only [Heap.pass, upd]; grind [Role.ids]
  · simp only [Heap.pass]; rw [(fr (h.size) (by omega)).1]; trivial
  · intro m x hx
    simp only [Heap.pass, List.mem_append, List.mem_singleton, Prod.mk.injEq] at hx
    rcases hx with hx | ⟨rfl, rfl⟩
    · exact .inl hx
    · exact .inr ⟨rfl, ho, rn, ctop⟩

theorem keyed_merge {h : Heap} {key : Nat → List Nat} {o : Nat} (q : Keyed h key) (ho : o < h.size) (hu : h.ups o ≠ []) :
    ∃ key', Keyed (h.merge o) key' := by
  have fr := q.fresh
  have g : Grow h (h.merge o) := by simp only [Heap.merge]; gr
  have hs := q.sub o
  have hk := q.some o hu
  have rs : (h.merge o).Holds h.size o := .field (by simp [Heap.merge])
  have rt : (h.merge o).Holds (h.size + 2) h.size := .field (by simp [Heap.merge])
  have rn := rt.trans rs
  have c : Cover (h.merge o) h.size (key o) [h.size + 1] := cover_given (s := true) q hu (by intro p hp; simp only [Heap.merge, List.mem_append]; simp [hp]) (.field (by simp [Heap.merge]))
  have ctop := c.held rt
  apply q.observer g (n := h.size + 2) (l := [h.size + 1])
  · omega
  · simp only [Heap.merge]; omega
  · simp only [Heap.merge, upd]; grind
  · grind
  · simp only [Heap.merge, upd]; grind
  · simp only [Heap.merge, upd]; grind [Role.ids]
  · simp only [Heap.merge, upd_self, RoleOk, upd_ne (show o ≠ h.size + 2 by omega)]
    exact ⟨hu, rs, c⟩
  · intro m x hx
    simp only [Heap.merge, List.mem_append, List.mem_singleton, Prod.mk.injEq] at hx
    rcases hx with hx | ⟨rfl, rfl⟩
    · exact .inl hx
    · exact .inr ⟨rfl, ho, rn, ctop⟩

theorem keyed_latest {h : Heap} {key : Nat → List Nat} {o : Nat} (q : Keyed h key) (ho : o < h.size) (hu : h.ups o ≠ []) :
    ∃ key', Keyed (h.latest o) key' := by
  have fr := q.fresh
  have g : Grow h (h.latest o) := by simp only [Heap.latest]; gr
  have hs := q.sub o
  have hk := q.some o hu
  have rs : (h.latest o).Holds h.size o := .field (by simp [Heap.latest])
  have rt : (h.latest o).Holds (h.size + 2) h.size := .field (by simp [Heap.latest])
  have rn := rt.trans rs
  have c : Cover (h.latest o) h.size (key o) [h.size + 1] := cover_given (s := true) q hu (by intro p hp; simp only [Heap.latest, List.mem_append]; simp [hp]) (.field (by simp [Heap.latest]))
  have ctop := c.held rt
  apply q.observer g (n := h.size + 2) (l := [h.size + 1])
  · omega
  · simp only [Heap.latest]; omega
  · simp only [Heap.latest, upd]; grind
  · grind
  · simp only [Heap.latest, upd]; grind
  · simp only [Heap.latest, upd]; grind [Role.ids]
  · simp only [Heap.latest, upd_self, RoleOk, upd_ne (show o ≠ h.size + 2 by omega)]
    exact ⟨hu, rs, c⟩
  · intro m x hx
    simp only [Heap.latest, List.mem_append, List.mem_singleton, Prod.mk.injEq] at hx
    rcases hx with hx | ⟨rfl, rfl⟩
    · exact .inl hx
    · exact .inr ⟨rfl, ho, rn, ctop⟩

theorem keyed_combine {h : Heap} {key : Nat → List Nat} {o : Nat} (q : Keyed h key) (ho : o < h.size) (hu : h.ups o ≠ []) :
    ∃ key', Keyed (h.combine o) key' := by
  have fr := q.fresh
  have g : Grow h (h.combine o) := by simp only [Heap.combine]; gr
  have hs := q.sub o
  have hk := q.some o hu
  have rs : (h.combine o).Holds h.size o := .field (by simp [Heap.combine])
  have rt : (h.combine o).Holds (h.size + 1) h.size := .field (by simp [Heap.combine])
  have rn := rt.trans rs
  have ctop : Cover (h.combine o) (h.size + 1) (key o) (key o) := .refl
  apply q.observer g (n := h.size + 1) (l := key o)
  · omega
  · simp only [Heap.combine]; omega
  · simp only [Heap.combine, upd]; grind
  · grind
  · simp only [Heap.combine, upd]; grind
  · simp only [Heap.combine, upd]; grind [Role.ids]
  · simp only [Heap.combine, upd_self, RoleOk, upd_ne (show o ≠ h.size + 1 by omega)]
    exact ⟨hu, rs⟩
  · intro m x hx
    simp only [Heap.combine, List.mem_append, List.mem_singleton, Prod.mk.injEq] at hx
    rcases hx with hx | ⟨rfl, rfl⟩
    · exact .inl hx
    · exact .inr ⟨rfl, ho, rn, ctop⟩

theorem keyed_until {h : Heap} {key : Nat → List Nat} {o : Nat} (q : Keyed h key) (ho : o < h.size) (hu : h.ups o ≠ []) :
    ∃ key', Keyed (h.until o) key' := by
  have fr := q.fresh
  have g : Grow h (h.until o) := by simp only [Heap.until]; gr
  have hs := q.sub o
  have hk := q.some o hu
  have rs : (h.until o).Holds h.size o := .field (by simp [Heap.until])
  have rt : (h.until o).Holds (h.size + 1) h.size := .field (by simp [Heap.until])
  have rn := rt.trans rs
  have ctop : Cover (h.until o) (h.size + 1) (key o) (key o) := .refl
  apply q.observer g (n := h.size + 1) (l := key o)
  · omega
  · simp only [Heap.until]; omega
  · simp only [Heap.until, upd]; grind
  · grind
  · simp only [Heap.until, upd]; grind
  · simp only [Heap.until, upd]; grind [Role.ids]
  · simp only [Heap.until, upd_self, RoleOk, upd_ne (show o ≠ h.size + 1 by omega)]
    exact ⟨hu, rs⟩
  · intro m x hx
    simp only [Heap.until, List.mem_append, List.mem_singleton, Prod.mk.injEq] at hx
    rcases hx with hx | ⟨rfl, rfl⟩
    · exact .inl hx
    · exact .inr ⟨rfl, ho, rn, ctop⟩

theorem keyed_debounce {h : Heap} {key : Nat → List Nat} {o : Nat} (q : Keyed h key) (ho : o < h.size) (hu : h.ups o ≠ []) :
    ∃ key', Keyed (h.debounce o) key' := by
  have fr := q.fresh
  have g : Grow h (h.debounce o) := by simp only [Heap.debounce]; gr
  have hs := q.sub o
  have hk := q.some o hu
  have rs : (h.debounce o).Holds h.size o := .field (by simp [Heap.debounce])
  have rt : (h.debounce o).Holds (h.size + 1) h.size := .field (by simp [Heap.debounce])
  have rn := rt.trans rs
  have ctop : Cover (h.debounce o) (h.size + 1) (key o) (key o) := .refl
  apply q.observer g (n := h.size + 1) (l := key o)
  · omega
  · simp only [Heap.debounce]; omega
  · simp only [Heap.debounce, upd]; grind
  · grind
  · simp only [Heap.debounce, upd]; grind
  · simp only [Heap.debounce, upd]; grind [Role.ids]
  · simp only [Heap.debounce]; rw [(fr (h.size + 1) (by omega)).1]; trivial
  · intro m x hx
    simp only [Heap.debounce, List.mem_append, List.mem_singleton, Prod.mk.injEq] at hx
    rcases hx with hx | ⟨rfl, rfl⟩
    · exact .inl hx
    · exact .inr ⟨rfl, ho, rn, ctop⟩

theorem keyed_delay {h : Heap} {key : Nat → List Nat} {o : Nat} (q : Keyed h key) (ho : o < h.size) (hu : h.ups o ≠ []) :
    ∃ key', Keyed (h.delay o) key' := by
  have fr := q.fresh
  have g : Grow h (h.delay o) := by simp only [Heap.delay]; gr
  have hs := q.sub o
  have hk := q.some o hu
  have rs : (h.delay o).Holds h.size o := .field (by simp [Heap.delay])
  have rt : (h.delay o).Holds (h.size + 1) h.size := .field (by simp [Heap.delay])
  have rn := rt.trans rs
  have ctop : Cover (h.delay o) (h.size + 1) (key o) (key o) := .refl
  apply q.observer g (n := h.size + 1) (l := key o)
  · omega
  · simp only [Heap.delay]; omega
  · simp only [Heap.delay, upd]; grind
  · grind
  · simp only [Heap.delay, upd]; grind
  · simp only [Heap.delay, upd]; grind [Role.ids]
  · simp only [Heap.delay]; rw [(fr (h.size + 1) (by omega)).1]; trivial
  · intro m x hx
    simp only [Heap.delay, List.mem_append, List.mem_singleton, Prod.mk.injEq] at hx
    rcases hx with hx | ⟨rfl, rfl⟩
    · exact .inl hx
    · exact .inr ⟨rfl, ho, rn, ctop⟩

theorem keyed_timeout {h : Heap} {key : Nat → List Nat} {o : Nat} {l : List Nat} (q : Keyed h key) (ho : o < h.size) (hu : h.ups o ≠ []) :
    ∃ key', Keyed (h.timeout o l) key' := by
  have fr := q.fresh
  have g : Grow h (h.timeout o l) := by simp only [Heap.timeout]; gr
  have hs := q.sub o
  have hk := q.some o hu
  have rs : (h.timeout o l).Holds h.size o := .field (by simp [Heap.timeout])
  have rt : (h.timeout o l).Holds (h.size + 1) h.size := .field (by simp [Heap.timeout])
  have rn := rt.trans rs
  have c : Cover (h.timeout o l) h.size (key o) [h.size] := cover_given (s := false) q hu (by intro p hp; simp only [Heap.timeout, List.mem_append]; simp [hp]) (.refl _)
  have ctop := c.held rt
  apply q.observer g (n := h.size + 1) (l := [h.size])
  · omega
  · simp only [Heap.timeout]; omega
  · simp only [Heap.timeout, upd]; grind
  · grind
  · simp only [Heap.timeout, upd]; grind
  · simp only [Heap.timeout, upd]; grind [Role.ids]
  · simp only [Heap.timeout]; rw [(fr (h.size + 1) (by omega)).1]; trivial
  · intro m x hx
    simp only [Heap.timeout, List.mem_append, List.mem_singleton, Prod.mk.injEq] at hx
    rcases hx with hx | ⟨rfl, rfl⟩
    · exact .inl hx
    · exact .inr ⟨rfl, ho, rn, ctop⟩

theorem keyed_retry {h : Heap} {key : Nat → List Nat} {o : Nat} {l : List Nat} (q : Keyed h key) (ho : o < h.size) (hu : h.ups o ≠ []) :
    ∃ key', Keyed (h.retry o l) key' := by
  have fr := q.fresh
  have g : Grow h (h.retry o l) := by simp only [Heap.retry]; gr
  have hs := q.sub o
  have hk := q.some o hu
  have rs : (h.retry o l).Holds h.size o := .field (by simp [Heap.retry])
  have rt : (h.retry o l).Holds (h.size + 2) h.size := .field (by simp [Heap.retry])
  have rn := rt.trans rs
  have c : Cover (h.retry o l) h.size (key o) [h.size + 1] := cover_given (s := true) q hu (by intro p hp; simp only [Heap.retry, List.mem_append]; simp [hp]) (.field (by simp [Heap.retry]))
  have ctop := c.held rt
  apply q.observer g (n := h.size + 2) (l := [h.size + 1])
  · omega
  · simp only [Heap.retry]; omega
  · simp only [Heap.retry, upd]; grind
  · grind
  · simp only [Heap.retry, upd]; grind
  · simp only [Heap.retry, upd]; grind [Role.ids]
  · simp only [Heap.retry, upd_self, RoleOk, upd_ne (show o ≠ h.size + 2 by omega)]
    exact ⟨hu, rs, c⟩
  · intro m x hx
    simp only [Heap.retry, List.mem_append, List.mem_singleton, Prod.mk.injEq] at hx
    rcases hx with hx | ⟨rfl, rfl⟩
    · exact .inl hx
    · exact .inr ⟨rfl, ho, rn, ctop⟩

theorem keyed_switch {h : Heap} {key : Nat → List Nat} {o : Nat} (q : Keyed h key) (ho : o < h.size) (hu : h.ups o ≠ []) :
    ∃ key', Keyed (h.switch o) key' := by
  have fr := q.fresh
  have g : Grow h (h.switch o) := by simp only [Heap.switch]; gr
  have hs := q.sub o
  have hk := q.some o hu
  have rs : (h.switch o).Holds h.size o := .field (by simp [Heap.switch])
  have rt : (h.switch o).Holds (h.size + 2) h.size := .field (by simp [Heap.switch])
  have rn := rt.trans rs
  have c : Cover (h.switch o) h.size (key o) [h.size] := cover_given (s := false) q hu (by intro p hp; simp only [Heap.switch, List.mem_append]; simp [hp]) (.refl _)
  have ctop : Cover (h.switch o) (h.size + 2) (key o) [h.size + 1] := (c.held rt).step (s := false) (by simp [Heap.switch]) (.field (by simp [Heap.switch]))
  apply q.observer g (n := h.size + 2) (l := [h.size + 1])
  · omega
  · simp only [Heap.switch]; omega
  · simp only [Heap.switch, upd]; grind
  · grind
  · simp only [Heap.switch, upd]; grind
  · simp only [Heap.switch, upd]; grind [Role.ids]
  · simp only [Heap.switch, upd_self, RoleOk, upd_ne (show o ≠ h.size + 2 by omega)]
    exact ⟨hu, rs, c⟩
  · intro m x hx
    simp only [Heap.switch, List.mem_append, List.mem_singleton, Prod.mk.injEq] at hx
    rcases hx with hx | ⟨rfl, rfl⟩
    · exact .inl hx
    · exact .inr ⟨rfl, ho, rn, ctop⟩

theorem keyed_concat {h : Heap} {key : Nat → List Nat} {o : Nat} (q : Keyed h key) (ho : o < h.size) (hu : h.ups o ≠ []) :
    ∃ key', Keyed (h.concat o) key' := by
  have fr := q.fresh
  have g : Grow h (h.concat o) := by simp only [Heap.concat]; gr
  have hs := q.sub o
  have hk := q.some o hu
  have rs : (h.concat o).Holds h.size o := .field (by simp [Heap.concat])
  have rt : (h.concat o).Holds (h.size + 3) h.size := .field (by simp [Heap.concat])
  have rn := rt.trans rs
  have c : Cover (h.concat o) h.size (key o) [h.size + 1] := cover_given (s := true) q hu (by intro p hp; simp only [Heap.concat, List.mem_append]; simp [hp]) (.field (by simp [Heap.concat]))
  have ctop : Cover (h.concat o) (h.size + 3) (key o) [h.size + 2] := (c.held rt).step (s := true) (by simp [Heap.concat]) (.field (by simp [Heap.concat]))
  apply q.observer g (n := h.size + 3) (l := [h.size + 2])
  · omega
  · simp only [Heap.concat]; omega
  · simp only [Heap.concat, upd]; grind
  · grind
  · simp only [Heap.concat, upd]; grind
  · simp only [Heap.concat, upd]; grind [Role.ids]
  · simp only [Heap.concat, upd_self, RoleOk, upd_ne (show o ≠ h.size + 3 by omega)]
    exact ⟨hu, rs, c⟩
  · intro m x hx
    simp only [Heap.concat, List.mem_append, List.mem_singleton, Prod.mk.injEq] at hx
    rcases hx with hx | ⟨rfl, rfl⟩
    · exact .inl hx
    · exact .inr ⟨rfl, ho, rn, ctop⟩

theorem via {P : Heap → Prop} (h : Heap) (H : ∀ x, x = h → P x) : P h := H h rfl

theorem keyed_inner {h : Heap} {key : Nat → List Nat} {k : Nat} (q : Keyed h key) : ∃ key', Keyed (h.inner k) key' := by
  have fr := q.fresh
  have hid := q.ids k
  have hrole := q.role k
  unfold Heap.inner
  cases hr : h.role k <;> simp only [hr, Role.ids, List.mem_cons, List.not_mem_nil, or_false, forall_eq_or_imp, forall_eq, RoleOk] at hid hrole ⊢ <;> try exact ⟨key, q⟩
  case merge st d o | latest st d o =>
    refine via (P := fun h' => ∃ key', Keyed h' key') _ ?_
    intro h' e
    have g : Grow h h' := by subst e; gr
    have rt : h'.Holds h.size st := .field (by subst e; simp)
    have rs : h'.Holds st o := hrole.2.1.mono g.fields
    have cs : Cover h' st (key o) [d] := hrole.2.2.mono g.fields g.entries
    have c := cs.held rt
    apply q.observer g (n := h.size) (l := [d])
    · omega
    · subst e; simp only; omega
    · subst e; simp only [upd]; grind
    · first | exact hk | simp
    · subst e; simp only [upd]; grind
    · subst e; simp only [(fr h.size (by omega)).1]; simp [Role.ids]
    · subst e; simp only [(fr h.size (by omega)).1]; trivial
    · intro m x hx
      have hx : (m, x) ∈ h.under ++ [(h.size, o)] := by subst e; exact hx
      simp only [List.mem_append, List.mem_singleton, Prod.mk.injEq] at hx
      rcases hx with hx | ⟨rfl, rfl⟩
      · exact .inl hx
      · exact .inr ⟨rfl, by omega, rt.trans rs, c⟩
  case again st d o =>
    refine via (P := fun h' => ∃ key', Keyed h' key') _ ?_
    intro h' e
    have g : Grow h h' := by subst e; gr
    have rt : h'.Holds h.size st := .field (by subst e; simp)
    have rs : h'.Holds st o := hrole.2.1.mono g.fields
    have cs : Cover h' st (key o) [d] := hrole.2.2.mono g.fields g.entries
    have c := cs.held rt
    apply q.observer g (n := h.size) (l := [d])
    · omega
    · subst e; simp only; omega
    · subst e; simp only [upd]; grind
    · first | exact hk | simp
    · subst e; simp only [upd]; grind
    · subst e; simp only [upd_self]; simp only [Role.ids]; grind
    · have hu : h'.ups o = h.ups o := g.ups o (by omega)
      have hr' : h'.role h.size = .again st d o := by subst e; simp only [upd_self]
      rw [hr']
      simp only [RoleOk, upd_ne (show o ≠ h.size by omega), hu]
      exact ⟨hrole.1, rs, cs⟩
    · intro m x hx
      have hx : (m, x) ∈ h.under ++ [(h.size, o)] := by subst e; exact hx
      simp only [List.mem_append, List.mem_singleton, Prod.mk.injEq] at hx
      rcases hx with hx | ⟨rfl, rfl⟩
      · exact .inl hx
      · exact .inr ⟨rfl, by omega, rt.trans rs, c⟩
  case fwd st o b =>
    have hs := q.sub o
    have hk := q.some o hrole.1
    refine via (P := fun h' => ∃ key', Keyed h' key') _ ?_
    intro h' e
    have g : Grow h h' := by subst e; gr
    have rt : h'.Holds h.size st := .field (by subst e; simp)
    have rs : h'.Holds st o := hrole.2.mono g.fields
    have c : Cover h' h.size (key o) (key o) := .refl
    apply q.observer g (n := h.size) (l := key o)
    · omega
    · subst e; simp only; omega
    · subst e; simp only [upd]; grind
    · first | exact hk | simp
    · subst e; simp only [upd]; grind
    · subst e; simp only [(fr h.size (by omega)).1]; simp [Role.ids]
    · subst e; simp only [(fr h.size (by omega)).1]; trivial
    · intro m x hx
      have hx : (m, x) ∈ h.under ++ [(h.size, o)] := by subst e; exact hx
      simp only [List.mem_append, List.mem_singleton, Prod.mk.injEq] at hx
      rcases hx with hx | ⟨rfl, rfl⟩
      · exact .inl hx
      · exact .inr ⟨rfl, by omega, rt.trans rs, c⟩
  case concat st z o =>
    refine via (P := fun h' => ∃ key', Keyed h' key') _ ?_
    intro h' e
    have g : Grow h h' := by subst e; gr
    have rt : h'.Holds h.size st := .field (by subst e; simp)
    have ri : h'.Holds h.size (h.size + 1) := .field (by subst e; simp)
    have rs : h'.Holds st o := hrole.2.1.mono g.fields
    have cs : Cover h' st (key o) [z] := hrole.2.2.mono g.fields g.entries
    have ce : (z, h.size + 1, true) ∈ h'.entries := by subst e; simp
    apply q.observer g (n := h.size) (l := [(h.size + 1)])
    · omega
    · subst e; simp only; omega
    · subst e; simp only [upd]; grind
    · simp
    · subst e; simp only [upd]; grind
    · subst e; simp only [upd_self]; simp only [Role.ids]; grind
    · have hu : h'.ups o = h.ups o := g.ups o (by omega)
      have hr' : h'.role h.size = .queued st ((h.size + 1)) o := by subst e; simp only [upd_self]
      rw [hr']
      simp only [RoleOk, upd_ne (show o ≠ h.size by omega), hu]
      exact ⟨hrole.1, rs, z, cs, ce⟩
    · intro m x hx
      have hx : (m, x) ∈ h.under ++ [(h.size, o)] := by subst e; exact hx
      simp only [List.mem_append, List.mem_singleton, Prod.mk.injEq] at hx
      rcases hx with hx | ⟨rfl, rfl⟩
      · exact .inl hx
      · exact .inr ⟨rfl, by omega, rt.trans rs, (cs.held rt).step ce ri⟩
  case queued st i o =>
    refine via (P := fun h' => ∃ key', Keyed h' key') _ ?_
    intro h' e
    have g : Grow h h' := by subst e; gr
    have rt : h'.Holds h.size st := .field (by subst e; simp)
    have ri : h'.Holds h.size i := .field (by subst e; simp)
    have rs : h'.Holds st o := hrole.2.1.mono g.fields
    obtain ⟨z, hc1, hc2⟩ := hrole.2.2
    have cs : Cover h' st (key o) [z] := hc1.mono g.fields g.entries
    have ce : (z, i, true) ∈ h'.entries := g.entries _ hc2
    apply q.observer g (n := h.size) (l := [i])
    · omega
    · subst e; simp only; omega
    · subst e; simp only [upd]; grind
    · simp
    · subst e; simp only [upd]; grind
    · subst e; simp only [upd_self]; simp only [Role.ids]; grind
    · have hu : h'.ups o = h.ups o := g.ups o (by omega)
      have hr' : h'.role h.size = .queued st (i) o := by subst e; simp only [upd_self]
      rw [hr']
      simp only [RoleOk, upd_ne (show o ≠ h.size by omega), hu]
      exact ⟨hrole.1, rs, z, cs, ce⟩
    · intro m x hx
      have hx : (m, x) ∈ h.under ++ [(h.size, o)] := by subst e; exact hx
      simp only [List.mem_append, List.mem_singleton, Prod.mk.injEq] at hx
      rcases hx with hx | ⟨rfl, rfl⟩
      · exact .inl hx
      · exact .inr ⟨rfl, by omega, rt.trans rs, (cs.held rt).step ce ri⟩
  case switch st o =>
    refine via (P := fun h' => ∃ key', Keyed h' key') _ ?_
    intro h' e
    have g : Grow h h' := by subst e; gr
    have rt : h'.Holds h.size st := .field (by subst e; simp)
    have rs : h'.Holds st o := hrole.2.1.mono g.fields
    have c : Cover h' h.size (key o) [h.size + 1] := ((hrole.2.2.mono g.fields g.entries).held rt).step (s := false) (by subst e; simp) (.field (by subst e; simp))
    apply q.observer g (n := h.size) (l := [h.size + 1])
    · omega
    · subst e; simp only; omega
    · subst e; simp only [upd]; grind
    · first | exact hk | simp
    · subst e; simp only [upd]; grind
    · subst e; simp only [(fr h.size (by omega)).1]; simp [Role.ids]
    · subst e; simp only [(fr h.size (by omega)).1]; trivial
    · intro m x hx
      have hx : (m, x) ∈ h.under ++ [(h.size, o)] := by subst e; exact hx
      simp only [List.mem_append, List.mem_singleton, Prod.mk.injEq] at hx
      rcases hx with hx | ⟨rfl, rfl⟩
      · exact .inl hx
      · exact .inr ⟨rfl, by omega, rt.trans rs, c⟩

macro "as" : tactic => `(tactic| (
  intro n hn
  simp only [upd]
  constructor
  · grind [Role.ids]
  · intro k; grind [RoleOk]))

theorem keyed_part {h : Heap} {key : Nat → List Nat} {k : Nat} (q : Keyed h key) : ∃ key', Keyed (h.part k) key' := by
  have fr := q.fresh
  have hid := q.ids k
  unfold Heap.part
  cases hr : h.role k <;> simp only [hr, Role.ids, List.mem_cons, List.not_mem_nil, or_false, forall_eq_or_imp, forall_eq] at hid ⊢ <;> try exact ⟨key, q⟩
  case split d b => exact q.aside (by gr) (by as) rfl
  case toggle st d => exact q.aside (by gr) (by as) rfl

theorem keyed_listen {h : Heap} {key : Nat → List Nat} {s w : Nat} (q : Keyed h key) : ∃ key', Keyed (h.listen s w) key' := by
  have fr := q.fresh
  unfold Heap.listen
  exact q.aside (by gr) (by as) rfl

theorem keyed_addRef {h : Heap} {key : Nat → List Nat} {d w : Nat} (q : Keyed h key) : ∃ key', Keyed (h.addRef d w) key' := by
  have fr := q.fresh
  unfold Heap.addRef
  exact q.aside (by gr) (by as) rfl

theorem keyed_wrap {h : Heap} {key : Nat → List Nat} {w i : Nat} (q : Keyed h key) : ∃ key', Keyed (h.wrap w i) key' := by
  have fr := q.fresh
  unfold Heap.wrap
  exact q.aside (by gr) (by as) rfl

theorem keyed_attach {h : Heap} {key : Nat → List Nat} {g w : Nat} (q : Keyed h key) : ∃ key', Keyed (h.attach g w) key' := by
  unfold Heap.attach
  cases h.role g <;> try exact ⟨key, q⟩
  case part s d b =>
    obtain ⟨k1, q1⟩ := keyed_addRef (d := d) (w := w) q
    cases b
    · exact keyed_listen q1
    · obtain ⟨k2, q2⟩ := keyed_wrap (w := w) (i := h.size) q1
      exact keyed_listen q2
  case shared s d =>
    obtain ⟨k1, q1⟩ := keyed_addRef (d := d) (w := w) q
    exact keyed_listen q1

theorem keyed_step {h : Heap} {key : Nat → List Nat} {op : Op} (q : Keyed h key) (hc : op.isCut = false) : ∃ key', Keyed (step h op) key' := by
  unfold step
  by_cases hok : op.ok h
  · rw [if_pos hok]
    obtain ⟨ha, hb, ho⟩ := hok
    have fr := q.fresh
    cases op <;> simp only [Op.isCut, reduceCtorEq] at hc <;>
      simp only [Op.args, Op.subjects, Op.observers, List.mem_cons, List.not_mem_nil, or_false, forall_eq_or_imp, forall_eq] at ha hb ho <;> simp only [Heap.apply]
    case sink => unfold Heap.sink; exact q.aside (by gr) (by as) rfl
    case sinkWith => unfold Heap.sinkWith; exact q.aside (by gr) (by as) rfl
    case pass o => exact keyed_pass q ha ho
    case final o => unfold Heap.final; exact q.aside (by gr) (by as) rfl
    case merge o => exact keyed_merge q ha ho
    case latest o => exact keyed_latest q ha ho
    case combine o => exact keyed_combine q ha ho
    case «until» o => exact keyed_until q ha ho
    case debounce o => exact keyed_debounce q ha ho
    case delay o => exact keyed_delay q ha ho
    case timeout o l => exact keyed_timeout q ha.1 ho
    case retry o l => exact keyed_retry q ha.1 ho
    case switch o => exact keyed_switch q ha ho
    case concat o => exact keyed_concat q ha ho
    case split o b => unfold Heap.split; exact q.aside (by gr) (by as) rfl
    case toggle o => unfold Heap.toggle; exact q.aside (by gr) (by as) rfl
    case inner n => exact keyed_inner q
    case part n => exact keyed_part q
    case subject => unfold Heap.subject; exact q.aside (by gr) (by as) rfl
    case entry s => unfold Heap.entry; exact q.aside (by gr) (by as) rfl
    case listen s o => exact keyed_listen q
    case attach g o => exact keyed_attach q
    case share s => unfold Heap.share; exact q.aside (by gr) (by as) rfl
    case source o l => unfold Heap.source; exact q.aside (by gr) (by as) rfl
    case store a b => unfold Heap.store; exact q.aside (by gr) (by as) rfl
  · rw [if_neg hok]; exact ⟨key, q⟩

theorem keyed_foldl {ops : List Op} {h : Heap} {key : Nat → List Nat} (q : Keyed h key) (hc : ∀ op ∈ ops, op.isCut = false) :
    ∃ key', Keyed (ops.foldl step h) key' := by
  induction ops generalizing h key with
  | nil => exact ⟨key, q⟩
  | cons op ops ih =>
    obtain ⟨k1, q1⟩ := keyed_step q (hc op (by simp))
    exact ih q1 (fun o ho => hc o (by simp [ho]))

theorem entries_step {h : Heap} {op : Op} (hc : op.isCut = false) : ∀ p ∈ h.entries, p ∈ (step h op).entries := by
  intro p hp
  unfold step
  by_cases hok : op.ok h
  · rw [if_pos hok]
    cases op <;> simp only [Op.isCut, reduceCtorEq] at hc <;> simp only [Heap.apply]
    case inner n =>
      unfold Heap.inner
      split <;> (try split) <;> simp [hp]
    case part n =>
      unfold Heap.part
      split <;> simp [hp]
    case attach g w =>
      unfold Heap.attach
      split <;> simp [Heap.listen, Heap.addRef, Heap.wrap, hp]
    all_goals simp [Heap.sink, Heap.sinkWith, Heap.pass, Heap.final, Heap.merge, Heap.latest, Heap.combine, Heap.until, Heap.debounce, Heap.delay, Heap.timeout, Heap.retry, Heap.switch, Heap.concat, Heap.split, Heap.toggle, Heap.subject, Heap.entry, Heap.listen, Heap.share, Heap.source, Heap.store, hp]
  · rw [if_neg hok]; exact hp

theorem entries_foldl {ops : List Op} {h : Heap} (hc : ∀ op ∈ ops, op.isCut = false) : ∀ p ∈ h.entries, p ∈ (ops.foldl step h).entries := by
  induction ops generalizing h with
  | nil => exact fun p hp => hp
  | cons op ops ih => exact fun p hp => ih (fun o ho => hc o (by simp [ho])) p (entries_step (hc op (by simp)) p hp)

theorem fields_step {h : Heap} {op : Op} (hc : op.isCut = false) : ∀ p ∈ h.fields, p ∈ (step h op).fields := by
  intro p hp
  unfold step
  by_cases hok : op.ok h
  · rw [if_pos hok]
    cases op <;> simp only [Op.isCut, reduceCtorEq] at hc <;> simp only [Heap.apply]
    case inner n =>
      unfold Heap.inner
      split <;> (try split) <;> simp [hp]
    case part n =>
      unfold Heap.part
      split <;> simp [hp]
    case attach g w =>
      unfold Heap.attach
      split <;> simp [Heap.listen, Heap.addRef, Heap.wrap, hp]
    all_goals simp [Heap.sink, Heap.sinkWith, Heap.pass, Heap.final, Heap.merge, Heap.latest, Heap.combine, Heap.until, Heap.debounce, Heap.delay, Heap.timeout, Heap.retry, Heap.switch, Heap.concat, Heap.split, Heap.toggle, Heap.subject, Heap.entry, Heap.listen, Heap.share, Heap.source, Heap.store, hp]
  · rw [if_neg hok]; exact hp

theorem fields_foldl {ops : List Op} {h : Heap} (hc : ∀ op ∈ ops, op.isCut = false) : ∀ p ∈ h.fields, p ∈ (ops.foldl step h).fields := by
  induction ops generalizing h with
  | nil => exact fun p hp => hp
  | cons op ops ih => exact fun p hp => ih (fun o ho => hc o (by simp [ho])) p (fields_step (hc op (by simp)) p hp)

/-- **C91**, when nothing is dropped. Whatever a source gives to an observer `n` standing on top of a subscriber `s` — through any number of operators, as the main source, as an inner one or as a further attempt — is disposed when the subscriber's container is: there is a way through the containers from one of `s` to it, whose weak references cannot have expired as long as the source holds `n`, and it stays as long as nobody drops a reference on it. `group_by`, `window`, `window_toggle` and `ref_count` count references instead (C48, C51) and are not passed through. -/
theorem disposed_all (ops more : List Op) (n s : Nat) (kept : List Nat) (hc : ∀ op ∈ ops, op.isCut = false) (hm : ∀ op ∈ more, op.isCut = false)
    (up : (exec ops).Above n s) (hok : (Op.source n kept).ok (exec ops)) :
    ∃ a ∈ (exec ops).ups s, (exec (ops ++ .source n kept :: more)).Disposes n a (exec ops).size := by
  obtain ⟨key, q⟩ := keyed_foldl Keyed.init hc
  have q : Keyed (exec ops) key := q
  have e : exec (ops ++ .source n kept :: more) = more.foldl step ((exec ops).source n kept) := by
    have : step (exec ops) (.source n kept) = (exec ops).source n kept := if_pos hok
    rw [← this]
    simp only [exec, List.foldl_append, List.foldl_cons]
  have hn : (exec ops).ups n ≠ [] := hok.2.2 n (by simp [Op.observers])
  have top : ∀ m o, (exec ops).Above m o → (exec ops).Holds m o ∧ Cover (exec ops) m (key o) (key m) := by
    intro m o p
    induction p with
    | refl n => exact ⟨.refl n, .refl⟩
    | step e _ ih =>
      obtain ⟨r, c⟩ := q.under _ _ e
      exact ⟨r.trans ih.1, (ih.2.held r).trans c⟩
  obtain ⟨x, l, el⟩ := List.exists_cons_of_ne_nil (q.some n hn)
  have hx : x ∈ key n := by simp [el]
  have hd : (x, (exec ops).size, true) ∈ ((exec ops).source n kept).entries := by
    simp only [Heap.source, List.mem_append]
    exact .inr (mem_given.2 ⟨q.sub n x hx, rfl⟩)
  have c2 : Cover ((exec ops).source n kept) n (key s) (key n) :=
    (top n s up).2.mono (by intro p hp; simp [Heap.source, hp]) (by intro p hp; simp [Heap.source, hp])
  obtain ⟨a, ha, p⟩ := c2 x hx
  refine ⟨a, q.sub s a ha, x, ?_, ?_⟩
  · rw [e]; exact p.mono (fields_foldl hm) (entries_foldl hm)
  · rw [e]; exact entries_foldl hm _ hd

/-- A subscriber (0), merge (1-3), switch_on_next on it (4-6), an inner observable of that (7, 8), timeout on that (9, 10), zip on that (11, 12) and a further observable of the zip (13): the source's disposable (14) is disposed over three weak references. -/
example : (Op.source 13 []).ok (exec [.sink, .merge 0, .switch 3, .inner 6, .timeout 7 [], .combine 10, .inner 12]) ∧
    (exec [.sink, .merge 0, .switch 3, .inner 6, .timeout 7 [], .combine 10, .inner 12]).Above 13 0 := by
  refine ⟨by decide, ?_⟩
  exact .step (m := 10) (by decide) (.step (m := 7) (by decide) (.step (m := 3) (by decide) (.step (m := 0) (by decide) (.refl 0))))

/-! ## References dropped meanwhile -/

/-- `h` is `g` but for references to objects in `c`. -/
structure Sim (c : Nat → Prop) (h g : Heap) : Prop where
  size : h.size = g.size
  ups : h.ups = g.ups
  role : h.role = g.role
  under : h.under = g.under
  fields : ∀ p ∈ g.fields, ¬ c p.2 → p ∈ h.fields
  entries : ∀ p ∈ g.entries, ¬ c p.2.1 → p ∈ h.entries

theorem Sim.ok {c : Nat → Prop} {h g : Heap} (q : Sim c h g) (op : Op) : op.ok h ↔ op.ok g := by
  unfold Op.ok; rw [q.size, q.ups, q.role]

macro "sm" : tactic => `(tactic| (
  refine ⟨rfl, rfl, rfl, rfl, ?_, ?_⟩
  · intro p hp hc
    simp only [List.mem_append] at hp ⊢
    grind
  · intro p hp hc
    simp only [Heap.given, List.mem_append] at hp ⊢
    grind))

theorem sim_listen {c : Nat → Prop} {h g : Heap} {s w : Nat} (q : Sim c h g) : Sim c (h.listen s w) (g.listen s w) := by
  obtain ⟨n, f, e, u, r, un⟩ := h
  obtain ⟨n', f', e', u', r', un'⟩ := g
  obtain ⟨rfl, rfl, rfl, rfl, q5, q6⟩ := q
  simp only at q5 q6
  simp only [Heap.listen]; sm

theorem sim_addRef {c : Nat → Prop} {h g : Heap} {d w : Nat} (q : Sim c h g) : Sim c (h.addRef d w) (g.addRef d w) := by
  obtain ⟨n, f, e, u, r, un⟩ := h
  obtain ⟨n', f', e', u', r', un'⟩ := g
  obtain ⟨rfl, rfl, rfl, rfl, q5, q6⟩ := q
  simp only at q5 q6
  simp only [Heap.addRef]; sm

theorem sim_wrap {c : Nat → Prop} {h g : Heap} {w i : Nat} (q : Sim c h g) : Sim c (h.wrap w i) (g.wrap w i) := by
  obtain ⟨n, f, e, u, r, un⟩ := h
  obtain ⟨n', f', e', u', r', un'⟩ := g
  obtain ⟨rfl, rfl, rfl, rfl, q5, q6⟩ := q
  simp only at q5 q6
  simp only [Heap.wrap]; sm

theorem sim_attach {c : Nat → Prop} {h g : Heap} {k w : Nat} (q : Sim c h g) : Sim c (h.attach k w) (g.attach k w) := by
  unfold Heap.attach
  rw [q.role, q.size]
  cases g.role k <;> try exact q
  case part s d b =>
    cases b
    · exact sim_listen (sim_addRef q)
    · exact sim_listen (sim_wrap (sim_addRef q))
  case shared s d => exact sim_listen (sim_addRef q)

theorem sim_apply {c : Nat → Prop} {h g : Heap} {op : Op} (q : Sim c h g) (hc : op.isCut = false) : Sim c (h.apply op) (g.apply op) := by
  have q0 := q
  obtain ⟨n, f, e, u, r, un⟩ := h
  obtain ⟨n', f', e', u', r', un'⟩ := g
  obtain ⟨rfl, rfl, rfl, rfl, q5, q6⟩ := q
  simp only at q5 q6
  cases op <;> simp only [Op.isCut, reduceCtorEq] at hc <;> simp only [Heap.apply]
  case attach k w => exact sim_attach q0
  case inner k =>
    unfold Heap.inner
    simp only
    split <;> first | exact q0 | sm
  case part k =>
    unfold Heap.part
    simp only
    split <;> first | exact q0 | sm
  case sink => simp only [Heap.sink]; sm
  case sinkWith => simp only [Heap.sinkWith]; sm
  case pass o => simp only [Heap.pass]; sm
  case final o => simp only [Heap.final]; sm
  case merge o => simp only [Heap.merge]; sm
  case latest o => simp only [Heap.latest]; sm
  case combine o => simp only [Heap.combine]; sm
  case «until» o => simp only [Heap.until]; sm
  case debounce o => simp only [Heap.debounce]; sm
  case delay o => simp only [Heap.delay]; sm
  case timeout o l => simp only [Heap.timeout]; sm
  case retry o l => simp only [Heap.retry]; sm
  case switch o => simp only [Heap.switch]; sm
  case concat o => simp only [Heap.concat]; sm
  case split o b => simp only [Heap.split]; sm
  case toggle o => simp only [Heap.toggle]; sm
  case subject => simp only [Heap.subject]; sm
  case entry s => simp only [Heap.entry]; sm
  case listen s o => exact sim_listen q0
  case share s => simp only [Heap.share]; sm
  case source o l => simp only [Heap.source]; sm
  case store a b => simp only [Heap.store]; sm

theorem sim_cut {c : Nat → Prop} {h g : Heap} {a b : Nat} (q : Sim c h g) (hb : c b) : Sim c (step h (.cut a b)) g := by
  unfold step
  split
  · simp only [Heap.apply]
    unfold Heap.cut
    split
    · exact q
    · refine ⟨q.size, q.ups, q.role, q.under, ?_, ?_⟩
      · intro p hp hc
        refine List.mem_filter.2 ⟨q.fields p hp hc, ?_⟩
        simp only [decide_eq_true_eq]
        rintro rfl
        exact hc hb
      · intro p hp hc
        refine List.mem_filter.2 ⟨q.entries p hp hc, ?_⟩
        simp only [decide_eq_true_eq]
        rintro ⟨_, rfl⟩
        exact hc hb
  · exact q

theorem sim_foldl {c : Nat → Prop} {ops : List Op} {h g : Heap} (q : Sim c h g) (hc : ∀ a b, Op.cut a b ∈ ops → c b) :
    Sim c (ops.foldl step h) ((ops.filter (fun op => !op.isCut)).foldl step g) := by
  induction ops generalizing h g with
  | nil => exact q
  | cons op ops ih =>
    have hc' : ∀ a b, Op.cut a b ∈ ops → c b := fun a b hm => hc a b (by simp [hm])
    by_cases hcut : op.isCut
    · rw [List.filter_cons_of_neg (by simp [hcut])]
      cases op <;> simp only [Op.isCut, Bool.false_eq_true] at hcut
      case cut a b => exact ih (sim_cut q (hc a b (by simp))) hc'
    · rw [List.filter_cons_of_pos (by simp [hcut])]
      refine ih ?_ hc'
      unfold step
      by_cases hok : op.ok h
      · rw [if_pos hok, if_pos ((q.ok op).1 hok)]
        exact sim_apply q (by simpa using hcut)
      · rw [if_neg hok, if_neg (fun hx => hok ((q.ok op).2 hx))]; exact q

theorem Heap.Holds.sim {c : Nat → Prop} {h g : Heap} (q : Sim c h g) {w a b : Nat} (ha : g.Holds w a) (p : g.Holds a b) (hc : ∀ x, g.Holds w x → ¬ c x) :
    h.Holds a b := by
  induction p with
  | refl a => exact .refl a
  | step e p ih =>
    have hb : g.Holds w _ := ha.trans (.field e)
    exact .step (q.fields _ e (hc _ hb)) (ih hb)

theorem Heap.Chain.sim {c : Nat → Prop} {h g : Heap} (q : Sim c h g) {w a b : Nat} (p : g.Chain w a b) (hc : ∀ x, g.Holds w x → ¬ c x) :
    h.Chain w a b := by
  induction p with
  | refl a => exact .refl a
  | step e s p ih => exact .step (q.entries _ e (hc _ s)) (Holds.sim q (.refl w) s hc) ih

theorem Heap.Above.sim {c : Nat → Prop} {h g : Heap} (q : Sim c h g) {n s : Nat} (p : h.Above n s) : g.Above n s := by
  induction p with
  | refl n => exact .refl n
  | step e _ ih => exact .step (by rw [← q.under]; exact e) ih

/-- The same operations without the drops. -/
def undropped (ops : List Op) : List Op := ops.filter (fun op => !op.isCut)

/-- **C91.** Whatever a source gives to an observer `n` standing on top of a subscriber `s` — through any number of operators, as the main source, as an inner one or as a further attempt — is disposed when the subscriber's container is: there is a way through the containers from one of `s` to it, whose weak references cannot have expired as long as the source holds `n`. Whatever other references are dropped before or after, it stays as long as those dropped are not to the source's disposable or to something `n` holds through its members. `group_by`, `window`, `window_toggle` and `ref_count` count references instead (C48, C51) and are not passed through. -/
theorem C91_disposed (ops more : List Op) (n s : Nat) (kept : List Nat) (up : (exec ops).Above n s) (hok : (Op.source n kept).ok (exec ops))
    (drop : ∀ a b, Op.cut a b ∈ ops ++ more → b ≠ (exec ops).size ∧ ¬ (exec (undropped (ops ++ .source n kept :: more))).Holds n b) :
    ∃ a ∈ (exec ops).ups s, (exec (ops ++ .source n kept :: more)).Disposes n a (exec ops).size := by
  let c : Nat → Prop := fun b => ∃ a, Op.cut a b ∈ ops ++ more
  have q0 : Sim c {} {} := ⟨rfl, rfl, rfl, rfl, by simp, by simp⟩
  have q1 : Sim c (exec ops) (exec (undropped ops)) := sim_foldl q0 (fun a b hm => ⟨a, by simp [hm]⟩)
  have q2 : Sim c (exec (ops ++ .source n kept :: more)) (exec (undropped (ops ++ .source n kept :: more))) :=
    sim_foldl q0 (fun a b hm => ⟨a, by simpa using hm⟩)
  have e : undropped (ops ++ .source n kept :: more) = undropped ops ++ .source n kept :: undropped more := by
    simp [undropped, Op.isCut, List.filter_cons]
  have hu : ∀ l, ∀ op ∈ undropped l, op.isCut = false := by
    intro l op hop; simpa [undropped] using (List.mem_filter.1 hop).2
  have up' : (exec (undropped ops)).Above n s := up.sim q1
  obtain ⟨a, ha, x, p, hx⟩ := disposed_all (undropped ops) (undropped more) n s kept (hu _) (hu _) up' ((q1.ok _).1 hok)
  rw [← e] at p hx
  have hc : ∀ x, (exec (undropped (ops ++ .source n kept :: more))).Holds n x → ¬ c x := fun x hx ⟨a, hm⟩ => (drop a x hm).2 hx
  refine ⟨a, by rw [q1.ups]; exact ha, x, p.sim q2 hc, ?_⟩
  rw [q1.size]
  refine q2.entries _ hx ?_
  rintro ⟨a, hm⟩
  exact (drop a _ hm).1 q1.size.symm

/-- The observer of a merge (1-3) is given a source's disposable (5), an inner observable (4) and its disposable (6). The inner one ends, its disposable is dropped from merge's composite; the main one is still disposed with the subscriber. -/
example : (Op.source 3 []).ok (exec [.sink, .merge 0, .inner 3]) ∧ (exec [.sink, .merge 0, .inner 3]).Above 3 0 ∧
    Op.cut 2 6 ∈ [Op.source 4 [], .cut 2 6] ∧ (2, 6, true) ∉ (exec [.sink, .merge 0, .inner 3, .source 3 [], .source 4 [], .cut 2 6]).entries ∧
    ¬ (exec (undropped ([.sink, .merge 0, .inner 3] ++ .source 3 [] :: [.source 4 [], .cut 2 6]))).Holds 3 6 := by
  refine ⟨by decide, .step (m := 0) (by decide) (.refl 0), by decide, by decide, ?_⟩
  intro p
  have : ∀ a b, (exec (undropped ([.sink, .merge 0, .inner 3] ++ .source 3 [] :: [.source 4 [], .cut 2 6]))).Holds a b → b = 6 → a = 6 := by
    intro a b p
    induction p with
    | refl a => exact id
    | step e _ ih =>
      intro hb
      have := ih hb
      subst this
      revert e; exact (by simp [undropped, Op.isCut, exec, step, Op.ok, Op.args, Op.subjects, Op.observers, Heap.apply, Heap.sink, Heap.merge, Heap.inner, Heap.source, upd, Heap.given])
  exact absurd (this 3 6 p rfl) (by decide)

/-- What the observable `g` of a group, of a window or of `ref_count` subscribes its observers to. -/
def Role.subjectOf : Role → Option Nat
  | .part s _ _ | .shared s _ => some s
  | _ => none

/-- **C91, where references are counted.** Subscribing `w` to a group, a window or `publish() | ref_count()` puts a handle `b` into the subject, by which the subject holds `w`; from each of `w`'s containers a way leads to that handle, whose weak references cannot have expired as long as the subject is there. So disposing the subscription takes `w` off the subject. The same for subscribing to a subject directly. -/
theorem C91_leaves (ops more : List Op) (op : Op) (s w : Nat) (hok : op.ok (exec ops)) (hm : ∀ op ∈ more, op.isCut = false)
    (hop : op = .listen s w ∨ ∃ g, op = .attach g w ∧ ((exec ops).role g).subjectOf = some s) :
    ∃ b, (exec ops).size ≤ b ∧ (s, b) ∈ (exec (ops ++ op :: more)).fields ∧ (exec (ops ++ op :: more)).Holds b w ∧
      ∀ x ∈ (exec ops).ups w, (exec (ops ++ op :: more)).Chain s x b := by
  have e : exec (ops ++ op :: more) = more.foldl step (step (exec ops) op) := by simp [exec]
  have hf := fields_foldl (h := step (exec ops) op) hm
  have he := entries_foldl (h := step (exec ops) op) hm
  rw [← e] at hf he
  suffices h : ∃ b, (exec ops).size ≤ b ∧ (s, b) ∈ (step (exec ops) op).fields ∧ (step (exec ops) op).Holds b w ∧
      ∀ x ∈ (exec ops).ups w, (step (exec ops) op).Chain s x b by
    obtain ⟨b, h1, h2, h3, h4⟩ := h
    exact ⟨b, h1, hf _ h2, h3.mono hf, fun x hx => (h4 x hx).mono hf he⟩
  generalize exec ops = h at *
  rw [step, if_pos hok]
  rcases hop with rfl | ⟨g, rfl, hg⟩
  · refine ⟨h.size, Nat.le_refl _, by simp [Heap.apply, Heap.listen], .step (b := w) (by simp [Heap.apply, Heap.listen]) (.refl w), fun x hx => ?_⟩
    exact .step (b := h.size) (strong := false) (by simp [Heap.apply, Heap.listen, Heap.given, hx]) (.step (b := h.size) (by simp [Heap.apply, Heap.listen]) (.refl _)) (.refl _)
  · have hw : w < h.size := hok.1 w (by simp [Op.args])
    show ∃ b, h.size ≤ b ∧ (s, b) ∈ (h.attach g w).fields ∧ (h.attach g w).Holds b w ∧ ∀ x ∈ h.ups w, (h.attach g w).Chain s x b
    have plain : ∀ d, ∃ b, h.size ≤ b ∧ (s, b) ∈ ((h.addRef d w).listen s w).fields ∧ ((h.addRef d w).listen s w).Holds b w ∧
        ∀ x ∈ h.ups w, ((h.addRef d w).listen s w).Chain s x b := by
      intro d
      refine ⟨h.size + 1, by omega, by simp [Heap.listen, Heap.addRef], .step (b := w) (by simp [Heap.listen, Heap.addRef]) (.refl w), fun x hx => ?_⟩
      exact .step (b := h.size + 1) (strong := false) (by simp [Heap.listen, Heap.given, Heap.addRef, hx]) (.step (b := h.size + 1) (by simp [Heap.listen, Heap.addRef]) (.refl _)) (.refl _)
    unfold Heap.attach
    cases hr : h.role g with
    | part s' d group =>
      rw [hr] at hg
      injection hg with hg
      subst hg
      cases group with
      | false => exact plain d
      | true =>
        refine ⟨h.size + 2, by omega, by simp [Heap.listen, Heap.wrap, Heap.addRef], .step (b := h.size + 1) (by simp [Heap.listen, Heap.wrap, Heap.addRef])
          (.step (b := w) (by simp [Heap.listen, Heap.wrap, Heap.addRef]) (.refl w)), fun x hx => ?_⟩
        have h1 : (((h.addRef d w).wrap w h.size).listen s' (h.size + 1)).Holds s' (h.size + 2) := .step (b := h.size + 2) (by simp [Heap.listen, Heap.wrap, Heap.addRef]) (.refl _)
        have h2 : (((h.addRef d w).wrap w h.size).listen s' (h.size + 1)).Holds (h.size + 2) h.size :=
          .step (b := h.size + 1) (by simp [Heap.listen, Heap.wrap, Heap.addRef]) (.step (b := h.size) (by simp [Heap.listen, Heap.wrap, Heap.addRef]) (.refl _))
        exact .step (b := h.size) (strong := true) (by simp [Heap.listen, Heap.wrap, Heap.given, Heap.addRef, hx]) (h1.trans h2)
          (.step (b := h.size + 2) (strong := false) (by simp [Heap.listen, Heap.wrap, Heap.given, Heap.addRef, upd]) h1 (.refl _))
    | shared s' d =>
      rw [hr] at hg
      injection hg with hg
      subst hg
      exact plain d
    | _ => rw [hr] at hg; cases hg

/-- The program `groups` of C90 attaches an observer (node 9) to a group (node 8, with the subject 7): it has a container, so the statement above says something. -/
example : let ops : List Op := [.sink, .merge 0, .split 3 false, .part 6, .inner 3]
    (Op.attach 8 9).ok (exec ops) ∧ ((exec ops).role 8).subjectOf = some 7 ∧ (exec ops).ups 9 ≠ [] := by decide

/-- **C91.** Every observer an operator makes takes a disposable from its source, if the one it was applied to does: so a source can always be given such an observer (the condition of `Op.ok` in `C91_disposed` and `C91_leaves`). Likewise a subject's entry and what `ref_count` gives to its source. -/
theorem C91_takes (h : Heap) (o : Nat) (ho : h.ups o ≠ []) :
    (∀ op ∈ [Op.pass o, .merge o, .latest o, .combine o, .until o, .debounce o, .delay o, .switch o, .concat o, .timeout o [], .retry o [],
      .split o true, .split o false, .toggle o, .entry o, .share o], (h.apply op).ups ((h.apply op).size - 1) ≠ []) := by
  simp [Heap.apply, Heap.pass, Heap.merge, Heap.latest, Heap.combine, Heap.until, Heap.debounce, Heap.delay, Heap.switch, Heap.concat, Heap.timeout,
    Heap.retry, Heap.split, Heap.toggle, Heap.entry, Heap.share, upd, ho]

example : (exec [.sink]).ups 0 ≠ [] := by decide

end Rpp.Graph
