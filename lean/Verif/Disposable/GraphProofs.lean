import Verif.Disposable.Graph

/-!
# No ring: a rank which every reference lowers
-/

namespace Rpp.Graph

/-- Node `a` keeps node `b` alive. -/
def Heap.Owns (h : Heap) (a b : Nat) : Prop := (a, b) ∈ h.fields ∨ (a, b, true) ∈ h.entries

/-- `b` is `a`, or kept alive by `a` through any number of references. -/
inductive Heap.Reach (h : Heap) : Nat → Nat → Prop where
  | refl (a : Nat) : h.Reach a a
  | step {a b c : Nat} : h.Owns a b → h.Reach b c → h.Reach a c

theorem Heap.Reach.snoc {h : Heap} {a b c : Nat} (p : h.Reach a b) (q : h.Owns b c) : h.Reach a c := by
  induction p with
  | refl a => exact .step q (.refl c)
  | step e _ ih => exact .step e (ih q)

/-- Used in the proofs; models no code. -/
def Role.ids : Role → List Nat
  | .plain | .subj => []
  | .merge st d o | .latest st d o | .concat st d o | .again st d o | .queued st d o => [st, d, o]
  | .fwd st o _ | .switch st o => [st, o]
  | .split d _ => [d]
  | .toggle st d => [st, d]
  | .part s d _ | .shared s d => [s, d]

/-- Used in the proofs; models no code. -/
structure Wf (h : Heap) : Prop where
  ups : ∀ o x, x ∈ h.ups o → x < h.size
  role : ∀ o x, x ∈ (h.role o).ids → x < h.size
  sw : ∀ o x, x ∈ (h.role o).sw → (o, x) ∈ h.fields

/-- Used in the proofs; models no code. -/
structure Ranked (h : Heap) (r : Nat → Nat) (M : Nat) : Prop where
  field : ∀ a b, (a, b) ∈ h.fields → r b < r a ∧ a < h.size ∧ b < h.size
  entry : ∀ a b, (a, b, true) ∈ h.entries → r b < r a ∧ a < h.size ∧ b < h.size
  bound : ∀ x, x < h.size → r x < M

theorem Wf.init : Wf {} := ⟨by simp, by simp [Role.ids], by simp [Role.sw]⟩
theorem Ranked.init : Ranked {} (fun _ => 0) 0 := ⟨by simp, by simp, by simp⟩

theorem mem_given {h : Heap} {o d : Nat} {s : Bool} {e : Nat × Nat × Bool} :
    e ∈ h.given o d s ↔ e.1 ∈ h.ups o ∧ e.2 = (d, s) := by
  obtain ⟨a, b, c⟩ := e
  simp only [Heap.given, List.mem_map, Prod.mk.injEq]
  constructor
  · rintro ⟨x, h1, rfl, h2⟩; exact ⟨h1, h2.1.symm, h2.2.symm⟩
  · rintro ⟨h1, h2, h3⟩; exact ⟨a, h1, rfl, h2.symm, h3.symm⟩

/-- Invariant of the proofs; models no code. -/
def Inv (h : Heap) : Prop := Wf h ∧ ∃ r M, Ranked h r M

macro "wf" : tactic => `(tactic| (
  constructor <;> intro o x hx <;> simp only [upd] at hx ⊢ <;> grind [Role.ids, Role.sw]))

macro "rk" : tactic => `(tactic| (
  constructor
  · intro a b hx
    simp only [List.mem_append, List.mem_cons, List.not_mem_nil, or_false, Prod.mk.injEq, List.mem_map] at hx
    grind (splits := 20)
  · intro a b hx
    simp only [List.mem_append, List.mem_cons, List.not_mem_nil, or_false, Prod.mk.injEq, mem_given, reduceCtorEq, and_false] at hx
    grind (splits := 20)
  · intro x hx
    grind))

theorem inv_sink {h : Heap}  (w : Wf h) {r : Nat → Nat} {M : Nat} (k : Ranked h r M) :
    Inv (h.sink) := by
  obtain ⟨w1, w2, w3⟩ := w
  obtain ⟨k1, k2, k3⟩ := k
  refine ⟨?_, fun x => if x = h.size then 0 else r x, M + 1, ?_⟩
  · simp only [Heap.sink]; wf
  · simp only [Heap.sink]; rk

theorem inv_sinkWith {h : Heap}  (w : Wf h) {r : Nat → Nat} {M : Nat} (k : Ranked h r M) :
    Inv (h.sinkWith) := by
  obtain ⟨w1, w2, w3⟩ := w
  obtain ⟨k1, k2, k3⟩ := k
  refine ⟨?_, fun x => if x = h.size then 0 else if x = h.size + 1 then 1 else r x, M + 2, ?_⟩
  · simp only [Heap.sinkWith]; wf
  · simp only [Heap.sinkWith]; rk

theorem inv_pass {h : Heap} {o : Nat} (ho : o < h.size) (w : Wf h) {r : Nat → Nat} {M : Nat} (k : Ranked h r M) :
    Inv (h.pass o) := by
  obtain ⟨w1, w2, w3⟩ := w
  obtain ⟨k1, k2, k3⟩ := k
  refine ⟨?_, fun x => if x = h.size then M else r x, M + 1, ?_⟩
  · simp only [Heap.pass]; wf
  · have := k3 o ho; simp only [Heap.pass]; rk

theorem inv_final {h : Heap} {o : Nat} (ho : o < h.size) (w : Wf h) {r : Nat → Nat} {M : Nat} (k : Ranked h r M) :
    Inv (h.final o) := by
  obtain ⟨w1, w2, w3⟩ := w
  obtain ⟨k1, k2, k3⟩ := k
  refine ⟨?_, fun x => if x = h.size then 0 else r x + 1, M + 2, ?_⟩
  · simp only [Heap.final]; wf
  · have := k3 o ho; simp only [Heap.final]; rk

theorem inv_merge {h : Heap} {o : Nat} (ho : o < h.size) (w : Wf h) {r : Nat → Nat} {M : Nat} (k : Ranked h r M) :
    Inv (h.merge o) := by
  obtain ⟨w1, w2, w3⟩ := w
  obtain ⟨k1, k2, k3⟩ := k
  refine ⟨?_, fun x => if x = h.size + 1 then 0 else if x = h.size then M + 2 else if x = h.size + 2 then M + 3 else r x + 1, M + 4, ?_⟩
  · simp only [Heap.merge]; wf
  · have := k3 o ho; simp only [Heap.merge]; rk

theorem inv_latest {h : Heap} {o : Nat} (ho : o < h.size) (w : Wf h) {r : Nat → Nat} {M : Nat} (k : Ranked h r M) :
    Inv (h.latest o) := by
  obtain ⟨w1, w2, w3⟩ := w
  obtain ⟨k1, k2, k3⟩ := k
  refine ⟨?_, fun x => if x = h.size + 1 then 0 else if x = h.size then M + 2 else if x = h.size + 2 then M + 3 else r x + 1, M + 4, ?_⟩
  · simp only [Heap.latest]; wf
  · have := k3 o ho; simp only [Heap.latest]; rk

theorem inv_combine {h : Heap} {o : Nat} (ho : o < h.size) (w : Wf h) {r : Nat → Nat} {M : Nat} (k : Ranked h r M) :
    Inv (h.combine o) := by
  obtain ⟨w1, w2, w3⟩ := w
  obtain ⟨k1, k2, k3⟩ := k
  refine ⟨?_, fun x => if x = h.size then M else if x = h.size + 1 then M + 1 else r x, M + 2, ?_⟩
  · simp only [Heap.combine]; wf
  · have := k3 o ho; simp only [Heap.combine]; rk

theorem inv_until {h : Heap} {o : Nat} (ho : o < h.size) (w : Wf h) {r : Nat → Nat} {M : Nat} (k : Ranked h r M) :
    Inv (h.until o) := by
  obtain ⟨w1, w2, w3⟩ := w
  obtain ⟨k1, k2, k3⟩ := k
  refine ⟨?_, fun x => if x = h.size then M else if x = h.size + 1 then M + 1 else r x, M + 2, ?_⟩
  · simp only [Heap.until]; wf
  · have := k3 o ho; simp only [Heap.until]; rk

theorem inv_debounce {h : Heap} {o : Nat} (ho : o < h.size) (w : Wf h) {r : Nat → Nat} {M : Nat} (k : Ranked h r M) :
    Inv (h.debounce o) := by
  obtain ⟨w1, w2, w3⟩ := w
  obtain ⟨k1, k2, k3⟩ := k
  refine ⟨?_, fun x => if x = h.size then M else if x = h.size + 1 then M + 1 else r x, M + 2, ?_⟩
  · simp only [Heap.debounce]; wf
  · have := k3 o ho; simp only [Heap.debounce]; rk

theorem inv_delay {h : Heap} {o : Nat} (ho : o < h.size) (w : Wf h) {r : Nat → Nat} {M : Nat} (k : Ranked h r M) :
    Inv (h.delay o) := by
  obtain ⟨w1, w2, w3⟩ := w
  obtain ⟨k1, k2, k3⟩ := k
  refine ⟨?_, fun x => if x = h.size then M else if x = h.size + 1 then M + 1 else r x, M + 2, ?_⟩
  · simp only [Heap.delay]; wf
  · have := k3 o ho; simp only [Heap.delay]; rk

theorem inv_timeout {h : Heap} {o : Nat} (ho : o < h.size) {l : List Nat} (hl : ∀ c ∈ l, c < h.size) (w : Wf h) {r : Nat → Nat} {M : Nat} (k : Ranked h r M) :
    Inv (h.timeout o l) := by
  obtain ⟨w1, w2, w3⟩ := w
  obtain ⟨k1, k2, k3⟩ := k
  refine ⟨?_, fun x => if x = h.size then M else if x = h.size + 1 then M + 1 else r x, M + 2, ?_⟩
  · simp only [Heap.timeout]; wf
  · have := k3 o ho; simp only [Heap.timeout]; rk

theorem inv_retry {h : Heap} {o : Nat} (ho : o < h.size) {l : List Nat} (hl : ∀ c ∈ l, c < h.size) (w : Wf h) {r : Nat → Nat} {M : Nat} (k : Ranked h r M) :
    Inv (h.retry o l) := by
  obtain ⟨w1, w2, w3⟩ := w
  obtain ⟨k1, k2, k3⟩ := k
  refine ⟨?_, fun x => if x = h.size + 1 then 0 else if x = h.size then M + 2 else if x = h.size + 2 then M + 3 else r x + 1, M + 4, ?_⟩
  · simp only [Heap.retry]; wf
  · have := k3 o ho; simp only [Heap.retry]; rk

theorem inv_switch {h : Heap} {o : Nat} (ho : o < h.size) (w : Wf h) {r : Nat → Nat} {M : Nat} (k : Ranked h r M) :
    Inv (h.switch o) := by
  obtain ⟨w1, w2, w3⟩ := w
  obtain ⟨k1, k2, k3⟩ := k
  refine ⟨?_, fun x => if x = h.size then M else if x = h.size + 1 then M + 1 else if x = h.size + 2 then M + 2 else r x, M + 3, ?_⟩
  · simp only [Heap.switch]; wf
  · have := k3 o ho; simp only [Heap.switch]; rk

theorem inv_concat {h : Heap} {o : Nat} (ho : o < h.size) (w : Wf h) {r : Nat → Nat} {M : Nat} (k : Ranked h r M) :
    Inv (h.concat o) := by
  obtain ⟨w1, w2, w3⟩ := w
  obtain ⟨k1, k2, k3⟩ := k
  refine ⟨?_, fun x => if x = h.size + 2 then 0 else if x = h.size + 1 then 1 else if x = h.size then M + 2 else if x = h.size + 3 then M + 3 else r x + 2, M + 4, ?_⟩
  · simp only [Heap.concat]; wf
  · have := k3 o ho; simp only [Heap.concat]; rk

theorem inv_split {h : Heap} {o : Nat} (ho : o < h.size) {b : Bool} (w : Wf h) {r : Nat → Nat} {M : Nat} (k : Ranked h r M) :
    Inv (h.split o b) := by
  obtain ⟨w1, w2, w3⟩ := w
  obtain ⟨k1, k2, k3⟩ := k
  refine ⟨?_, fun x => if x = h.size then 0 else if x = h.size + 1 then 1 else if x = h.size + 2 then M + 2 else r x + 2, M + 3, ?_⟩
  · simp only [Heap.split]; wf
  · have := k3 o ho; simp only [Heap.split]; rk

theorem inv_toggle {h : Heap} {o : Nat} (ho : o < h.size) (w : Wf h) {r : Nat → Nat} {M : Nat} (k : Ranked h r M) :
    Inv (h.toggle o) := by
  obtain ⟨w1, w2, w3⟩ := w
  obtain ⟨k1, k2, k3⟩ := k
  refine ⟨?_, fun x => if x = h.size + 3 then 0 else if x = h.size + 1 then 1 else if x = h.size + 2 then 2 else if x = h.size then M + 3 else if x = h.size + 4 then M + 4 else if x = h.size + 5 then M + 5 else r x + 3, M + 6, ?_⟩
  · simp only [Heap.toggle]; wf
  · have := k3 o ho; simp only [Heap.toggle]; rk

theorem inv_subject {h : Heap}  (w : Wf h) {r : Nat → Nat} {M : Nat} (k : Ranked h r M) :
    Inv (h.subject) := by
  obtain ⟨w1, w2, w3⟩ := w
  obtain ⟨k1, k2, k3⟩ := k
  refine ⟨?_, fun x => if x = h.size then 0 else r x, M + 1, ?_⟩
  · simp only [Heap.subject]; wf
  · simp only [Heap.subject]; rk

theorem inv_entry {h : Heap} {s : Nat} (hs : s < h.size) (w : Wf h) {r : Nat → Nat} {M : Nat} (k : Ranked h r M) :
    Inv (h.entry s) := by
  obtain ⟨w1, w2, w3⟩ := w
  obtain ⟨k1, k2, k3⟩ := k
  refine ⟨?_, fun x => if x = h.size then M else r x, M + 1, ?_⟩
  · simp only [Heap.entry]; wf
  · have := k3 s hs; simp only [Heap.entry]; rk

theorem inv_share {h : Heap} {s : Nat} (hs : s < h.size) (w : Wf h) {r : Nat → Nat} {M : Nat} (k : Ranked h r M) :
    Inv (h.share s) := by
  obtain ⟨w1, w2, w3⟩ := w
  obtain ⟨k1, k2, k3⟩ := k
  refine ⟨?_, fun x => if x = h.size then 0 else if x = h.size + 1 then 1 else if x = h.size + 2 then M + 2 else r x + 2, M + 3, ?_⟩
  · simp only [Heap.share]; wf
  · have := k3 s hs; simp only [Heap.share]; rk

theorem inv_inner {h : Heap} {k : Nat} (hk : k < h.size) (w : Wf h) {r : Nat → Nat} {M : Nat} (q : Ranked h r M) :
    Inv (h.inner k) := by
  have hid := w.role k
  have keep : Inv h := ⟨w, r, M, q⟩
  obtain ⟨w1, w2, w3⟩ := w
  obtain ⟨k1, k2, k3⟩ := q
  unfold Heap.inner
  cases hr : h.role k <;> simp only [hr, Role.ids] at hid ⊢ <;> try exact keep
  case merge st d o | latest st d o | again st d o | fwd st o _ =>
    have h1 := hid st (by simp)
    have h3 := k3 st h1
    refine ⟨?_, fun x => if x = h.size then M else r x, M + 1, ?_⟩
    · have h4 := hid o (by simp)
      constructor <;> intro o x hx <;> simp only [upd] at hx ⊢ <;> grind [Role.ids, Role.sw]
    · rk
  case queued st i o =>
    have h1 := hid st (by simp)
    have h2 := hid i (by simp)
    have h3 := k3 st h1
    have h4 := k3 i h2
    refine ⟨?_, fun x => if x = h.size then M else r x, M + 1, ?_⟩
    · have h5 := hid o (by simp)
      constructor <;> intro o x hx <;> simp only [upd] at hx ⊢ <;> grind [Role.ids, Role.sw]
    · rk
  case concat st d o =>
    have h1 := hid st (by simp)
    have h2 := hid d (by simp)
    have h4 := hid o (by simp)
    have h3 := k3 st h1
    refine ⟨?_, fun x => if x = h.size then M + 1 else if x = h.size + 1 then 0 else r x + 1, M + 2, ?_⟩
    · wf
    · rk
  case switch st o =>
    have hc : (k, st) ∈ h.fields := w3 k st (by simp [hr, Role.sw])
    have h5 := k1 _ _ hc
    have h4 := hid o (by simp)
    have h3 := k3 k hk
    refine ⟨?_, fun x => if x = h.size then 2 * M else if x = h.size + 1 then 2 * r st + 1 else 2 * r x, 2 * M + 1, ?_⟩
    · wf
    · rk

theorem inv_part {h : Heap} {k : Nat} (hk : k < h.size) (w : Wf h) {r : Nat → Nat} {M : Nat} (q : Ranked h r M) :
    Inv (h.part k) := by
  have hid := w.role k
  have keep : Inv h := ⟨w, r, M, q⟩
  obtain ⟨w1, w2, w3⟩ := w
  obtain ⟨k1, k2, k3⟩ := q
  unfold Heap.part
  cases hr : h.role k <;> simp only [hr, Role.ids] at hid ⊢ <;> try exact keep
  case split d b =>
    have h1 := hid d (by simp)
    have h3 := k3 d h1
    refine ⟨?_, fun x => if x = h.size then 0 else if x = h.size + 1 then M + 1 else r x + 1, M + 2, ?_⟩
    · wf
    · cases b
      · simp only [Bool.false_eq_true, if_false]; rk
      · simp only [if_true]; rk
  case toggle st d =>
    have h1 := hid d (by simp)
    have h2 := hid st (by simp)
    have h3 := k3 d h1
    have h4 := k3 st h2
    refine ⟨?_, fun x => if x = h.size then 0 else if x = h.size + 1 then M + 1 else if x = h.size + 2 then M + 2 else r x + 1, M + 3, ?_⟩
    · wf
    · rk

/-- Moving everything which keeps one of `A` alive up by `m`. -/
noncomputable def lift (h : Heap) (A : List Nat) (m : Nat) (r : Nat → Nat) (x : Nat) : Nat :=
  open Classical in if ∃ a ∈ A, h.Reach x a then r x + m else r x

theorem lift_old {h : Heap} {A : List Nat} {m : Nat} {r : Nat → Nat} {a b : Nat} (e : h.Owns a b) (hr : r b < r a) :
    lift h A m r b < lift h A m r a := by
  unfold lift
  by_cases hb : ∃ x ∈ A, h.Reach b x
  · obtain ⟨x, hx, p⟩ := hb
    have ha : ∃ x ∈ A, h.Reach a x := ⟨x, hx, .step e p⟩
    rw [if_pos ⟨x, hx, p⟩, if_pos ha]; omega
  · rw [if_neg hb]; split <;> omega

theorem lift_in {h : Heap} {A : List Nat} {m : Nat} {r : Nat → Nat} {a : Nat} (ha : a ∈ A) : lift h A m r a = r a + m := by
  unfold lift; rw [if_pos ⟨a, ha, .refl a⟩]

theorem lift_out {h : Heap} {A : List Nat} {m : Nat} {r : Nat → Nat} {a : Nat} (ha : ∀ x ∈ A, ¬ h.Reach a x) : lift h A m r a = r a := by
  unfold lift; rw [if_neg]; rintro ⟨x, hx, p⟩; exact ha x hx p

theorem lift_le {h : Heap} {A : List Nat} {m : Nat} {r : Nat → Nat} {a : Nat} : lift h A m r a ≤ r a + m := by
  unfold lift; split <;> omega

theorem inv_store {h : Heap} {a b : Nat} (ha : a < h.size) (hb : b < h.size) (w : Wf h) {r : Nat → Nat} {M : Nat}
    (q : Ranked h r M) (g : ¬ h.Reach b a) : Inv (h.store a b) := by
  obtain ⟨w1, w2, w3⟩ := w
  obtain ⟨k1, k2, k3⟩ := q
  refine ⟨⟨w1, w2, fun o x hx => by simp only [Heap.store, List.mem_append]; exact .inl (w3 o x hx)⟩, lift h [a] (r b + 1) r, M + (r b + 1), ?_⟩
  have e1 : lift h [a] (r b + 1) r a = r a + (r b + 1) := lift_in (by simp)
  have e2 : lift h [a] (r b + 1) r b = r b := lift_out (by simpa using g)
  constructor
  · intro x y hx
    simp only [Heap.store, List.mem_append, List.mem_singleton, Prod.mk.injEq] at hx ⊢
    rcases hx with hx | ⟨rfl, rfl⟩
    · exact ⟨lift_old (.inl hx) (k1 _ _ hx).1, (k1 _ _ hx).2⟩
    · exact ⟨by omega, ha, hb⟩
  · intro x y hx
    exact ⟨lift_old (.inr hx) (k2 _ _ hx).1, (k2 _ _ hx).2⟩
  · intro x hx
    have := k3 x hx
    have := @lift_le h [a] (r b + 1) r x
    omega

theorem inv_cut {h : Heap} {a b : Nat} (w : Wf h) {r : Nat → Nat} {M : Nat} (q : Ranked h r M) : Inv (h.cut a b) := by
  unfold Heap.cut
  split
  · exact ⟨w, r, M, q⟩
  next hn =>
  obtain ⟨w1, w2, w3⟩ := w
  obtain ⟨k1, k2, k3⟩ := q
  refine ⟨⟨w1, w2, ?_⟩, r, M, ?_, ?_, k3⟩
  · intro o x hx
    have := w3 o x hx
    simp only [List.mem_filter, this, true_and, decide_eq_true_eq, ne_eq, Prod.mk.injEq, not_and]
    rintro rfl rfl
    simp only [List.contains_iff_mem] at hn
    exact hn hx
  · intro x y hx
    simp only [List.mem_filter] at hx
    exact k1 _ _ hx.1
  · intro x y hx
    simp only [List.mem_filter] at hx
    exact k2 _ _ hx.1

/-- Used in the proofs; models no code. -/
def top (r : Nat → Nat) (l : List Nat) : Nat := (l.map r).foldr max 0

theorem le_top {r : Nat → Nat} {l : List Nat} {c : Nat} (hc : c ∈ l) : r c ≤ top r l := by
  induction l with
  | nil => simp at hc
  | cons x l ih =>
    simp only [top, List.map_cons, List.foldr_cons] at ih ⊢
    rcases List.mem_cons.1 hc with rfl | hc
    · omega
    · have := ih hc; omega

/-- A new node kept alive by the containers of `o` and keeping `l` alive. -/
theorem rank_node {h : Heap} {o : Nat} {l : List Nat} (hl : ∀ c ∈ l, c < h.size) (w : Wf h)
    {r : Nat → Nat} {M : Nat} (q : Ranked h r M) (g : ∀ c ∈ l, ∀ a ∈ h.ups o, ¬ h.Reach c a) (extra : List (Nat × Nat × Bool))
    (he : ∀ x y, (x, y, true) ∉ extra) :
    ∃ r' M', Ranked { h with size := h.size + 1, fields := h.fields ++ l.map (fun c => (h.size, c)),
                             entries := h.entries ++ h.given o h.size true ++ extra } r' M' := by
  obtain ⟨w1, w2, w3⟩ := w
  obtain ⟨k1, k2, k3⟩ := q
  let m := top r l + 1
  let r' := fun x => if x = h.size then m else lift h (h.ups o) (m + 1) r x
  have hs : r' h.size = m := by simp [r']
  have ho : ∀ x, x < h.size → r' x = lift h (h.ups o) (m + 1) r x := by
    intro x hx; simp only [r']; rw [if_neg (by omega)]
  refine ⟨r', M + m + 1, ?_, ?_, ?_⟩
  · intro x y hx
    simp only [List.mem_append, List.mem_map, Prod.mk.injEq] at hx ⊢
    rcases hx with hx | ⟨c, hc, rfl, rfl⟩
    · have := k1 _ _ hx
      refine ⟨?_, by omega, by omega⟩
      rw [ho x this.2.1, ho y this.2.2]
      exact lift_old (.inl hx) this.1
    · have hlt := hl c hc
      refine ⟨?_, by omega, by omega⟩
      rw [hs, ho c hlt, lift_out (g c hc)]
      have := le_top (r := r) hc
      omega
  · intro x y hx
    simp only [List.mem_append, mem_given, Prod.mk.injEq, and_true] at hx ⊢
    rcases hx with (hx | ⟨hx, rfl⟩) | hx
    · have := k2 _ _ hx
      refine ⟨?_, by omega, by omega⟩
      rw [ho x this.2.1, ho y this.2.2]
      exact lift_old (.inr hx) this.1
    · have hlt := w1 _ _ hx
      refine ⟨?_, by omega, by omega⟩
      rw [hs, ho x hlt, lift_in hx]
      omega
    · exact absurd hx (he x y)
  · intro x hx
    by_cases hx' : x = h.size
    · subst hx'; rw [hs]; omega
    · have hlt : x < h.size := by simp only at hx; omega
      rw [ho x hlt]
      have := k3 x hlt
      have := @lift_le h (h.ups o) (m + 1) r x
      omega

theorem inv_source {h : Heap} {o : Nat} {l : List Nat} (hl : ∀ c ∈ l, c < h.size) (w : Wf h)
    {r : Nat → Nat} {M : Nat} (q : Ranked h r M) (g : ∀ c ∈ l, ∀ a ∈ h.ups o, ¬ h.Reach c a) : Inv (h.source o l) := by
  obtain ⟨r', M', k⟩ := rank_node hl w q g [] (by simp)
  refine ⟨?_, r', M', ?_⟩
  · obtain ⟨w1, w2, w3⟩ := w
    simp only [Heap.source]; wf
  · simp only [List.append_nil] at k; exact k

theorem inv_addRef {h : Heap} {d o : Nat} (hd : d < h.size) (w : Wf h)
    {r : Nat → Nat} {M : Nat} (q : Ranked h r M) (g : ∀ a ∈ h.ups o, ¬ h.Reach d a) : Inv (h.addRef d o) := by
  obtain ⟨r', M', k⟩ := rank_node (l := [d]) (o := o) (by simpa using hd) w q (by simpa using g) [(d, h.size, false)] (by simp)
  refine ⟨?_, r', M', k⟩
  obtain ⟨w1, w2, w3⟩ := w
  simp only [Heap.addRef]; wf

theorem inv_wrap {h : Heap} {o i : Nat} (ho : o < h.size) (hi : i < h.size) (w : Wf h)
    {r : Nat → Nat} {M : Nat} (q : Ranked h r M) : Inv (h.wrap o i) := by
  obtain ⟨w1, w2, w3⟩ := w
  obtain ⟨k1, k2, k3⟩ := q
  have := k3 o ho
  have := k3 i hi
  refine ⟨?_, fun x => if x = h.size then M else r x, M + 1, ?_⟩
  · simp only [Heap.wrap]; wf
  · simp only [Heap.wrap]; rk

theorem inv_listen {h : Heap} {s o : Nat} (hs : s < h.size) (ho : o < h.size) (w : Wf h)
    {r : Nat → Nat} {M : Nat} (q : Ranked h r M) (g : ¬ h.Reach o s) : Inv (h.listen s o) := by
  have hw : Wf (h.listen s o) := by
    obtain ⟨w1, w2, w3⟩ := w
    simp only [Heap.listen]; wf
  refine ⟨hw, ?_⟩
  obtain ⟨k1, k2, k3⟩ := q
  let m := r o + 1
  let r' := fun x => if x = h.size then m else lift h [s] (m + 1) r x
  have hn : r' h.size = m := by simp [r']
  have hr : ∀ x, x < h.size → r' x = lift h [s] (m + 1) r x := by
    intro x hx; simp only [r']; rw [if_neg (by omega)]
  refine ⟨r', M + m + 1, ?_, ?_, ?_⟩
  · intro x y hx
    simp only [Heap.listen, List.mem_append, List.mem_cons, List.not_mem_nil, or_false, Prod.mk.injEq] at hx ⊢
    rcases hx with hx | ⟨rfl, rfl⟩ | ⟨rfl, rfl⟩
    · have := k1 _ _ hx
      refine ⟨?_, by omega, by omega⟩
      rw [hr x this.2.1, hr y this.2.2]
      exact lift_old (.inl hx) this.1
    · refine ⟨?_, by omega, by omega⟩
      rw [hn, hr _ hs, lift_in (by simp)]
      omega
    · refine ⟨?_, by omega, by omega⟩
      rw [hn, hr _ ho, lift_out (by simpa using g)]
      omega
  · intro x y hx
    simp only [Heap.listen, List.mem_append, mem_given, Prod.mk.injEq, reduceCtorEq, and_false, or_false] at hx ⊢
    have := k2 _ _ hx
    refine ⟨?_, by omega, by omega⟩
    rw [hr x this.2.1, hr y this.2.2]
    exact lift_old (.inr hx) this.1
  · intro x hx
    by_cases hx' : x = h.size
    · subst hx'; rw [hn]; omega
    · have hlt : x < h.size := by simp only [Heap.listen] at hx; omega
      rw [hr x hlt]
      have := k3 x hlt
      have := @lift_le h [s] (m + 1) r x
      omega

end Rpp.Graph
