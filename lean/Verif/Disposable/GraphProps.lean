import Verif.Disposable.GraphProofs

/-!
# No operator makes a ring of references: C90. Disposing reaches upstream: C91.

`exec ops` is any history of observers made, operators applied to them, inner observables subscribed, subjects subscribed, disposables given and references dropped.
-/

namespace Rpp.Graph

/-- Objects which keep each other alive: each is kept alive by one of them. Reference counts never free them. -/
def Ring (h : Heap) (S : List Nat) : Prop := S ≠ [] ∧ ∀ x ∈ S, ∃ y ∈ S, h.Owns y x

/-- What the program hands over does not already keep alive the object which is going to keep it alive. Only subscribing to a subject, to a part of a stream or to a shared one, giving a disposable which captures something, and storing something can go wrong. -/
def Op.Safe (h : Heap) : Op → Prop
  | .source o kept => ∀ c ∈ kept, ∀ a ∈ h.ups o, ¬ h.Reach c a
  | .listen s w => ¬ h.Reach w s
  | .store a b => ¬ h.Reach b a
  | .attach g w =>
      match h.role g with
      | .part s d true => (∀ a ∈ h.ups w, ¬ h.Reach d a) ∧ ¬ ((h.addRef d w).wrap w h.size).Reach (h.size + 1) s
      | .part s d false => (∀ a ∈ h.ups w, ¬ h.Reach d a) ∧ ¬ (h.addRef d w).Reach w s
      | .shared s d => (∀ a ∈ h.ups w, ¬ h.Reach d a) ∧ ¬ (h.addRef d w).Reach w s
      | _ => True
  | _ => True

/-- Every operation of the program was safe when it was done. -/
def AllSafe (h : Heap) : List Op → Prop
  | [] => True
  | op :: ops => (op.ok h → op.Safe h) ∧ AllSafe (step h op) ops

theorem Inv.no_ring {h : Heap} (q : Inv h) : ¬ ∃ S, Ring h S := by
  obtain ⟨_, r, M, k1, k2, _⟩ := q
  rintro ⟨S, hne, hS⟩
  have : ∀ n, ∃ x ∈ S, n ≤ r x := by
    intro n
    induction n with
    | zero =>
      obtain ⟨x, l, rfl⟩ := List.exists_cons_of_ne_nil hne
      exact ⟨x, by simp, by omega⟩
    | succ n ih =>
      obtain ⟨x, hx, hn⟩ := ih
      obtain ⟨y, hy, e⟩ := hS x hx
      refine ⟨y, hy, ?_⟩
      rcases e with e | e
      · have := (k1 _ _ e).1; omega
      · have := (k2 _ _ e).1; omega
  obtain ⟨x, hx, hn⟩ := this (top r S + 1)
  have := le_top (r := r) hx
  omega

theorem inv_attach {h : Heap} {g w : Nat} (hw : w < h.size) (q : Inv h) (sf : (Op.attach g w).Safe h) : Inv (h.attach g w) := by
  have hid := q.1.role g
  simp only [Op.Safe] at sf
  unfold Heap.attach
  cases hr : h.role g <;> simp only [hr, Role.ids] at hid sf ⊢ <;> try exact q
  case part s d b =>
    have hs := hid s (by simp)
    have hd := hid d (by simp)
    obtain ⟨w0, r, M, k⟩ := q
    cases b
    · simp only at sf ⊢
      obtain ⟨w1, r1, M1, k1⟩ := inv_addRef (o := w) hd w0 k sf.1
      exact inv_listen (by simp only [Heap.addRef]; omega) (by simp only [Heap.addRef]; omega) w1 k1 sf.2
    · simp only at sf ⊢
      obtain ⟨w1, r1, M1, k1⟩ := inv_addRef (o := w) hd w0 k sf.1
      obtain ⟨w2, r2, M2, k2⟩ := inv_wrap (o := w) (i := h.size) (by simp only [Heap.addRef]; omega) (by simp only [Heap.addRef]; omega) w1 k1
      exact inv_listen (by simp only [Heap.addRef, Heap.wrap]; omega) (by simp only [Heap.addRef, Heap.wrap]; omega) w2 k2 sf.2
  case shared s d =>
    have hs := hid s (by simp)
    have hd := hid d (by simp)
    obtain ⟨w0, r, M, k⟩ := q
    obtain ⟨w1, r1, M1, k1⟩ := inv_addRef (o := w) hd w0 k sf.1
    exact inv_listen (by simp only [Heap.addRef]; omega) (by simp only [Heap.addRef]; omega) w1 k1 sf.2

theorem inv_step {h : Heap} {op : Op} (q : Inv h) (sf : op.ok h → op.Safe h) : Inv (step h op) := by
  unfold step
  by_cases hok : op.ok h
  · rw [if_pos hok]
    have sf := sf hok
    obtain ⟨ha, _, _⟩ := hok
    have q' := q
    obtain ⟨w, r, M, k⟩ := q
    cases op <;> simp only [Op.args, List.mem_cons, List.not_mem_nil, or_false, forall_eq_or_imp, forall_eq] at ha <;> simp only [Heap.apply]
    case sink => exact inv_sink w k
    case sinkWith => exact inv_sinkWith w k
    case pass o => exact inv_pass ha w k
    case final o => exact inv_final ha w k
    case merge o => exact inv_merge ha w k
    case latest o => exact inv_latest ha w k
    case combine o => exact inv_combine ha w k
    case «until» o => exact inv_until ha w k
    case debounce o => exact inv_debounce ha w k
    case delay o => exact inv_delay ha w k
    case timeout o l => exact inv_timeout ha.1 ha.2 w k
    case retry o l => exact inv_retry ha.1 ha.2 w k
    case switch o => exact inv_switch ha w k
    case concat o => exact inv_concat ha w k
    case split o b => exact inv_split ha w k
    case toggle o => exact inv_toggle ha w k
    case inner n => exact inv_inner ha w k
    case part n => exact inv_part ha w k
    case subject => exact inv_subject w k
    case entry s => exact inv_entry ha w k
    case listen s o => exact inv_listen ha.1 ha.2 w k sf
    case attach g o => exact inv_attach ha.2 q' sf
    case share s => exact inv_share ha w k
    case source o l => exact inv_source ha.2 w k sf
    case store a b => exact inv_store ha.1 ha.2 w k sf
    case cut a b => exact inv_cut w k
  · rw [if_neg hok]; exact q

theorem inv_foldl {ops : List Op} {h : Heap} (q : Inv h) (sf : AllSafe h ops) : Inv (ops.foldl step h) := by
  induction ops generalizing h with
  | nil => exact q
  | cons op ops ih => exact ih (inv_step q sf.1) sf.2

theorem inv_exec {ops : List Op} (sf : AllSafe {} ops) : Inv (exec ops) :=
  inv_foldl ⟨Wf.init, _, _, Ranked.init⟩ sf

/-- **C90.** As long as the program ties no loop itself, no ring of references comes about: whatever operators are applied, in whatever order, whatever inner observables come and whatever references are dropped in between. -/
theorem C90_no_ring (ops : List Op) (sf : AllSafe {} ops) : ¬ ∃ S, Ring (exec ops) S := (inv_exec sf).no_ring

/-! ## Released -/

theorem owns_iff {h : Heap} {a b : Nat} : h.owns a b = true ↔ h.Owns a b := by
  simp [Heap.owns, Heap.Owns]

theorem mem_sweep {h : Heap} {held alive : List Nat} {x : Nat} :
    x ∈ h.sweep held alive ↔ x ∈ alive ∧ (x ∈ held ∨ ∃ y ∈ alive, h.Owns y x) := by
  simp [Heap.sweep, List.mem_filter, owns_iff]

theorem sweeps_sub {h : Heap} {held : List Nat} {k : Nat} {alive : List Nat} : ∀ x ∈ h.sweeps held k alive, x ∈ alive := by
  induction k generalizing alive with
  | zero => exact fun x hx => hx
  | succ k ih => exact fun x hx => (mem_sweep.1 (ih x hx)).1

theorem sweeps_fix {h : Heap} {held : List Nat} {k : Nat} {alive : List Nat} (hl : alive.length ≤ k) :
    h.sweep held (h.sweeps held k alive) = h.sweeps held k alive := by
  induction k generalizing alive with
  | zero =>
    have : alive = [] := List.length_eq_zero_iff.1 (by omega)
    subst this; rfl
  | succ k ih =>
    simp only [Heap.sweeps]
    by_cases he : h.sweep held alive = alive
    · rw [he]
      have : ∀ j, h.sweeps held j alive = alive := by
        intro j; induction j with
        | zero => rfl
        | succ j ihj => simp only [Heap.sweeps, he, ihj]
      rw [this, he]
    · apply ih
      have h1 : (h.sweep held alive).length ≤ alive.length := by unfold Heap.sweep; exact List.length_filter_le ..
      have h2 : (h.sweep held alive).length ≠ alive.length := by
        intro h2
        exact he (List.filter_sublist.eq_of_length h2)
      omega

theorem sweeps_keep {h : Heap} {held : List Nat} {k : Nat} {alive : List Nat}
    (hr : ∀ x, (∃ y ∈ held, h.Reach y x) → x ∈ alive) : ∀ x, (∃ y ∈ held, h.Reach y x) → x ∈ h.sweeps held k alive := by
  induction k generalizing alive with
  | zero => exact hr
  | succ k ih =>
    apply ih
    intro x hx
    refine mem_sweep.2 ⟨hr x hx, ?_⟩
    obtain ⟨y, hy, p⟩ := hx
    have : y = x ∨ ∃ z, h.Reach y z ∧ h.Owns z x := by
      clear hr hy ih
      induction p with
      | refl a => exact .inl rfl
      | step e p ih =>
        rcases ih with rfl | ⟨z, p1, p2⟩
        · exact .inr ⟨_, .refl _, e⟩
        · exact .inr ⟨z, .step e p1, p2⟩
    rcases this with rfl | ⟨z, p1, p2⟩
    · exact .inl hy
    · exact .inr ⟨z, hr z ⟨y, hy, p1⟩, p2⟩

theorem reach_lt {h : Heap} (q : Inv h) {a b : Nat} (p : h.Reach a b) (ha : a < h.size) : b < h.size := by
  obtain ⟨_, r, M, k1, k2, _⟩ := q
  induction p with
  | refl a => exact ha
  | step e _ ih =>
    rcases e with e | e
    · exact ih (k1 _ _ e).2.2
    · exact ih (k2 _ _ e).2.2

/-- **C90.** So what is held from outside decides what is left: an object is still there exactly if something held from outside keeps it alive. In particular, when nothing is held any more, everything is destroyed, and what is destroyed disposes itself (C88). -/
theorem C90_released (ops : List Op) (sf : AllSafe {} ops) (held : List Nat) (hh : ∀ y ∈ held, y < (exec ops).size) (x : Nat) :
    x ∈ (exec ops).alive held ↔ ∃ y ∈ held, (exec ops).Reach y x := by
  have q := inv_exec sf
  constructor
  · intro hx
    have fix := sweeps_fix (h := exec ops) (held := held) (k := (exec ops).size) (alive := List.range (exec ops).size) (by simp)
    refine Classical.byContradiction fun hn => ?_
    obtain ⟨_, r, M, k1, k2, _⟩ := q
    have : ∀ n, ∃ z ∈ (exec ops).alive held, (¬ ∃ y ∈ held, (exec ops).Reach y z) ∧ n ≤ r z := by
      intro n
      induction n with
      | zero => exact ⟨x, hx, hn, by omega⟩
      | succ n ih =>
        obtain ⟨z, hz, hz2, hz3⟩ := ih
        unfold Heap.alive at hz
        rw [← fix, mem_sweep] at hz
        rcases hz.2 with hz' | ⟨u, hu, e⟩
        · exact absurd ⟨z, hz', .refl z⟩ hz2
        · refine ⟨u, hu, fun ⟨y, hy, p⟩ => hz2 ⟨y, hy, p.snoc e⟩, ?_⟩
          rcases e with e | e
          · have := (k1 _ _ e).1; omega
          · have := (k2 _ _ e).1; omega
    obtain ⟨z, hz, _, hz3⟩ := this (top r ((exec ops).alive held) + 1)
    have := le_top (r := r) hz
    omega
  · intro hx
    refine sweeps_keep ?_ x hx
    rintro z ⟨y, hy, p⟩
    exact List.mem_range.2 (reach_lt q p (hh y hy))

/-! ## When is a program safe -/

theorem Heap.Reach.mono {h h' : Heap} (hf : ∀ p ∈ h.fields, p ∈ h'.fields) (he : ∀ p ∈ h.entries, p ∈ h'.entries)
    {a b : Nat} (p : h.Reach a b) : h'.Reach a b := by
  induction p with
  | refl a => exact .refl a
  | step e _ ih => exact .step (e.imp (hf _) (he _)) ih

theorem Heap.Reach.trans {h : Heap} {a b c : Nat} (p : h.Reach a b) (q : h.Reach b c) : h.Reach a c := by
  induction p with
  | refl a => exact q
  | step e _ ih => exact .step e (ih q)

theorem ring_of_loop {h : Heap} {x y : Nat} (e : h.Owns x y) (p : h.Reach y x) : ∃ S, Ring h S := by
  have : ∃ L : List Nat, y ∈ L ∧ x ∈ L ∧ ∀ z ∈ L, z = y ∨ ∃ u ∈ L, h.Owns u z := by
    clear e
    induction p with
    | refl a => exact ⟨[a], by simp, by simp, by simp⟩
    | step e p ih =>
      rename_i a b c
      obtain ⟨L, h1, h2, h3⟩ := ih
      refine ⟨a :: L, by simp, by simp [h2], ?_⟩
      intro z hz
      rcases List.mem_cons.1 hz with rfl | hz
      · exact .inl rfl
      · rcases h3 z hz with rfl | ⟨u, hu, e'⟩
        · exact .inr ⟨a, by simp, e⟩
        · exact .inr ⟨u, by simp [hu], e'⟩
  obtain ⟨L, h1, h2, h3⟩ := this
  refine ⟨L, by intro hn; simp [hn] at h1, ?_⟩
  intro z hz
  rcases h3 z hz with rfl | h4
  · exact ⟨x, h2, e⟩
  · exact h4

theorem ring_listen {h : Heap} {s w : Nat} (p : h.Reach w s) : ∃ S, Ring (h.listen s w) S := by
  apply ring_of_loop (x := s) (y := h.size)
  · left; simp [Heap.listen]
  · refine .step (b := w) (.inl (by simp [Heap.listen])) (p.mono ?_ ?_) <;> intro e he <;> simp [Heap.listen, he]

theorem ring_addRef {h : Heap} {d w a : Nat} (ha : a ∈ h.ups w) (p : h.Reach d a) : ∃ S, Ring (h.addRef d w) S := by
  apply ring_of_loop (x := a) (y := h.size)
  · right; simp [Heap.addRef, mem_given, ha]
  · refine .step (b := d) (.inl (by simp [Heap.addRef])) (p.mono ?_ ?_) <;> intro e he <;> simp [Heap.addRef, he]

theorem Ring.mono {h h' : Heap} (hf : ∀ p ∈ h.fields, p ∈ h'.fields) (he : ∀ p ∈ h.entries, p ∈ h'.entries)
    (r : ∃ S, Ring h S) : ∃ S, Ring h' S := by
  obtain ⟨S, h1, h2⟩ := r
  refine ⟨S, h1, fun x hx => ?_⟩
  obtain ⟨y, hy, e⟩ := h2 x hx
  exact ⟨y, hy, e.imp (hf _) (he _)⟩

theorem ring_unsafe {h : Heap} {op : Op} (hok : op.ok h) (hn : ¬ op.Safe h) : ∃ S, Ring (step h op) S := by
  unfold step
  rw [if_pos hok]
  cases op <;> simp only [Op.Safe, not_true_eq_false, Classical.not_forall, Classical.not_not, not_imp, exists_prop] at hn <;> simp only [Heap.apply]
  case source o l =>
    obtain ⟨c, hc, a, ha, p⟩ := hn
    apply ring_of_loop (x := a) (y := h.size)
    · right; simp [Heap.source, mem_given, ha]
    · refine .step (b := c) (.inl (by simp [Heap.source, hc])) (p.mono ?_ ?_) <;> intro e he <;> simp [Heap.source, he]
  case listen s w => exact ring_listen hn
  case store a b =>
    apply ring_of_loop (x := a) (y := b)
    · left; simp [Heap.store]
    · refine hn.mono ?_ ?_ <;> intro e he <;> simp [Heap.store, he]
  case attach g w =>
    unfold Heap.attach
    cases hr : h.role g <;> simp only [hr, not_true_eq_false] at hn ⊢
    case part s d b =>
      cases b
      · simp only [Classical.not_and_iff_not_or_not, Classical.not_forall, Classical.not_not, exists_prop] at hn ⊢
        rcases hn with ⟨a, ha, p⟩ | p
        · refine Ring.mono ?_ ?_ (ring_addRef ha p) <;> intro e he <;> simp [Heap.listen, he]
        · exact ring_listen p
      · simp only [Classical.not_and_iff_not_or_not, Classical.not_forall, Classical.not_not, exists_prop] at hn ⊢
        rcases hn with ⟨a, ha, p⟩ | p
        · refine Ring.mono ?_ ?_ (ring_addRef ha p) <;> intro e he <;> simp [Heap.listen, Heap.wrap, he]
        · exact ring_listen p
    case shared s d =>
      simp only [Classical.not_and_iff_not_or_not, Classical.not_forall, Classical.not_not, exists_prop] at hn ⊢
      rcases hn with ⟨a, ha, p⟩ | p
      · refine Ring.mono ?_ ?_ (ring_addRef ha p) <;> intro e he <;> simp [Heap.listen, he]
      · exact ring_listen p

/-- **C90.** The condition is exact: after a safe program, the next operation closes a ring if and only if it is unsafe. -/
theorem C90_exact (ops : List Op) (sf : AllSafe {} ops) (op : Op) (hok : op.ok (exec ops)) :
    (∃ S, Ring (exec (ops ++ [op])) S) ↔ ¬ op.Safe (exec ops) := by
  have e : exec (ops ++ [op]) = step (exec ops) op := by simp [exec]
  rw [e]
  constructor
  · intro hr hs
    exact (inv_step (inv_exec sf) (fun _ => hs)).no_ring hr
  · exact ring_unsafe hok

/-- An operation which is an operator, a subject, a subscription to a subject, or a source whose disposable captures nothing — and no operator which keeps an observable that owns something. -/
def Op.Plain : Op → Prop
  | .source _ kept | .timeout _ kept | .retry _ kept => kept = []
  | .entry _ | .share _ | .attach .. | .store .. => False
  | _ => True

/-- Nothing keeps a subject alive but the program itself. -/
structure Loose (h : Heap) : Prop where
  fresh : ∀ s, h.size ≤ s → h.role s = .plain ∧ h.ups s = []
  nots : ∀ s, h.role s = .subj → h.ups s = []
  field : ∀ a s, (a, s) ∈ h.fields → h.role s ≠ .subj
  entry : ∀ a s, (a, s, true) ∈ h.entries → h.role s ≠ .subj
  ids : ∀ o s, s ∈ (h.role o).ids → h.role s ≠ .subj

macro "ls" : tactic => `(tactic| (
  constructor
  · intro s hs; simp only [upd] at hs ⊢; grind
  · intro s hs; simp only [upd] at hs ⊢; grind
  · intro a s hs
    simp only [List.mem_append, List.mem_cons, List.not_mem_nil, or_false, Prod.mk.injEq, List.map_nil, List.append_nil] at hs
    simp only [upd]; grind (splits := 20)
  · intro a s hs
    simp only [List.mem_append, List.mem_cons, List.not_mem_nil, or_false, Prod.mk.injEq, mem_given, reduceCtorEq, and_false] at hs
    simp only [upd]; grind (splits := 20)
  · intro o s hs; simp only [upd] at hs ⊢; grind [Role.ids] ))

theorem loose_step {h : Heap} {op : Op} (q : Loose h) (w : Inv h) (hp : op.Plain) (hok : op.ok h) : Loose (h.apply op) := by
  obtain ⟨ha, hb, hc⟩ := hok
  obtain ⟨⟨w1, w2, w3⟩, r, M, k⟩ := w
  have f1 : ∀ a b, (a, b) ∈ h.fields → b < h.size := fun a b e => (k.field a b e).2.2
  have f2 : ∀ a b, (a, b, true) ∈ h.entries → b < h.size := fun a b e => (k.entry a b e).2.2
  have q0 := q
  obtain ⟨q1, q2, q3, q4, q5⟩ := q
  cases op <;> simp only [Op.args, Op.subjects, Op.observers, List.mem_cons, List.not_mem_nil, or_false, forall_eq_or_imp, forall_eq, Op.Plain] at ha hb hc hp <;> simp only [Heap.apply]
  case inner n =>
    have hid := q5 n
    have hid2 := w2 n
    unfold Heap.inner
    cases hr : h.role n <;> simp only [hr, Role.ids, List.mem_cons, List.not_mem_nil, or_false, forall_eq_or_imp, forall_eq] at hid hid2 ⊢ <;> try exact q0
    all_goals ls
  case part n =>
    have hid := q5 n
    have hid2 := w2 n
    unfold Heap.part
    cases hr : h.role n <;> simp only [hr, Role.ids, List.mem_cons, List.not_mem_nil, or_false, forall_eq_or_imp, forall_eq] at hid hid2 ⊢ <;> try exact q0
    all_goals ls
  case cut a b =>
    unfold Heap.cut
    split
    · exact q0
    refine ⟨q1, q2, ?_, ?_, q5⟩
    · intro x y hx; simp only [List.mem_filter] at hx; exact q3 _ _ hx.1
    · intro x y hx; simp only [List.mem_filter] at hx; exact q4 _ _ hx.1
  case timeout o l => subst hp; simp only [Heap.timeout]; ls
  case retry o l => subst hp; simp only [Heap.retry]; ls
  case source o l => subst hp; simp only [Heap.source]; ls
  case sink => simp only [Heap.sink]; ls
  case sinkWith => simp only [Heap.sinkWith]; ls
  case pass o => simp only [Heap.pass]; ls
  case final o => simp only [Heap.final]; ls
  case merge o => simp only [Heap.merge]; ls
  case latest o => simp only [Heap.latest]; ls
  case combine o => simp only [Heap.combine]; ls
  case «until» o => simp only [Heap.until]; ls
  case debounce o => simp only [Heap.debounce]; ls
  case delay o => simp only [Heap.delay]; ls
  case switch o => simp only [Heap.switch]; ls
  case concat o => simp only [Heap.concat]; ls
  case split o b => simp only [Heap.split]; ls
  case toggle o => simp only [Heap.toggle]; ls
  case subject => simp only [Heap.subject]; ls
  case listen s o => simp only [Heap.listen]; ls

theorem safe_plain {h : Heap} {op : Op} (q : Loose h) (hp : op.Plain) (hok : op.ok h) : op.Safe h := by
  obtain ⟨ha, hb, hc⟩ := hok
  cases op <;> simp only [Op.Plain] at hp <;> simp only [Op.Safe]
  case source o l => subst hp; simp
  case listen s o =>
    simp only [Op.subjects, Op.observers, List.mem_singleton, forall_eq] at hb hc
    intro p
    have : ∀ a b, h.Reach a b → h.role b = .subj → a = b := by
      intro a b p
      induction p with
      | refl a => exact fun _ => rfl
      | step e _ ih =>
        intro hs
        have := ih hs
        subst this
        rcases e with e | e
        · exact absurd hs (q.field _ _ e)
        · exact absurd hs (q.entry _ _ e)
    have := this _ _ p hb
    subst this
    exact hc (q.nots _ hb)

theorem plain_safe {ops : List Op} {h : Heap} (w : Inv h) (q : Loose h) (hp : ∀ op ∈ ops, op.Plain) : AllSafe h ops := by
  induction ops generalizing h with
  | nil => trivial
  | cons op ops ih =>
    have h1 : op.ok h → op.Safe h := safe_plain q (hp op (by simp))
    refine ⟨h1, ih (inv_step w h1) ?_ (fun o ho => hp o (by simp [ho]))⟩
    unfold step
    by_cases hok : op.ok h
    · rw [if_pos hok]; exact loose_step q w (hp op (by simp)) hok
    · rw [if_neg hok]; exact q

theorem Loose.init : Loose {} := ⟨by simp, by simp, by simp, by simp, by simp⟩

/-- **C90.** Programs made of operators, subjects which are subscribed to and sources whose disposables capture nothing are always safe: no such program leaks, whatever it does. -/
theorem C90_operators (ops : List Op) (hp : ∀ op ∈ ops, op.Plain) :
    (¬ ∃ S, Ring (exec ops) S) ∧ (exec ops).alive [] = [] := by
  have sf := plain_safe ⟨Wf.init, _, _, Ranked.init⟩ Loose.init hp
  refine ⟨C90_no_ring ops sf, ?_⟩
  refine List.eq_nil_iff_forall_not_mem.2 fun x hx => ?_
  obtain ⟨y, hy, _⟩ := (C90_released ops sf [] (by simp) x).1 hx
  simp at hy

/-- A subject whose observable is kept by `retry` (or `repeat`, or `concat` of it): node 0 is the subject's state, 1 the subscriber, 2-4 what `retry` makes, 5 the subject's handle on the observer. -/
def retried : List Op := [.subject, .sink, .retry 1 [0], .listen 0 4]

/-- A source divided by `group_by` into groups, each retried, and merged again: 0 is the subscriber, 1-3 merge, 4-6 group_by, 7 the group's subject, 8 the group, 9 merge's inner observer, 10-12 what `retry` makes. -/
def groups : List Op := [.sink, .merge 0, .split 3 false, .part 6, .inner 3, .retry 9 [7], .attach 8 12]

/-- A source whose disposable captures the observer, as a callback which completes it on disposal does. -/
def captured : List Op := [.sink, .source 0 [0]]

instance (h : Heap) (a b : Nat) : Decidable (h.Owns a b) := by unfold Heap.Owns; infer_instance
instance (h : Heap) (S : List Nat) : Decidable (Ring h S) := by unfold Ring; infer_instance

/-- **C90, refuted for observables which own their subject.** `subject.get_observable() | retry()` makes a ring: the subject holds the observer, which holds retry's state, which holds a copy of the observable, which holds the subject. When the program drops the subject without completing it or disposing the subscription, nothing of it is ever destroyed — without `retry` everything is. The same for `group_by(…) | flat_map(group | retry())` when the source goes away, and for a source whose disposable captures the observer. -/
theorem C90_kept_refutes :
    (Ring (exec retried) [0, 5, 4, 2] ∧ 1 ∈ (exec retried).alive [] ∧ (exec [.subject, .sink, .listen 0 1]).alive [] = []) ∧
    (Ring (exec groups) [7, 15, 14, 12, 10] ∧ 0 ∈ (exec groups).alive []) ∧
    (Ring (exec captured) [0, 1] ∧ (exec captured).alive [] = [0, 1]) := by
  decide

/-- A program with inner observables, subjects, a window and references dropped: safe, so `C90_no_ring`, `C90_released` and `C90_operators` say something about it. -/
def busy : List Op :=
  [.subject, .sink, .merge 1, .pass 4, .switch 5, .inner 8, .debounce 9, .listen 0 12, .inner 4, .retry 14 [], .inner 17, .source 18 [],
   .inner 8, .cut 8 10, .concat 20, .inner 25, .split 26 true, .part 30]

example : (∀ op ∈ busy, op.Plain) ∧ (exec busy).size = 33 ∧ (exec busy).alive [] = [] ∧ ((exec busy).alive [12]).length > 5 := by
  refine ⟨?_, by decide, by decide, by decide⟩
  simp [busy, Op.Plain]

/-- A program which keeps things in disposables and stores, and is safe. -/
example : AllSafe {} [.sink, .subject, .sink, .source 2 [1], .listen 1 0] := by
  have nb : ∀ (h : Heap) (a b : Nat), a ≠ b → (∀ x, ¬ h.Owns a x) → ¬ h.Reach a b := by
    intro h a b hne hx p
    cases p with
    | refl => exact hne rfl
    | step e _ => exact hx _ e
  refine ⟨fun _ => trivial, fun _ => trivial, fun _ => trivial, fun _ => ?_, fun _ => ?_, trivial⟩
  · intro c hc a ha
    simp only [List.mem_singleton] at hc
    subst hc
    apply nb
    · have : a = 2 := by simpa [step, Op.ok, Op.args, Op.subjects, Op.observers, Heap.apply, Heap.sink, Heap.subject, upd] using ha
      omega
    · intro x hx; simp [step, Op.ok, Op.args, Op.subjects, Op.observers, Heap.apply, Heap.sink, Heap.subject, Heap.Owns] at hx
  · apply nb
    · decide
    · intro x hx
      simp [step, Op.ok, Op.args, Op.subjects, Op.observers, Heap.apply, Heap.sink, Heap.subject, Heap.source, Heap.given, Heap.Owns, upd] at hx

end Rpp.Graph
