import Verif.Disposable.GraphDispose

/-!
# Where a source's disposable goes is there: C91

`set_upstream` writes into containers which may be of another object than the observer.
-/

namespace Rpp.Graph

/-- Used in the proofs; models no code. -/
def RoleKept (h : Heap) : Role → Prop
  | .merge st d _ | .latest st d _ | .again st d _ => h.Holds st d
  | .fwd st o _ => h.Holds st o
  | _ => True

/-- Used in the proofs; models no code. -/
structure KeptInv (h : Heap) : Prop where
  fresh : ∀ o, h.size ≤ o → h.role o = .plain ∧ h.ups o = []
  ups : ∀ n x, x ∈ h.ups n → h.Holds n x
  role : ∀ n, RoleKept h (h.role n)

theorem RoleKept.mono {h h' : Heap} {r : Role} (hf : ∀ p ∈ h.fields, p ∈ h'.fields) (q : RoleKept h r) : RoleKept h' r := by
  cases r <;> simp only [RoleKept] at q ⊢ <;> exact q.mono hf

theorem KeptInv.grow {h h' : Heap} (q : KeptInv h) (g : Grow h h') (hn : ∀ n, h.size ≤ n → (∀ x ∈ h'.ups n, h'.Holds n x) ∧ RoleKept h' (h'.role n)) : KeptInv h' := by
  refine ⟨g.fresh, fun n x hx => ?_, fun n => ?_⟩
  · by_cases ho : n < h.size
    · rw [g.ups n ho] at hx; exact (q.ups n x hx).mono g.fields
    · exact (hn n (by omega)).1 x hx
  · by_cases ho : n < h.size
    · rw [g.role n ho]; exact (q.role n).mono g.fields
    · exact (hn n (by omega)).2

/-- A member, or a member's member, and so on; models no code. -/
theorem Heap.Holds.two {h : Heap} {a b c : Nat} (p : (a, b) ∈ h.fields) (q : (b, c) ∈ h.fields) : h.Holds a c := .step p (.field q)

/-- Of the new nodes, `n` is the only one which takes disposables. -/
theorem KeptInv.observer {h h' : Heap} (q : KeptInv h) (g : Grow h h') {n : Nat} (hl : ∀ x ∈ h'.ups n, h'.Holds n x) (hr : RoleKept h' (h'.role n))
    (other : ∀ m, h.size ≤ m → m ≠ n → h'.ups m = [] ∧ RoleKept h' (h'.role m)) : KeptInv h' := by
  refine q.grow g fun m hm => ?_
  by_cases e : m = n
  · subst e; exact ⟨hl, hr⟩
  · obtain ⟨h1, h2⟩ := other m hm e
    rw [h1]; exact ⟨by simp, h2⟩

set_option hygiene false in
macro "ot" : tactic => `(tactic| (
  intro m hm hne
  have f := fr m hm
  (try simp only [upd])
  grind [RoleKept]))

theorem kept_listen {h : Heap} {s w : Nat} (q : KeptInv h) : KeptInv (h.listen s w) := by
  have fr := q.fresh
  refine q.observer (n := h.size) (by unfold Heap.listen; gr) ?_ ?_ ?_ <;> simp only [Heap.listen]
  · intro x hx; rw [(fr _ (Nat.le_refl _)).2] at hx; simp at hx
  · rw [(fr _ (Nat.le_refl _)).1]; trivial
  · ot

theorem kept_addRef {h : Heap} {d w : Nat} (q : KeptInv h) : KeptInv (h.addRef d w) := by
  have fr := q.fresh
  refine q.observer (n := h.size) (by unfold Heap.addRef; gr) ?_ ?_ ?_ <;> simp only [Heap.addRef]
  · intro x hx; rw [(fr _ (Nat.le_refl _)).2] at hx; simp at hx
  · rw [(fr _ (Nat.le_refl _)).1]; trivial
  · ot

set_option hygiene false in
macro "kp" : tactic => `(tactic| (
  · intro x hx
    simp only [upd, if_true, List.mem_cons, List.not_mem_nil, or_false] at hx
    first
      | (subst hx; first | exact .refl _ | (refine .field ?_; simp; done) | exact .two (b := h.size) (by simp) (by simp))
      | (rcases hx with rfl | rfl <;> first | exact .refl _ | (refine .field ?_; simp; done) | exact .two (b := h.size) (by simp) (by simp))))

set_option hygiene false in
macro "rl" : tactic => `(tactic| (
  · first
      | (rw [(fr _ (by omega)).1]; trivial)
      | (simp only [upd, if_true, RoleKept]; first | exact .refl _ | exact .field (by simp))))

theorem kept_wrap {h : Heap} {w i : Nat} (q : KeptInv h) : KeptInv (h.wrap w i) := by
  have fr := q.fresh
  refine q.observer (n := h.size) (by unfold Heap.wrap; gr) ?_ ?_ ?_ <;> simp only [Heap.wrap]
  · kp
  · rl
  · ot

theorem kept_attach {h : Heap} {g w : Nat} (q : KeptInv h) : KeptInv (h.attach g w) := by
  unfold Heap.attach
  split
  · exact kept_listen (kept_wrap (kept_addRef q))
  · exact kept_listen (kept_addRef q)
  · exact kept_listen (kept_addRef q)
  · exact q

set_option hygiene false in
/-- `n` passes a disposable on to `o`, which it holds through `p`. -/
macro "via" p:term : tactic => `(tactic| (
  · intro x hx
    simp only [upd, if_true, List.mem_cons] at hx
    first
      | (refine Heap.Holds.trans (b := o) $p ((q.ups o x hx).mono ?_)
         intro y hy; simp [hy])
      | (rcases hx with rfl | hx
         · exact .refl _
         · refine Heap.Holds.trans (b := o) $p ((q.ups o x hx).mono ?_)
           intro y hy; simp [hy])))

theorem kept_inner {h : Heap} {k : Nat} (q : KeptInv h) : KeptInv (h.inner k) := by
  have fr := q.fresh
  have hk := q.role k
  unfold Heap.inner
  cases e : h.role k <;> rw [e] at hk <;> simp only [RoleKept] at hk <;> simp only
  case merge st d o | latest st d o =>
    refine q.observer (n := h.size) (by gr) ?_ (by rl) (by ot)
    intro x hx
    simp only [upd, if_true, List.mem_cons, List.not_mem_nil, or_false] at hx
    rcases hx with rfl | rfl
    · exact .refl _
    · exact .step (b := st) (by simp) (hk.mono (by intro y hy; simp [hy]))
  case fwd st o l =>
    refine q.observer (n := h.size) (by gr) ?_ (by rl) (by ot)
    intro x hx
    simp only [upd, if_true] at hx
    have hx' : x = h.size ∨ x ∈ h.ups o := by
      split at hx
      · simpa using hx
      · exact .inr hx
    rcases hx' with rfl | hx'
    · exact .refl _
    · exact .step (b := st) (by simp) ((hk.trans (q.ups o x hx')).mono (by intro y hy; simp [hy]))
  case again st d o =>
    refine q.observer (n := h.size) (by gr) ?_ ?_ (by ot)
    · intro x hx
      simp only [upd, if_true, List.mem_cons, List.not_mem_nil, or_false] at hx
      subst hx
      exact .step (b := st) (by simp) (hk.mono (by intro y hy; simp [hy]))
    · simp only [upd, if_true, RoleKept]; exact hk.mono (by intro y hy; simp [hy])
  case concat st d o => exact q.observer (n := h.size) (by gr) (by kp) (by simp [upd, RoleKept]) (by ot)
  case queued st i o => exact q.observer (n := h.size) (by gr) (by kp) (by simp [upd, RoleKept]) (by ot)
  case switch st o => exact q.observer (n := h.size) (by gr) (by kp) (by rl) (by ot)
  all_goals exact q

theorem kept_part {h : Heap} {k : Nat} (q : KeptInv h) : KeptInv (h.part k) := by
  have fr := q.fresh
  unfold Heap.part
  split
  · refine q.observer (n := h.size) (by gr) ?_ (by simp only [upd]; grind [RoleKept]) (by ot)
    intro x hx; simp only at hx; rw [(fr _ (Nat.le_refl _)).2] at hx; simp at hx
  · next st d _ =>
    refine q.observer (n := h.size + 2) (by gr) ?_ (by simp only [upd]; grind [RoleKept]) (by ot)
    intro x hx
    simp only [upd, if_true, List.mem_singleton] at hx
    subst hx
    exact .two (b := st) (by simp) (by simp)
  · exact q

theorem kept_step {h : Heap} {op : Op} (q : KeptInv h) (hc : op.isCut = false) : KeptInv (step h op) := by
  unfold step
  by_cases hok : op.ok h
  · rw [if_pos hok]
    have fr := q.fresh
    have none : ∀ x, x ∈ h.ups h.size → False := fun x hx => by rw [(fr _ (Nat.le_refl _)).2] at hx; simp at hx
    cases op <;> simp only [Op.isCut, reduceCtorEq] at hc <;> simp only [Heap.apply]
    case sink => unfold Heap.sink; exact q.observer (n := h.size) (by gr) (by kp) (by rl) (by ot)
    case sinkWith => unfold Heap.sinkWith; exact q.observer (n := h.size + 1) (by gr) (by kp) (by rl) (by ot)
    case pass o => unfold Heap.pass; exact q.observer (n := h.size) (by gr) (by via (.field (by simp))) (by rl) (by ot)
    case final o => unfold Heap.final; exact q.observer (n := h.size) (by gr) (fun x hx => (none x hx).elim) (by rl) (by ot)
    case merge o => unfold Heap.merge; exact q.observer (n := h.size + 2) (by gr) (by kp) (by rl) (by ot)
    case latest o => unfold Heap.latest; exact q.observer (n := h.size + 2) (by gr) (by kp) (by rl) (by ot)
    case combine o => unfold Heap.combine; exact q.observer (n := h.size + 1) (by gr) (by via (.two (b := h.size) (by simp) (by simp))) (by rl) (by ot)
    case «until» o => unfold Heap.until; exact q.observer (n := h.size + 1) (by gr) (by via (.two (b := h.size) (by simp) (by simp))) (by rl) (by ot)
    case debounce o => unfold Heap.debounce; exact q.observer (n := h.size + 1) (by gr) (by via (.two (b := h.size) (by simp) (by simp))) (by rl) (by ot)
    case delay o => unfold Heap.delay; exact q.observer (n := h.size + 1) (by gr) (by via (.two (b := h.size) (by simp) (by simp))) (by rl) (by ot)
    case timeout o l => unfold Heap.timeout; exact q.observer (n := h.size + 1) (by gr) (by kp) (by rl) (by ot)
    case retry o l => unfold Heap.retry; exact q.observer (n := h.size + 2) (by gr) (by kp) (by rl) (by ot)
    case switch o => unfold Heap.switch; exact q.observer (n := h.size + 2) (by gr) (by kp) (by simp [upd, RoleKept]) (by ot)
    case concat o => unfold Heap.concat; exact q.observer (n := h.size + 3) (by gr) (by kp) (by simp [upd, RoleKept]) (by ot)
    case split o b => unfold Heap.split; exact q.observer (n := h.size + 2) (by gr) (by kp) (by simp [upd, RoleKept]) (by ot)
    case toggle o =>
      unfold Heap.toggle
      refine q.grow (by gr) fun m hm => ?_
      have f := fr m hm
      refine ⟨fun x hx => ?_, by simp only [upd]; grind [RoleKept]⟩
      simp only [upd] at hx
      split at hx
      · next e => subst e; simp only [List.mem_singleton] at hx; subst hx; exact .field (by simp)
      · split at hx
        · next e => subst e; simp only [List.mem_singleton] at hx; subst hx; exact .field (by simp)
        · rw [f.2] at hx; simp at hx
    case inner n => exact kept_inner q
    case part n => exact kept_part q
    case subject => unfold Heap.subject; exact q.observer (n := h.size) (by gr) (fun x hx => (none x hx).elim) (by simp [upd, RoleKept]) (by ot)
    case entry s => unfold Heap.entry; exact q.observer (n := h.size) (by gr) (by kp) (by rl) (by ot)
    case listen s o => exact kept_listen q
    case attach g o => exact kept_attach q
    case share s => unfold Heap.share; exact q.observer (n := h.size + 2) (by gr) (by kp) (by simp only [upd]; grind [RoleKept]) (by ot)
    case source o l => unfold Heap.source; exact q.observer (n := h.size) (by gr) (fun x hx => (none x hx).elim) (by rl) (by ot)
    case store a b => unfold Heap.store; exact q.observer (n := h.size) (by gr) (fun x hx => (none x hx).elim) (by rl) (by ot)
  · rw [if_neg hok]; exact q

theorem kept_foldl {ops : List Op} {h : Heap} (q : KeptInv h) (hc : ∀ op ∈ ops, op.isCut = false) : KeptInv (ops.foldl step h) := by
  induction ops generalizing h with
  | nil => exact q
  | cons op ops ih => exact ih (kept_step q (hc op (by simp))) (fun o ho => hc o (by simp [ho]))

/-- **C91.** The containers an observer `n` puts its source's disposable into — be they its own, those of the operator's state, or those of an observer far below it — are there as long as somebody holds `n`: it holds them through its members. Whatever other references are dropped, it stays as long as those dropped are not to something `n` holds through its members. -/
theorem C91_kept (ops : List Op) (n x : Nat) (hx : x ∈ (exec ops).ups n)
    (drop : ∀ a b, Op.cut a b ∈ ops → ¬ (exec (undropped ops)).Holds n b) : (exec ops).Holds n x := by
  let c : Nat → Prop := fun b => ∃ a, Op.cut a b ∈ ops
  have q0 : Sim c {} {} := ⟨rfl, rfl, rfl, rfl, by simp, by simp⟩
  have q1 : Sim c (exec ops) (exec (undropped ops)) := sim_foldl q0 (fun a b hm => ⟨a, hm⟩)
  have k : KeptInv (exec (undropped ops)) := kept_foldl ⟨by simp, by simp, by simp [RoleKept]⟩
    (fun op ho => by simpa [undropped] using (List.mem_filter.1 ho).2)
  refine Heap.Holds.sim q1 (.refl n) (k.ups n x (by rw [← q1.ups]; exact hx)) ?_
  rintro b hb ⟨a, ha⟩
  exact drop a b ha hb

/-- A subscriber (0), zip on it (1, 2), take_until on that (3, 4), map on that (5) and a further observable of the zip (6), whose reference to another subscriber's (7) is dropped: it puts disposables into the container of the subscriber. -/
example : let ops : List Op := [.sink, .combine 0, .until 2, .pass 4, .inner 2, .sink, .store 6 7, .cut 6 7]
    0 ∈ (exec ops).ups 6 ∧ 0 ∈ (exec ops).ups 5 := by decide

end Rpp.Graph
