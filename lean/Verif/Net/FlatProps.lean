import Verif.Net.FlatSync
import Verif.Net.Props

/-!
# C103: flat_map

`q | flat_map(f)`, where `q` and every `f x` are expressions of `Verif.Net.Tree` (with further `flat_map`s in them), at every moment of every
execution with any number of threads; and on one thread, where `flat_map` obeys the laws of a monad.  That `flat_map` can be used in
expressions of any form is part of C102.
-/

namespace Rpp.Net

open Comb (Sig ofTaken)

variable {ι α ε : Type}

theorem vals_prefix {t u : Trace α ε} (h : notes t <+: notes u) : t.vals <+: u.vals := by
  have hv : ∀ u : Trace α ε, Comb.sigVals (notes u) = u.vals := fun u => by
    rcases u with ⟨vs, f⟩
    cases f <;> simp [notes, Comb.sigVals, List.filterMap_append, List.filterMap_map, Function.comp_def]
  obtain ⟨r, hr⟩ := h
  refine ⟨Comb.sigVals r, ?_⟩
  rw [← hv t, ← hv u, ← hr]
  simp [Comb.sigVals, List.filterMap_append]

theorem term_mem {t : Trace α ε} {l : List (Sig α ε)} (h : l <+: notes t) {f} (hf : .term f ∈ l) : l = notes t ∧ t.fin = some f := by
  have e := notes_end h hf
  refine ⟨e, ?_⟩
  rw [e] at hf
  rcases t with ⟨vs, g⟩
  cases g <;> simp_all [notes]

theorem sig_prefix {t : Trace α ε} {l : List (Sig α ε)} (h : l <+: notes t) : Comb.sigVals l <+: t.vals := by
  have hv : Comb.sigVals (notes t) = t.vals := by
    rcases t with ⟨vs, f⟩
    cases f <;> simp [notes, Comb.sigVals, List.filterMap_append, List.filterMap_map, Function.comp_def]
  obtain ⟨r, hr⟩ := h
  refine ⟨Comb.sigVals r, ?_⟩
  rw [← hv, ← hr]
  simp [Comb.sigVals, List.filterMap_append]

theorem sig_all (t : Trace α ε) : Comb.sigVals (notes t) = t.vals := by
  rcases t with ⟨vs, f⟩
  cases f <;> simp [notes, Comb.sigVals, List.filterMap_append, List.filterMap_map, Function.comp_def]

/-- C103: whatever the threads do, at every moment: the inner observables that were subscribed to are those made of the first
values of the outer one, in this order; what the observer was told is an interleaving `w` of beginnings of their sequences; it was told of
completion only when the outer observable and all inner ones have completed, and after all their values; and of an error only if
it is the error of the outer one, after all its values were subscribed to, or of one of the inner ones, after all values of that one. -/
theorem C103_moment (eq : DecidableEq ι) (q : Net ε ι) (f : ι → Net ε α) (ls : List (Net.flat eq q f .nil).Lbl) :
    let s := (Net.flat eq q f .nil).exec ls
    let outer := q.seq s.2.1
    let t := (Net.flat eq q f .nil).seq s
    s.2.2.map (·.1) <+: outer.vals ∧
    (∃ w : List (Nat × α), t.vals = w.map (·.2) ∧ (∀ p ∈ w, p.1 < s.2.2.length) ∧
      (∀ (k : Nat) z, s.2.2[k]? = some z → ofTaken k w <+: ((f z.1).seq z.2).vals) ∧
      (t.fin = some .completed → outer.fin = some .completed ∧ s.2.2.map (·.1) = outer.vals ∧
        ∀ (k : Nat) z, s.2.2[k]? = some z → ((f z.1).seq z.2).fin = some .completed ∧ ofTaken k w = ((f z.1).seq z.2).vals) ∧
      (∀ e, t.fin = some (.error e) → (outer.fin = some (.error e) ∧ s.2.2.map (·.1) = outer.vals) ∨
        ∃ (k : Nat) (z : _), s.2.2[k]? = some z ∧ ((f z.1).seq z.2).fin = some (.error e) ∧ ofTaken k w = ((f z.1).seq z.2).vals)) := by
  intro s outer t
  have hg : Good (.flat eq q f .nil) s := good_exec _ ls
  have ht : t = seqOf (flatTold s.1) := rfl
  obtain ⟨w, h1, h2, h3, h4, h5⟩ := flat_makes hg.1.inv
  have hfin : ∀ x, outerFin s.1 = some x → (⟨s.2.2.map (·.1), outerFin s.1⟩ : Trace ι ε) = outer := fun x hx =>
    notes_inj (notes_end hg.1.pre (f := x) (by rw [hx]; simp [notes]))
  refine ⟨vals_prefix hg.1.pre, w, h1, h2, fun k z hz => ?_, fun hc => ?_, fun e he => ?_⟩
  · exact (h3 k (List.getElem?_eq_some_iff.1 hz).1).trans (sig_prefix (hg.1.kids k z hz))
  · obtain ⟨h6, h7⟩ := h4 hc
    have e := hfin _ h6
    refine ⟨by rw [← e]; exact h6, by rw [← e], fun k z hz => ?_⟩
    obtain ⟨h8, h9⟩ := h7 k (List.getElem?_eq_some_iff.1 hz).1
    obtain ⟨e1, e2⟩ := term_mem (hg.1.kids k z hz) h8
    refine ⟨e2, h9.trans ?_⟩
    show Comb.sigVals (Comb.received (k + 1) s.1.log) = _
    rw [e1]; exact sig_all _
  · rcases h5 e he with h6 | ⟨k, hk, h6, h9⟩
    · left
      have e := hfin _ h6
      exact ⟨by rw [← e]; exact h6, by rw [← e]⟩
    · right
      obtain ⟨z, hz⟩ : ∃ z, s.2.2[k]? = some z := ⟨_, List.getElem?_eq_getElem hk⟩
      obtain ⟨e1, e2⟩ := term_mem (hg.1.kids k z hz) h6
      refine ⟨k, z, hz, e2, h9.trans ?_⟩
      show Comb.sigVals (Comb.received (k + 1) s.1.log) = _
      rw [e1]; exact sig_all _

/-- C103: nothing is missing when nothing is left to do: unless the result has ended or somebody has disposed of it, every value of the outer
observable has been subscribed to, and the observer was told an interleaving of all values of all inner observables; none of them has
failed, and one of them (or the outer one) has not completed. -/
theorem C103_all (eq : DecidableEq ι) (q : Net ε ι) (f : ι → Net ε α) (ls : List (Net.flat eq q f .nil).Lbl)
    (hr : (Net.flat eq q f .nil).Rest ((Net.flat eq q f .nil).exec ls)) (hk : (Net.flat eq q f .nil).Kept ((Net.flat eq q f .nil).exec ls)) :
    let s := (Net.flat eq q f .nil).exec ls
    let outer := q.seq s.2.1
    let t := (Net.flat eq q f .nil).seq s
    t.fin = none →
    s.2.2.map (·.1) = outer.vals ∧
    (∃ w : List (Nat × α), t.vals = w.map (·.2) ∧ (∀ p ∈ w, p.1 < s.2.2.length) ∧
      ∀ (k : Nat) z, s.2.2[k]? = some z → ofTaken k w = ((f z.1).seq z.2).vals) ∧
    (∀ e, outer.fin ≠ some (.error e)) ∧ (∀ (k : Nat) z, s.2.2[k]? = some z → ∀ e, ((f z.1).seq z.2).fin ≠ some (.error e)) ∧
    ¬ (outer.fin = some .completed ∧ ∀ (k : Nat) z, s.2.2[k]? = some z → ((f z.1).seq z.2).fin = some .completed) := by
  intro s outer t hf
  have hg : Good (.flat eq q f .nil) s := good_exec _ ls
  obtain ⟨hc, -, -⟩ := hk hf
  have hu : (seqOf (flatTold s.1)).fin = none := hf
  have ho : (⟨s.2.2.map (·.1), outerFin s.1⟩ : Trace ι ε) = outer := outer_all hg.1 hr.1 hc hu hr.2.1
  have hi : ∀ (k : Nat) z, s.2.2[k]? = some z → Comb.received (k + 1) s.1.log = notes ((f z.1).seq z.2) := fun k z hz =>
    inner_all hg.1 hr.1 hc hu k z hz (hr.2.2.2 k z hz).1
  have hof : outer.fin = outerFin s.1 := by rw [← ho]
  have hterm : ∀ (k : Nat) z x, s.2.2[k]? = some z → ((f z.1).seq z.2).fin = some x → .term x ∈ Comb.received (k + 1) s.1.log := by
    intro k z x hz hx
    rw [hi k z hz]
    simp [notes, hx]
  obtain ⟨⟨w, h1, h2, h3⟩, h4, h5, h6⟩ := flat_all hg.1.inv hr.1 hc hu
  refine ⟨by rw [← ho], ⟨w, h1, h2, fun k z hz => ?_⟩, fun e => by rw [hof]; exact h4 e, fun k z hz e he => ?_, fun ⟨h7, h8⟩ => h6 ⟨by rw [← hof]; exact h7, fun k hk' => ?_⟩⟩
  · refine (h3 k (List.getElem?_eq_some_iff.1 hz).1).trans ?_
    show Comb.sigVals (Comb.received (k + 1) s.1.log) = _
    rw [hi k z hz]; exact sig_all _
  · exact h5 k (List.getElem?_eq_some_iff.1 hz).1 e (hterm k z _ hz he)
  · obtain ⟨z, hz⟩ : ∃ z, s.2.2[k]? = some z := ⟨_, List.getElem?_eq_getElem hk'⟩
    exact hterm k z _ hz (h8 k z hz)

/-! ## One thread -/

/-- C103: on one thread, when each inner observable says all it has to say (`F x`) while it is subscribed to, the observer is told
the inner sequences one after the other, up to the first error (`flatten`). -/
theorem C103_one_thread (t : Trace ι ε) (F : ι → Trace α ε) :
    (Comb.begs (Comb.exec Comb.mergeHub (oneThread t F)).log).map (·.2) = notes (flatten t F) := one_thread t F

/-- C103: `just(x) | flat_map(f)` is `f(x)`. -/
theorem C103_left_unit (x : ι) (F : ι → Trace α ε) :
    (Comb.begs (Comb.exec Comb.mergeHub (oneThread (unit x) F)).log).map (·.2) = notes (F x) := by
  rw [C103_one_thread]
  exact congrArg notes (then_unit (F x))

/-- C103: `q | flat_map(just)` is `q`. -/
theorem C103_right_unit (t : Trace α ε) :
    (Comb.begs (Comb.exec Comb.mergeHub (oneThread t unit)).log).map (·.2) = notes t := by
  rw [C103_one_thread]
  congr 1
  rcases t with ⟨vs, fin⟩
  unfold flatten
  induction vs with
  | nil => rfl
  | cons v vs ih =>
    rw [List.map_cons, List.foldr_cons, ih]
    rfl

/-- C103: `q | flat_map(f) | flat_map(g)` is `q | flat_map(x ↦ f(x) | flat_map(g))`. -/
theorem C103_assoc {β : Type} (t : Trace ι ε) (F : ι → Trace α ε) (G : α → Trace β ε) :
    (Comb.begs (Comb.exec Comb.mergeHub (oneThread (flatten t F) G)).log).map (·.2) =
    (Comb.begs (Comb.exec Comb.mergeHub (oneThread t fun x => flatten (F x) G)).log).map (·.2) := by
  rw [C103_one_thread, C103_one_thread]
  congr 1
  rcases t with ⟨vs, fin⟩
  induction vs with
  | nil => rfl
  | cons v vs ih =>
    show flatten (andThen (F v) (flatten ⟨vs, fin⟩ F)) G = andThen (flatten (F v) G) (flatten ⟨vs, fin⟩ fun x => flatten (F x) G)
    rw [flatten_then, ih]

/-! ## The hypotheses are met -/

/-- `a | flat_map(x ↦ b_x | map(+ 10 x))` -/
def demoFlat : Net Nat Nat :=
  .flat inferInstance (.src (.nil : Pipe Nat Nat Nat)) (fun x => .src (.cons (.map fun a : Nat => .ok (a + 10 * x)) .nil)) .nil

/-- `a` emits 1 and 2; `b₂` emits 5 before `b₁` emits 6 and 7. -/
def demoFlatRun : List demoFlat.Lbl :=
  [.inSrc (.call (.next 1)), .inSrc (.call (.next 2)), .outer, .merge (.run 0), .outer, .merge (.run 0),
   .inKid 1 2 (.call (.next 5)), .inKid 0 1 (.call (.next 6)), .inKid 0 1 (.call (.next 7)), .inner 1] ++
  ([.run 2, .run 2, .ret 2, .run 2] : List FlatAct).map (fun a => .merge a) ++ [.inner 0] ++
  ([.run 1, .run 1, .ret 1, .run 1] : List FlatAct).map (fun a => .merge a) ++ [.inner 0] ++
  ([.run 1, .run 1, .ret 1, .run 1] : List FlatAct).map (fun a => .merge a)

set_option maxRecDepth 100000 in
example : demoFlat.sees 0 (fun _ => {}) (demoFlat.exec demoFlatRun) = [.next 25, .next 16, .next 17] := by decide

set_option maxRecDepth 100000 in
example : demoFlat.Rest (demoFlat.exec demoFlatRun) := by
  refine ⟨fun i => ?_, by decide, trivial, fun k z hz => ?_⟩
  · match i with
    | 0 => rfl
    | 1 => rfl
    | 2 => rfl
    | _ + 3 => rfl
  · match k, hz with
    | 0, hz => cases hz; exact ⟨rfl, trivial⟩
    | 1, hz => cases hz; exact ⟨rfl, trivial⟩
    | _ + 2, hz => cases hz

set_option maxRecDepth 100000 in
example : demoFlat.Kept (demoFlat.exec demoFlatRun) :=
  C102_kept _ _ (List.all_eq_true.1 (by decide : demoFlatRun.all demoFlat.tidy = true))

set_option maxRecDepth 100000 in
example : (demoFlat.seq (demoFlat.exec demoFlatRun)).fin = none := by decide

/-- Both ends, on one thread: 1 ↦ (10, 11 completed), 2 ↦ (20, error 7), 3 ↦ (30): the error of the second ends everything. -/
example : flatten (⟨[1, 2, 3], some .completed⟩ : Trace Nat Nat)
    (fun x => if x = 2 then ⟨[20], some (.error 7)⟩ else ⟨[10 * x, 10 * x + 1], some .completed⟩) = (⟨[10, 11, 20], some (.error 7)⟩ : Trace Nat Nat) := by
  decide

/-- An inner observable that does not end lets the others through, but nothing completes. -/
example : flatten (⟨[1, 2], some .completed⟩ : Trace Nat Nat) (fun x => if x = 1 then ⟨[10], none⟩ else unit 20) = (⟨[10, 20], none⟩ : Trace Nat Nat) := by
  decide

end Rpp.Net
