import Verif.Net.FlatProofs

/-!
# flat_map on one thread

When everything happens on one thread and every inner observable says all it will ever say while it is subscribed to, `flat_map` is the
Kleisli composition of sequences: the inner sequences one after the other.
-/

namespace Rpp.Net

open Comb (Sig)

variable {α ι ε : Type}

/-! ## Specification -/

/-- First `a` and then `b`, where nobody waits for the end of `a`: an error of `a` ends everything, and it is complete when both are.
Specification; models no code. -/
def andThen (a b : Trace α ε) : Trace α ε :=
  match a.fin with
  | some (.error _) => a
  | some .completed => ⟨a.vals ++ b.vals, b.fin⟩
  | none => ⟨a.vals ++ b.vals, match b.fin with | some (.error e) => some (.error e) | _ => none⟩

/-- The sequence of a source with sequence `t` when each value `x` is replaced by the sequence `F x`.  Specification; models no code. -/
def flatten (t : Trace ι ε) (F : ι → Trace α ε) : Trace α ε := (t.vals.map F).foldr andThen ⟨[], t.fin⟩

/-- The sequence of `just(x)`.  Specification; models no code. -/
def unit (x : α) : Trace α ε := ⟨[x], some .completed⟩

/-! ## One thread -/

/-- A call `on_next` of source `i` on one thread, from beginning to end; no counterpart in /repo. -/
def callNext (i : Nat) (v : α) : List (Comb.Lbl α ε) := [.next i v, .run i, .run i, .ret i .ok, .run i]

/-- A terminal call of source `i` on one thread, from beginning to end; no counterpart in /repo. -/
def callTerm (i : Nat) (t : Term ε) : List (Comb.Lbl α ε) := [.term i t, .run i, .run i, .run i, .ret i .ok, .run i, .run i]

/-- Source `i` says all of `t`; no counterpart in /repo. -/
def says (i : Nat) (t : Trace α ε) : List (Comb.Lbl α ε) := t.vals.flatMap (callNext i) ++ t.fin.toList.flatMap (callTerm i)

/-- The outer source emits `xs`, when `m` inner ones have been subscribed to: each value is subscribed to, says all it has to say meanwhile, and
then the call of the outer source returns (operators/merge.hpp 121-126). -/
def outerSays (F : ι → Trace α ε) : Nat → List ι → List (Comb.Lbl α ε)
  | _, [] => []
  | m, x :: xs => .opn (m + 1) :: (says (m + 1) (F x) ++ .run 0 :: outerSays F (m + 1) xs)

/-- Everything on one thread; no counterpart in /repo. -/
def oneThread (t : Trace ι ε) (F : ι → Trace α ε) : List (Comb.Lbl α ε) := outerSays F 0 t.vals ++ t.fin.toList.flatMap (callTerm 0)

/-! ## Laws of the specification -/

theorem then_unit (a : Trace α ε) : andThen a ⟨[], some .completed⟩ = a := by
  rcases a with ⟨vs, _ | ⟨e | _⟩⟩ <;> simp [andThen]

theorem unit_then (a : Trace α ε) : andThen ⟨[], some .completed⟩ a = a := by
  rcases a with ⟨vs, _ | ⟨e | _⟩⟩ <;> simp [andThen]

theorem then_assoc (a b c : Trace α ε) : andThen (andThen a b) c = andThen a (andThen b c) := by
  rcases a with ⟨vs, _ | ⟨e | _⟩⟩ <;> rcases b with ⟨ws, _ | ⟨e | _⟩⟩ <;> rcases c with ⟨us, _ | ⟨e | _⟩⟩ <;> simp [andThen]

theorem fold_then (l : List (Trace α ε)) (z : Trace α ε) : l.foldr andThen z = andThen (l.foldr andThen ⟨[], some .completed⟩) z := by
  induction l with
  | nil => exact (unit_then z).symm
  | cons a l ih => rw [List.foldr_cons, List.foldr_cons, ih, then_assoc]

theorem flatten_then (a b : Trace ι ε) (F : ι → Trace α ε) : flatten (andThen a b) F = andThen (flatten a F) (flatten b F) := by
  unfold flatten
  rw [fold_then (a.vals.map F), then_assoc]
  rcases a with ⟨vs, _ | ⟨e | _⟩⟩
  · simp only [andThen, List.map_append, List.foldr_append]
    rw [fold_then (vs.map F)]
    congr 1
    rw [fold_then (b.vals.map F), fold_then (b.vals.map F) ⟨[], b.fin⟩]
    generalize (b.vals.map F).foldr andThen ⟨[], some .completed⟩ = u
    rcases b with ⟨ws, _ | ⟨e | _⟩⟩ <;> rcases u with ⟨us, _ | ⟨e | _⟩⟩ <;> simp [andThen]
  · show (vs.map F).foldr andThen ⟨[], some (.error e)⟩ = _
    rw [fold_then (vs.map F)]
    rfl
  · simp only [andThen, List.map_append, List.foldr_append]
    rw [fold_then (vs.map F)]
    rfl

/-! ## One call -/

variable {h : Comb.St α α ε Nat}

theorem next_whole (k : Nat) (v : α) (hc : h.calls (k + 1) = .idle) (ha : h.active (k + 1) = true) (hd : h.done (k + 1) = false) (hs : h.shut = false)
    (hl : h.lock = none) : (callNext (k + 1) v).foldl (Comb.step Comb.mergeHub) h =
      { h with log := h.log ++ (if h.gone then [.recv (k + 1) (.next v), .act (k + 1) (.next v)]
        else [.recv (k + 1) (.next v), .act (k + 1) (.next v), .beg (k + 1) (.next v), .fin (k + 1)]) } := by
  rcases h with ⟨st, lock, gone, shut, done, active, calls, log⟩
  simp only at hc ha hd hs hl
  subst hs hl
  cases gone <;>
  simp [callNext, Comb.step, hc, ha, hd, Comb.Pc.isIdle, Comb.St.goto, Comb.St.emit, Comb.St.advance, Comb.St.process, Comb.mergeHub]
  all_goals
    refine (funext fun j => ?_)
    by_cases e : j = k + 1
    · subst e; simp [hc]
    · simp [e]

/-- What a terminal notification does to the state; models no code. -/
def afterTerm (h : Comb.St α α ε Nat) (i : Nat) (t : Term ε) : Comb.St α α ε Nat :=
  let tell := !h.gone && (match t with | .completed => h.st == 1 | .error _ => true)
  { h with
    st := match t with | .completed => h.st - 1 | .error _ => h.st
    gone := h.gone || tell
    done := fun j => if j = i then true else h.done j
    log := h.log ++ (if tell then [.recv i (.term t), .act i (.term t), .beg i (.term t), .fin i] else [.recv i (.term t), .act i (.term t)]) }

theorem term_whole (i : Nat) (t : Term ε) (hc : h.calls i = .idle) (ha : h.active i = true) (hd : h.done i = false) (hs : h.shut = false)
    (hl : h.lock = none) : (callTerm i t).foldl (Comb.step Comb.mergeHub) h = afterTerm h i t := by
  rcases h with ⟨st, lock, gone, shut, done, active, calls, log⟩
  simp only at hc ha hd hs hl
  subst hs hl
  cases t with
  | completed =>
    by_cases h1 : st = 1 <;> cases gone <;>
    simp [afterTerm, callTerm, Comb.step, hc, ha, hd, h1, Comb.Pc.isIdle, Comb.St.goto, Comb.St.emit, Comb.St.advance, Comb.St.process, Comb.mergeHub]
    all_goals
      refine (funext fun j => ?_)
      by_cases e : j = i
      · subst e; simp [hc]
      · simp [e]
  | error e =>
    cases gone <;>
    simp [afterTerm, callTerm, Comb.step, hc, ha, hd, Comb.Pc.isIdle, Comb.St.goto, Comb.St.emit, Comb.St.advance, Comb.St.process, Comb.mergeHub]
    all_goals
      refine (funext fun j => ?_)
      by_cases e : j = i
      · subst e; simp [hc]
      · simp [e]

/-! ## An inner observable -/

theorem begs_add (log r : List (Comb.Ev α α ε)) : Comb.begs (log ++ r) = Comb.begs log ++ Comb.begs r := List.filterMap_append ..

theorem vals_whole (k : Nat) (vs : List α) : ∀ h : Comb.St α α ε Nat, h.calls (k + 1) = .idle → h.active (k + 1) = true → h.done (k + 1) = false →
    h.shut = false → h.lock = none → ∃ r, (vs.flatMap (callNext (k + 1))).foldl (Comb.step Comb.mergeHub) h = { h with log := h.log ++ r } ∧
      (Comb.begs r).map (·.2) = if h.gone then [] else vs.map .next := by
  induction vs with
  | nil => exact fun h _ _ _ _ _ => ⟨[], by simp, by simp [Comb.begs]⟩
  | cons v vs ih =>
    intro h hc ha hd hs hl
    rw [List.flatMap_cons, List.foldl_append, next_whole k v hc ha hd hs hl]
    generalize hL : (if h.gone then ([.recv (k + 1) (.next v), .act (k + 1) (.next v)] : List (Comb.Ev α α ε))
      else [.recv (k + 1) (.next v), .act (k + 1) (.next v), .beg (k + 1) (.next v), .fin (k + 1)]) = L
    obtain ⟨r, h1, h2⟩ := ih { h with log := h.log ++ L } hc ha hd hs hl
    refine ⟨L ++ r, by rw [h1]; simp, ?_⟩
    rw [begs_add, List.map_append, h2, ← hL]
    cases hg : h.gone <;> simp [Comb.begs, hg]

/-- What an inner observable `k + 1` that says `t` on one thread does to `merge`. -/
structure Did (h h' : Comb.St α α ε Nat) (k : Nat) (t : Trace α ε) : Prop where
  calls : h'.calls = h.calls
  lock : h'.lock = h.lock
  shut : h'.shut = h.shut
  active : h'.active = h.active
  done : ∀ j, j ≠ k + 1 → h'.done j = h.done j
  after : h.gone = true → h'.gone = true ∧ flatTold h' = flatTold h
  before : h.gone = false → flatTold h' = flatTold h ++ t.vals.map .next ++ (match t.fin with | some (.error e) => [.term (.error e)] | _ => []) ∧
    h'.gone = (match t.fin with | some (.error _) => true | _ => false) ∧ h'.st = (match t.fin with | some .completed => h.st - 1 | _ => h.st)

theorem says_whole (k : Nat) (t : Trace α ε) (hc : h.calls (k + 1) = .idle) (ha : h.active (k + 1) = true) (hd : h.done (k + 1) = false)
    (hs : h.shut = false) (hl : h.lock = none) (h2 : h.gone = false → 2 ≤ h.st) : Did h ((says (k + 1) t).foldl (Comb.step Comb.mergeHub) h) k t := by
  obtain ⟨r, h1, hr⟩ := vals_whole k t.vals h hc ha hd hs hl
  unfold says
  rw [List.foldl_append, h1]
  have hne : h.gone = false → ¬ h.st = 1 := fun hg => by have := h2 hg; omega
  rcases t with ⟨vs, _ | ⟨e | _⟩⟩
  · refine ⟨rfl, rfl, rfl, rfl, fun _ _ => rfl, fun hg => ⟨hg, ?_⟩, fun hg => ⟨?_, hg, rfl⟩⟩
    · simp only [flatTold, Option.toList_none, List.flatMap_nil, List.foldl_nil, begs_add, List.map_append, hr, hg, if_true, List.append_nil]
    · simp only [flatTold, Option.toList_none, List.flatMap_nil, List.foldl_nil, begs_add, List.map_append, hr, hg, if_false, List.append_nil,
        Bool.false_eq_true]
  · simp only [Option.toList_some, List.flatMap_cons, List.flatMap_nil, List.append_nil]
    rw [term_whole (h := { h with log := h.log ++ r }) (k + 1) _ hc ha hd hs hl]
    refine ⟨rfl, rfl, rfl, rfl, fun j hj => by simp [afterTerm, hj], fun hg => ⟨?_, ?_⟩, fun hg => ⟨?_, ?_, rfl⟩⟩
    · simp [afterTerm, hg]
    · simp only [flatTold, afterTerm, hg, Bool.not_true, Bool.false_and, begs_add, List.map_append, hr, if_true, List.append_nil]
      simp [Comb.begs]
    · simp only [flatTold, afterTerm, hg, Bool.not_false, Bool.true_and, begs_add, List.map_append, hr, if_true]
      simp [Comb.begs]
    · simp [afterTerm]
  · simp only [Option.toList_some, List.flatMap_cons, List.flatMap_nil, List.append_nil]
    rw [term_whole (h := { h with log := h.log ++ r }) (k + 1) _ hc ha hd hs hl]
    refine ⟨rfl, rfl, rfl, rfl, fun j hj => by simp [afterTerm, hj], fun hg => ⟨?_, ?_⟩, fun hg => ⟨?_, ?_, rfl⟩⟩
    · simp [afterTerm, hg]
    · simp only [flatTold, afterTerm, hg, Bool.not_true, Bool.false_and, begs_add, List.map_append, hr, if_true, List.append_nil]
      simp [Comb.begs]
    · simp only [flatTold, afterTerm, hg, Bool.not_false, Bool.true_and, begs_add, List.map_append, hr]
      simp [Comb.begs, hne hg]
    · simp [afterTerm, hg, hne hg]

/-! ## The outer observable -/

/-- Between two calls of the outer source. -/
structure Between (h : Comb.St α α ε Nat) (m : Nat) : Prop where
  calls : ∀ i, h.calls i = .idle
  lock : h.lock = none
  shut : h.shut = false
  active : h.active 0 = true
  done : h.done 0 = false
  new : ∀ k, m < k → h.active k = false ∧ h.done k = false

/-- What has happened when the outer source has emitted values with the sequences `T` (one after the other). -/
structure Outer (h h' : Comb.St α α ε Nat) (T : Trace α ε) : Prop where
  after : h.gone = true → h'.gone = true ∧ flatTold h' = flatTold h
  before : h.gone = false → flatTold h' = flatTold h ++ T.vals.map .next ++ (match T.fin with | some (.error e) => [.term (.error e)] | _ => []) ∧
    h'.gone = (match T.fin with | some (.error _) => true | _ => false) ∧
    (match T.fin with | some .completed => h'.st = h.st | some (.error _) => True | none => h.st < h'.st)

theorem outer_whole (F : ι → Trace α ε) (xs : List ι) : ∀ (m : Nat) (h : Comb.St α α ε Nat), Between h m → (h.gone = false → 1 ≤ h.st) →
    ∃ m', Between ((outerSays F m xs).foldl (Comb.step Comb.mergeHub) h) m' ∧
      Outer h ((outerSays F m xs).foldl (Comb.step Comb.mergeHub) h) ((xs.map F).foldr andThen ⟨[], some .completed⟩) := by
  induction xs with
  | nil => exact fun m h hb _ => ⟨m, hb, fun hg => ⟨hg, rfl⟩, fun hg => ⟨by simp [outerSays], hg, rfl⟩⟩
  | cons x xs ih =>
    intro m h hb h1
    obtain ⟨hn1, hn2⟩ := hb.new (m + 1) (Nat.lt_succ_self m)
    -- the subscription
    have e1 : Comb.step Comb.mergeHub h (.opn (m + 1)) =
        ({ h with st := h.st + 1, active := fun j => if j = m + 1 then true else h.active j }.goto 0 .opening |>.emit (.opened (m + 1))) := by
      rw [Comb.step, if_pos (by rw [hb.calls, hb.active, hb.done, hb.shut, hn1]; rfl)]
      rfl
    let g1 : Comb.St α α ε Nat :=
      ({ h with st := h.st + 1, active := fun j => if j = m + 1 then true else h.active j }.goto 0 .opening |>.emit (.opened (m + 1)))
    have ht1 : flatTold g1 = flatTold h := by
      show (Comb.begs (h.log ++ [.opened (m + 1)])).map (·.2) = _
      rw [begs_add]; simp [Comb.begs, flatTold]
    -- the inner observable
    have hc1 : g1.calls (m + 1) = .idle := by
      show (if m + 1 = 0 then .opening else h.calls (m + 1)) = _
      rw [if_neg (Nat.succ_ne_zero m)]; exact hb.calls _
    have hd := says_whole (h := g1) m (F x) hc1 (by simp [g1, Comb.St.emit, Comb.St.goto]) hn2 hb.shut hb.lock (fun hg => by
      have := h1 hg
      show 2 ≤ h.st + 1; omega)
    -- the return
    let g2 := (says (m + 1) (F x)).foldl (Comb.step Comb.mergeHub) g1
    have hd : Did g1 g2 m (F x) := hd
    have e2 : Comb.step Comb.mergeHub g2 (.run 0) = g2.goto 0 .idle := by
      have : g2.calls 0 = .opening := by rw [hd.calls]; rfl
      simp only [Comb.step, Comb.St.advance, this]
    have hb3 : Between (g2.goto 0 .idle) (m + 1) := by
      refine ⟨fun i => ?_, hd.lock.trans hb.lock, hd.shut.trans hb.shut, ?_, ?_, fun k hk => ⟨?_, ?_⟩⟩
      · show (if i = 0 then .idle else g2.calls i) = _
        rw [hd.calls]
        show (if i = 0 then .idle else if i = 0 then .opening else h.calls i) = _
        split
        · rfl
        · exact hb.calls i
      · show g2.active 0 = true
        rw [hd.active]
        show (if 0 = m + 1 then true else h.active 0) = true
        simp [hb.active]
      · show g2.done 0 = false
        rw [hd.done 0 (by omega)]; exact hb.done
      · show g2.active k = false
        rw [hd.active]
        show (if k = m + 1 then true else h.active k) = false
        rw [if_neg (by omega)]; exact (hb.new k (by omega)).1
      · show g2.done k = false
        rw [hd.done k (by omega)]; exact (hb.new k (by omega)).2
    have hs1 : g1.st = h.st + 1 := rfl
    have hst : g2.gone = false → 1 ≤ g2.st := by
      intro hg2
      cases hg : h.gone with
      | true => rw [(hd.after hg).1] at hg2; cases hg2
      | false =>
        have := (hd.before hg).2.2
        have h1 := h1 hg
        rw [this, hs1]
        split <;> omega
    obtain ⟨m', hb4, ho⟩ := ih (m + 1) (g2.goto 0 .idle) hb3 hst
    have e3 : (outerSays F m (x :: xs)).foldl (Comb.step Comb.mergeHub) h =
        (outerSays F (m + 1) xs).foldl (Comb.step Comb.mergeHub) (g2.goto 0 .idle) := by
      show (says (m + 1) (F x) ++ .run 0 :: outerSays F (m + 1) xs).foldl (Comb.step Comb.mergeHub) (Comb.step Comb.mergeHub h (.opn (m + 1))) = _
      rw [e1, List.foldl_append, List.foldl_cons]
      show (outerSays F (m + 1) xs).foldl (Comb.step Comb.mergeHub) (Comb.step Comb.mergeHub g2 (.run 0)) = _
      rw [e2]
    rw [e3]
    refine ⟨m', hb4, fun hg => ?_, fun hg => ?_⟩
    · obtain ⟨h2, h3⟩ := hd.after hg
      obtain ⟨h4, h5⟩ := ho.after h2
      exact ⟨h4, h5.trans (h3.trans ht1)⟩
    · obtain ⟨h2, h3, h4⟩ := hd.before hg
      rw [List.map_cons, List.foldr_cons]
      generalize (xs.map F).foldr andThen ⟨[], some .completed⟩ = T at ho
      generalize (outerSays F (m + 1) xs).foldl (Comb.step Comb.mergeHub) (g2.goto 0 .idle) = g4 at ho
      have ht2 : flatTold (g2.goto 0 .idle) = flatTold g2 := rfl
      have hg2 : (g2.goto 0 .idle).gone = g2.gone := rfl
      have hs2 : (g2.goto 0 .idle).st = g2.st := rfl
      have h1 := h1 hg
      obtain ⟨oa, ob⟩ := ho
      rw [ht2, hg2] at oa ob
      rw [hs2] at ob
      generalize F x = A at *
      rcases A with ⟨vs, _ | ⟨e | _⟩⟩
      · obtain ⟨o1, o2, o3⟩ := ob h3
        simp only at h2 h4
        rcases T with ⟨ws, _ | ⟨e | _⟩⟩ <;> simp_all [andThen] <;> omega
      · obtain ⟨o1, o2⟩ := oa h3
        refine ⟨?_, o1, trivial⟩
        rw [o2, h2, ht1]; rfl
      · obtain ⟨o1, o2, o3⟩ := ob h3
        simp only at h2 h4
        rcases T with ⟨ws, _ | ⟨e | _⟩⟩ <;> simp_all [andThen]

theorem one_thread (t : Trace ι ε) (F : ι → Trace α ε) :
    flatTold (Comb.exec Comb.mergeHub (oneThread t F)) = notes (flatten t F) := by
  have hb : Between (Comb.mergeHub : Comb.Hub α α ε Nat).initSt 0 := ⟨fun _ => rfl, rfl, rfl, rfl, rfl, fun k hk =>
    ⟨by simp [Comb.Hub.initSt, Comb.mergeHub]; omega, rfl⟩⟩
  obtain ⟨m, hb, ho⟩ := outer_whole F t.vals 0 _ hb (fun _ => Nat.le_refl 1)
  obtain ⟨h1, h2, h3⟩ := ho.before rfl
  unfold oneThread flatten Comb.exec
  rw [List.foldl_append, fold_then]
  generalize (t.vals.map F).foldr andThen ⟨[], some .completed⟩ = T at *
  generalize (outerSays F 0 t.vals).foldl (Comb.step Comb.mergeHub) (Comb.mergeHub : Comb.Hub α α ε Nat).initSt = g at *
  have h1 : flatTold g = T.vals.map .next ++ (match T.fin with | some (.error e) => [.term (.error e)] | _ => []) := h1
  have hi : (Comb.mergeHub : Comb.Hub α α ε Nat).initSt.st = 1 := rfl
  rw [hi] at h3
  cases hf : t.fin with
  | none =>
    show flatTold g = _
    rw [h1]
    rcases T with ⟨ws, _ | ⟨e | _⟩⟩ <;> simp [andThen, notes]
  | some f =>
    simp only [Option.toList_some, List.flatMap_cons, List.flatMap_nil, List.append_nil]
    rw [term_whole 0 f (hb.calls 0) hb.active hb.done hb.shut hb.lock]
    simp only [flatTold, afterTerm, begs_add, List.map_append] at h1 ⊢
    rw [h1]
    rcases T with ⟨ws, _ | ⟨e | _⟩⟩ <;> rcases f with e | _ <;> simp [andThen, notes, h2, Comb.begs] <;> simp_all
    have : ¬ g.st = 1 := by omega
    simp [this]

end Rpp.Net
