import Verif.Source.RoundRobin
import Verif.Combine.SyncUntil

/-!
# `zip`, `combine_latest`, `with_latest_from` and `take_until` of two containers on `current_thread`

`/repo/src/rpp/rpp/operators/zip.hpp`, `combine_latest.hpp`, `with_latest_from.hpp`, `take_until.hpp` with one other observable, both `from_iterable` on `current_thread`, their default.
The operators own the queue of `current_thread` while they subscribe (details/combining_strategy.hpp 89, with_latest_from.hpp 139, take_until.hpp 102, observables/details/chain_strategy.hpp 59-65),
to the other observable first (details/combining_strategy.hpp 102-120, with_latest_from.hpp 145-167), and so the two take turns (C70).
-/

namespace Rpp.Turns

open SyncPair (Kind St nextMain nextOther ends calls)

/-- One run of a `from_iterable_schedulable`: the value it hands over, none if the container is empty, and whether it completes then. (sources/from.hpp 53-79) -/
structure Run (τ : Type) where
  val : Option τ
  last : Bool
  deriving DecidableEq

/-- The runs over a container. (sources/from.hpp 53-79) -/
def runs : List τ → List (Run τ)
  | [] => [⟨none, true⟩]
  | [a] => [⟨some a, true⟩]
  | a :: b :: l => ⟨some a, false⟩ :: runs (b :: l)

/-- The two sources in the order in which they are subscribed to. (details/combining_strategy.hpp 102-120, with_latest_from.hpp 145-167) -/
def sources (xs : List α) (ys : List β) : List (List (Run β ⊕ Run α)) := [(runs ys).map .inl, (runs xs).map .inr]

/-- What the operator does in one run, with a selector that does not throw.  Simplification: runs are not skipped once the observer is disposed; it ignores the calls. (zip.hpp 49-67, combine_latest.hpp 47-63, with_latest_from.hpp 65-77, 100-123, combining_strategy.hpp 64-73) -/
def act (kd : Kind) (O : Obs δ ε σ) (g : α → β → δ) (s : St α β σ) : Run β ⊕ Run α → St α β σ
  | .inl r =>
    let s := match r.val with | none => s | some b => nextOther kd O (fun a b => .ok (g a b)) s b
    if r.last then ends kd O false s (some .completed) else s
  | .inr r =>
    let s := match r.val with | none => s | some a => nextMain kd O (fun a b => .ok (g a b)) s a
    if r.last then ends kd O true s (some .completed) else s

/-- What take_until does in one run, of the trigger or of the main observable.  Simplification: after the completion the code skips the runs that are left, as the observer is disposed; here they have no effect. (take_until.hpp 53-63, 73-79, 85-90) -/
def actUntil (O : Obs α ε σ) (s : SyncUntil.St σ) : Run β ⊕ Run α → SyncUntil.St σ
  | .inl r =>
    let s := match r.val with | none => s | some _ => SyncUntil.fire O s
    if r.last then SyncUntil.ends O s (some .completed) else s
  | .inr r =>
    let s := match r.val with | none => s | some a => SyncUntil.next O s a
    if r.last then SyncUntil.ends O s (some .completed) else s

/-! ## Specification -/

/-- The last of the first `n`.  Specification; models no code. -/
def latest (l : List τ) (n : Nat) : Option τ := (l.take n).getLast?

/-- What is shown of the main values `xs` and the other's values `ys`, if in each round first the other and then the main one hands over a value: zip pairs by position; with_latest_from pairs every main value with the other's latest,
combine_latest every value with the latest of the other side.  Specification; models no code. -/
def results (kd : Kind) (g : α → β → δ) (xs : List α) (ys : List β) : List δ :=
  match kd with
  | .zip => (xs.zip ys).map fun ab : α × β => g ab.1 ab.2
  | .withLatest => (List.range xs.length).flatMap fun i => (xs[i]?.bind fun x => (latest ys (i + 1)).map (g x)).toList
  | .latest => (List.range (max xs.length ys.length)).flatMap fun i =>
      (ys[i]?.bind fun y => (latest xs i).map fun x => g x y).toList ++ (xs[i]?.bind fun x => (latest ys (i + 1)).map (g x)).toList

/-! ## Proofs -/

/-- First a run of the one, then one of the other. -/
def weave : List τ → List τ → List τ
  | [], bs => bs
  | a :: as, [] => a :: as
  | a :: as, b :: bs => a :: b :: weave as bs

theorem weave_nil (as : List τ) : weave as [] = as := by cases as <;> rfl

theorem rr_one (l : List τ) : RoundRobin.roundRobin [l] = l := by
  induction l with
  | nil => rfl
  | cons a l ih =>
    rw [RoundRobin.roundRobin_eq]
    simpa using ih

theorem rr_two : ∀ as bs : List τ, RoundRobin.roundRobin [as, bs] = weave as bs
  | [], bs => by
    have := RoundRobin.roundRobin_skip ([] : List (List τ)) [bs]
    simp only [List.nil_append] at this
    rw [this, rr_one]; rfl
  | a :: as, [] => by
    have := RoundRobin.roundRobin_skip [a :: as] ([] : List (List τ))
    simp only [List.cons_append, List.nil_append] at this
    rw [this, rr_one]; rfl
  | a :: as, b :: bs => by
    rw [RoundRobin.roundRobin_eq]
    simp [weave, rr_two as bs]

/-- The runs that are left over the rest of a container. -/
def more : List τ → List (Run τ)
  | [] => []
  | a :: l => ⟨some a, l.isEmpty⟩ :: more l

theorem runs_cons : ∀ (l : List τ) (a : τ), runs (a :: l) = more (a :: l)
  | [], _ => rfl
  | b :: l, a => by
    show ⟨some a, false⟩ :: runs (b :: l) = _
    rw [runs_cons l b]; rfl

/-- How many of the two are not through yet. -/
def cnt (xs : List α) (ys : List β) : Nat := (if xs.isEmpty then 0 else 1) + (if ys.isEmpty then 0 else 1)

/-- The call that is left. -/
def fin (xs : List α) (ys : List β) : List (Call δ ε) := if xs.isEmpty && ys.isEmpty then [] else [.completed]

/-- The runs that are left. -/
def left (xs : List α) (ys : List β) : List (Run β ⊕ Run α) := weave ((more ys).map .inl) ((more xs).map .inr)

section
variable {O : Obs δ ε σ} {g : α → β → δ}

theorem left_main (xs : List α) : left xs ([] : List β) = (more xs).map .inr := rfl

theorem left_other (ys : List β) : left ([] : List α) ys = (more ys).map .inl := weave_nil _

theorem left_both (x : α) (xs : List α) (y : β) (ys : List β) : left (x :: xs) (y :: ys) = .inl ⟨some y, ys.isEmpty⟩ :: .inr ⟨some x, xs.isEmpty⟩ :: left xs ys := rfl

theorem zip_main : ∀ (xs : List α) (o : σ) (pc : SyncPair.Pc) (qa : List α) (got : Nat),
    ((left xs ([] : List β)).foldl (act .zip O g) ⟨o, pc, qa, [], cnt xs ([] : List β), got⟩).obs = O.run o (fin xs ([] : List β))
  | [], _, _, _, _ => rfl
  | [x], o, pc, qa, got => by
    cases qa <;> rfl
  | x :: x' :: xs, o, pc, qa, got => by
    have h := zip_main (x' :: xs) o pc (qa ++ [x]) got
    rw [left_main] at h ⊢
    have e : act .zip O g (⟨o, pc, qa, [], cnt (x :: x' :: xs) ([] : List β), got⟩ : St α β σ) (.inr ⟨some x, false⟩) = ⟨o, pc, qa ++ [x], [], cnt (x' :: xs) ([] : List β), got⟩ := by
      cases qa <;> rfl
    exact (congrArg (fun s => (List.foldl (act .zip O g) s ((more (x' :: xs)).map .inr)).obs) e).trans h

theorem zip_other : ∀ (ys : List β) (o : σ) (pc : SyncPair.Pc) (qb : List β) (got : Nat),
    ((left ([] : List α) ys).foldl (act .zip O g) ⟨o, pc, [], qb, cnt ([] : List α) ys, got⟩).obs = O.run o (fin ([] : List α) ys)
  | [], _, _, _, _ => rfl
  | [y], o, pc, qb, got => rfl
  | y :: y' :: ys, o, pc, qb, got => by
    have h := zip_other (y' :: ys) o pc (qb ++ [y]) got
    rw [left_other] at h ⊢
    exact h

theorem zip_both : ∀ (xs : List α) (ys : List β) (o : σ) (pc : SyncPair.Pc) (got : Nat),
    ((left xs ys).foldl (act .zip O g) ⟨o, pc, [], [], cnt xs ys, got⟩).obs = O.run o (((xs.zip ys).map fun ab : α × β => g ab.1 ab.2).map .next ++ fin xs ys)
  | [], ys, o, pc, got => by rw [zip_other]; rfl
  | x :: xs, [], o, pc, got => by rw [zip_main]; rfl
  | x :: xs, y :: ys, o, pc, got => by
    have h := zip_both xs ys (O.onNext (g x y) o) pc got
    rw [left_both]
    cases xs with
    | nil => cases ys with
      | nil => rfl
      | cons y' ys => exact h
    | cons x' xs => cases ys with
      | nil => exact h
      | cons y' ys => exact h

/-- combine_latest, with latest values from before. -/
def lat (g : α → β → δ) (cx : Option α) (cy : Option β) (xs : List α) (ys : List β) : List δ :=
  (List.range (max xs.length ys.length)).flatMap fun i =>
    (ys[i]?.bind fun y => ((latest xs i).or cx).map fun x => g x y).toList ++ (xs[i]?.bind fun x => ((latest ys (i + 1)).or cy).map (g x)).toList

theorem latest_zero (l : List τ) : latest l 0 = none := rfl

theorem latest_succ (a : τ) (l : List τ) (n : Nat) (c : Option τ) : (latest (a :: l) (n + 1)).or c = (latest l n).or (some a) := by
  unfold latest
  rw [List.take_succ_cons, List.getLast?_cons]
  cases (l.take n).getLast? <;> rfl

theorem latest_nil (n : Nat) : latest ([] : List τ) n = none := by simp [latest]

theorem lat_main (cx : Option α) (cy : Option β) (x : α) (xs : List α) : lat g cx cy (x :: xs) [] = (cy.map (g x)).toList ++ lat g (some x) cy xs [] := by
  unfold lat
  simp only [List.length_cons, List.length_nil, Nat.max_zero, List.range_succ_eq_map, List.flatMap_cons, List.flatMap_map, latest_nil, List.getElem?_nil, Option.bind_none, Option.toList_none, List.nil_append, List.getElem?_cons_zero, List.getElem?_cons_succ, Option.bind_some, Option.none_or]

theorem lat_other (cx : Option α) (cy : Option β) (y : β) (ys : List β) : lat g cx cy [] (y :: ys) = (cx.map fun x => g x y).toList ++ lat g cx (some y) [] ys := by
  unfold lat
  simp only [List.length_cons, List.length_nil, Nat.zero_max, List.range_succ_eq_map, List.flatMap_cons, List.flatMap_map, latest_nil, List.getElem?_nil, Option.bind_none, Option.toList_none, List.append_nil, List.getElem?_cons_zero, List.getElem?_cons_succ, Option.bind_some, Option.none_or]

theorem lat_both (cx : Option α) (cy : Option β) (x : α) (xs : List α) (y : β) (ys : List β) :
    lat g cx cy (x :: xs) (y :: ys) = (cx.map fun x => g x y).toList ++ g x y :: lat g (some x) (some y) xs ys := by
  unfold lat
  simp only [List.length_cons, Nat.add_max_add_right, List.range_succ_eq_map, List.flatMap_cons, List.flatMap_map, latest_zero, latest_succ, List.getElem?_cons_zero, List.getElem?_cons_succ, Option.bind_some, Option.none_or, Option.or_some, Option.map_some,
    Option.getD_none, Option.toList_some, List.append_assoc, List.cons_append, List.nil_append]

theorem lat_nil (cx : Option α) (cy : Option β) : lat g cx cy [] [] = [] := rfl

theorem lat_both_run (xs : List α) : ∀ (ys : List β) (o : σ) (pc : SyncPair.Pc) (cx : Option α) (cy : Option β) (got : Nat),
    ((left xs ys).foldl (act .latest O g) ⟨o, pc, cx.toList, cy.toList, cnt xs ys, got⟩).obs = O.run o ((lat g cx cy xs ys).map .next ++ fin xs ys) := by
  induction xs with
  | nil =>
    intro ys
    induction ys with
    | nil => intros; rfl
    | cons y ys ih =>
      intro o pc cx cy got
      rw [lat_other, left_other]
      simp only [left_other] at ih
      cases cx with
      | none => cases ys with
        | nil => rfl
        | cons y' ys => exact ih o pc none (some y) got
      | some x => cases ys with
        | nil => rfl
        | cons y' ys => exact ih (O.onNext (g x y) o) pc (some x) (some y) got
  | cons x xs ih =>
    intro ys o pc cx cy got
    cases ys with
    | nil =>
      rw [lat_main]
      have ih := ih []
      simp only [left_main] at ih ⊢
      cases cy with
      | none => cases xs with
        | nil => rfl
        | cons x' xs => exact ih o pc (some x) none got
      | some y => cases xs with
        | nil => rfl
        | cons x' xs => exact ih (O.onNext (g x y) o) pc (some x) (some y) got
    | cons y ys =>
      rw [lat_both, left_both]
      cases cx with
      | none =>
        have h := ih ys (O.onNext (g x y) o) pc (some x) (some y) got
        cases xs with
        | nil => cases ys with
          | nil => rfl
          | cons y' ys => exact h
        | cons x' xs => cases ys with
          | nil => exact h
          | cons y' ys => exact h
      | some z =>
        have h := ih ys (O.onNext (g x y) (O.onNext (g z y) o)) pc (some x) (some y) got
        cases xs with
        | nil => cases ys with
          | nil => rfl
          | cons y' ys => exact h
        | cons x' xs => cases ys with
          | nil => exact h
          | cons y' ys => exact h

/-- with_latest_from, with a latest value from before. -/
def wlat (g : α → β → δ) (cy : Option β) (xs : List α) (ys : List β) : List δ :=
  (List.range xs.length).flatMap fun i => (xs[i]?.bind fun x => ((latest ys (i + 1)).or cy).map (g x)).toList

theorem wlat_main (cy : Option β) (x : α) (xs : List α) : wlat g cy (x :: xs) [] = (cy.map (g x)).toList ++ wlat g cy xs [] := by
  unfold wlat
  simp only [List.length_cons, List.range_succ_eq_map, List.flatMap_cons, List.flatMap_map, latest_nil, List.getElem?_cons_zero, List.getElem?_cons_succ, Option.bind_some, Option.none_or]

theorem wlat_both (cy : Option β) (x : α) (xs : List α) (y : β) (ys : List β) : wlat g cy (x :: xs) (y :: ys) = g x y :: wlat g (some y) xs ys := by
  unfold wlat
  simp only [List.length_cons, List.range_succ_eq_map, List.flatMap_cons, List.flatMap_map, latest_zero, latest_succ, List.getElem?_cons_zero, List.getElem?_cons_succ, Option.bind_some, Option.none_or, Option.map_some,
    Option.toList_some, List.cons_append, List.nil_append]

theorem with_other (ys : List β) : ∀ s : St α β σ, (((more ys).map .inl).foldl (act .withLatest O g) s).obs = s.obs := by
  induction ys with
  | nil => intro s; rfl
  | cons y ys ih =>
    intro s
    refine (ih _).trans ?_
    cases ys <;> rfl

theorem with_main (xs : List α) : ∀ (o : σ) (pc : SyncPair.Pc) (qa : List α) (cy : Option β) (n got : Nat),
    ((left xs ([] : List β)).foldl (act .withLatest O g) ⟨o, pc, qa, cy.toList, n, got⟩).obs = O.run o ((wlat g cy xs []).map .next ++ fin xs ([] : List β)) := by
  induction xs with
  | nil => intros; rfl
  | cons x xs ih =>
    intro o pc qa cy n got
    rw [wlat_main]
    simp only [left_main] at ih ⊢
    cases cy with
    | none => cases xs with
      | nil => rfl
      | cons x' xs => exact ih o pc qa none n got
    | some y => cases xs with
      | nil => rfl
      | cons x' xs => exact ih (O.onNext (g x y) o) pc qa (some y) n got

theorem with_both (xs : List α) : xs ≠ [] → ∀ (ys : List β) (o : σ) (pc : SyncPair.Pc) (qa : List α) (cy : Option β) (n got : Nat),
    ((left xs ys).foldl (act .withLatest O g) ⟨o, pc, qa, cy.toList, n, got⟩).obs = O.run o ((wlat g cy xs ys).map .next ++ [.completed]) := by
  induction xs with
  | nil => intro h; cases h rfl
  | cons x xs ih =>
    intro _ ys o pc qa cy n got
    cases ys with
    | nil => exact with_main (x :: xs) o pc qa cy n got
    | cons y ys =>
      rw [wlat_both, left_both]
      cases xs with
      | nil =>
        rw [left_other, List.foldl_cons, List.foldl_cons, with_other]
        cases ys <;> rfl
      | cons x' xs =>
        have h := ih (by simp) ys (O.onNext (g x y) o) pc qa (some y) n got
        cases ys with
        | nil => exact h
        | cons y' ys => exact h

theorem all_runs (kd : Kind) (xs : List α) (ys : List β) (o : σ) :
    ((weave ((runs ys).map .inl) ((runs xs).map .inr)).foldl (act kd O g) { obs := o }).obs = O.run o ((results kd g xs ys).map .next ++ [.completed]) := by
  have hlat : results .latest g xs ys = lat g none none xs ys := by simp only [results, lat, Option.or_none]
  have hwlat : results .withLatest g xs ys = wlat g none xs ys := by simp only [results, wlat, Option.or_none]
  cases xs with
  | nil => cases ys with
    | nil => cases kd <;> rfl
    | cons y ys =>
      rw [runs_cons]
      have e : weave ((more (y :: ys)).map .inl) ((runs ([] : List α)).map .inr) = .inl ⟨some y, ys.isEmpty⟩ :: .inr ⟨none, true⟩ :: (more ys).map (Sum.inl : Run β → Run β ⊕ Run α) := by
        show _ :: _ :: weave _ [] = _
        rw [weave_nil]
      rw [e]
      cases kd with
      | zip =>
        have h := zip_other (O := O) (g := g) ys o (.other 0) [y] 0
        rw [left_other] at h
        cases ys with
        | nil => rfl
        | cons y' ys => exact h
      | latest =>
        rw [hlat, lat_other]
        have h := lat_both_run (O := O) (g := g) [] ys o (.other 0) none (some y) 0
        rw [left_other] at h
        cases ys with
        | nil => rfl
        | cons y' ys => exact h
      | withLatest =>
        rw [List.foldl_cons, List.foldl_cons, with_other]
        cases ys <;> rfl
  | cons x xs =>
    rw [runs_cons]
    cases ys with
    | nil =>
      have e : weave ((runs ([] : List β)).map .inl) ((more (x :: xs)).map .inr) = .inl ⟨none, true⟩ :: left (x :: xs) ([] : List β) := by
        show _ :: _ :: weave [] _ = _
        rfl
      rw [e]
      cases kd with
      | zip => exact zip_main (O := O) (g := g) (x :: xs) o (.other 0) [] 0
      | latest => rw [hlat]; exact lat_both_run (O := O) (g := g) (x :: xs) [] o (.other 0) none none 0
      | withLatest => rw [hwlat]; exact with_both (O := O) (g := g) (x :: xs) (by simp) [] o (.other 0) [] none 2 0
    | cons y ys =>
      rw [runs_cons]
      cases kd with
      | zip => exact zip_both (O := O) (g := g) (x :: xs) (y :: ys) o (.other 0) 0
      | latest => rw [hlat]; exact lat_both_run (O := O) (g := g) (x :: xs) (y :: ys) o (.other 0) none none 0
      | withLatest => rw [hwlat]; exact with_both (O := O) (g := g) (x :: xs) (by simp) (y :: ys) o (.other 0) [] none 2 0

theorem until_stopped {O : Obs α ε σ} : ∀ (rs : List (Run β ⊕ Run α)) (s : SyncUntil.St σ), s.stopped = true → (rs.foldl (actUntil O) s).obs = s.obs
  | [], _, _ => rfl
  | r :: rs, s, h => by
    have h1 : (actUntil O s r).stopped = true ∧ (actUntil O s r).obs = s.obs := by
      rcases r with ⟨_ | b, _ | _⟩ | ⟨_ | a, _ | _⟩ <;> simp [actUntil, SyncUntil.fire, SyncUntil.next, SyncUntil.ends, h]
    exact (until_stopped rs _ h1.1).trans h1.2

theorem until_runs {O : Obs α ε σ} (xs : List α) (ys : List β) (o : σ) : ((weave ((runs ys).map .inl) ((runs xs).map .inr)).foldl (actUntil O) { obs := o }).obs = O.onCompleted o := by
  have h : ∃ (r : Run β) (rs : List (Run β ⊕ Run α)), weave ((runs ys).map .inl) ((runs xs).map .inr) = .inl r :: rs ∧ (r.val.isSome ∨ r.last) := by
    have hr : ∃ r rs, runs ys = r :: rs ∧ (r.val.isSome ∨ r.last) := by
      match ys with
      | [] => exact ⟨_, _, rfl, .inr rfl⟩
      | [_] => exact ⟨_, _, rfl, .inr rfl⟩
      | _ :: _ :: _ => exact ⟨_, _, rfl, .inl rfl⟩
    obtain ⟨r, rs, hr, h⟩ := hr
    rw [hr]
    cases (runs xs).map (Sum.inr : Run α → Run β ⊕ Run α) with
    | nil => exact ⟨r, _, rfl, h⟩
    | cons b bs => exact ⟨r, _, rfl, h⟩
  obtain ⟨r, rs, h, hr⟩ := h
  rw [h, List.foldl_cons]
  rcases r with ⟨_ | b, _ | _⟩
  · simp at hr
  · exact until_stopped rs _ rfl
  · exact until_stopped rs _ rfl
  · exact until_stopped rs _ rfl

end

end Rpp.Turns
