import Verif.Combine.SyncPair

/-!
# C122: property theorems

`zip`, `combine_latest` or `with_latest_from` of a main observable `x` and one other `y`, which both hand over everything inside `subscribe`; behind it any chain of operators (`Pipe`) and callbacks that may dispose or throw (`react`).
`combined kd f l as` is what the operator makes of the other's values `l` and then the main one's `as`; `Enough react p t` says that the subscriber needs nothing more than `t`.
-/

namespace Rpp

open SyncPair
open SyncResub (finCalls trace_fin)

variable {α β δ γ ε : Type} [DecidableEq δ] [DecidableEq γ] [DecidableEq ε]

namespace SyncPair

/-- A subscription to `x | zip(f, y) | p` and the like, `k` steps later; put together from cited definitions. -/
def sub (kd : Kind) (cap : Option Nat) (ov : ε) (react : List (Call γ ε) → Reaction ε) (p : Pipe ε δ γ) (f : α → β → Except ε δ) (x : Src α ε) (y : Src β ε) (k : Nat) : St α β (p.State (UserSt γ ε)) :=
  exec kd (p.lift (userObs cap ov react)) f x y (p.start (userObs cap ov react) {}) k

/-- What the callbacks were told; reads the model's state. -/
def sees {p : Pipe ε δ γ} (s : St α β (p.State (UserSt γ ε))) : List (Call γ ε) := evsOf (p.final s.obs).log

/-- What a subscriber of the chain `p` sees of this sequence.  Specification; models no code. -/
def told (react : List (Call γ ε) → Reaction ε) (p : Pipe ε δ γ) (t : Trace δ ε) : List (Call γ ε) := deliver react [] (p.spec t).vals (p.spec t).fin

/-- The first values of the main observable.  Specification; models no code. -/
def Src.Begins (x : Src α ε) (as : List α) : Prop := ∀ i (h : i < as.length), x.at' i = some as[i]

section
variable {cap : Option Nat} {ov : ε}

theorem gone_iff (react : List (Call γ ε) → Reaction ε) (p : Pipe ε δ γ) (hp : p.WF) (hfit : Fits cap (p.finals.length + 1)) (t : Trace δ ε) :
    (p.lift (userObs cap ov react)).isDisposed ((p.lift (userObs cap ov react)).run ((p.lift (userObs cap ov react)).call (.up 0) (p.start (userObs cap ov react) {})) (calls t))
      = Endless.enough react [] (p.spec t).vals (p.spec t).fin := by
  have ht := trace_fin t.vals t.fin
  have h : (p.lift (userObs cap ov react)).run ((p.lift (userObs cap ov react)).call (.up 0) (p.start (userObs cap ov react) {})) (calls t)
      = (p.lift (userObs cap ov react)).run (p.start (userObs cap ov react) {}) (.up 0 :: calls t) := rfl
  have hu : upsOf (.up 0 :: calls t : List (Call δ ε)) = 0 :: upsOf (t.vals.map .next ++ finCalls t.fin : List (Call δ ε)) := rfl
  rw [h, Pipe.isDisposed_final, userObs_isDisposed, Pipe.final_run userObs_lawful {} p, Endless.user_enough (p.trans _) {} rfl (by rw [Pipe.upsOf_trans, hu, ht.2]; simpa using hfit),
    Pipe.trans_spec p hp, SyncResub.trace_up]
  unfold calls
  rw [ht.1]
  rfl

theorem sees_told (react : List (Call γ ε) → Reaction ε) (p : Pipe ε δ γ) (hp : p.WF) (hfit : Fits cap (p.finals.length + 1)) (t : Trace δ ε) :
    evsOf (p.final ((p.lift (userObs cap ov react)).run ((p.lift (userObs cap ov react)).call (.up 0) (p.start (userObs cap ov react) {})) (calls t))).log = told react p t :=
  SyncResub.sees_fin (cap := cap) (ov := ov) react p hp hfit t.vals t.fin none 0

end

end SyncPair

variable (kd : SyncPair.Kind) (cap : Option Nat) (ov : ε) (react : List (Call γ ε) → Reaction ε) (p : Pipe ε δ γ) (f : α → β → Except ε δ) (x : Src α ε) (y : Src β ε)

/-- C122: if what the operator makes of the other's values `l` and the main one's first values `as`, and of no fewer, is all the subscriber needs, exactly these main values are taken and `subscribe` returns. -/
theorem C122_enough (hp : p.WF) (hfit : Fits cap (p.finals.length + 1)) (l : List β) (as : List α) (hy : y.Is l) (hfo : ∀ e, y.fin ≠ some (.error e)) (hx : x.Begins as)
    (hm : SyncPair.Enough react p (shown kd f l as none)) (hmin : ∀ k < as.length, ¬ SyncPair.Enough react p (shown kd f l (as.take k) none)) :
    ∃ t, ∀ t' ≥ t, let s := SyncPair.sub kd cap ov react p f x y t'
      s.pc = .done ∧ s.got = as.length ∧ SyncPair.sees s = told react p (shown kd f l as none) := by
  have hl : Lawful (p.lift (userObs cap ov react)) := Pipe.lift_lawful p userObs_lawful
  have hg := fun t => SyncPair.gone_iff (cap := cap) (ov := ov) react p hp hfit t
  have hsee := SyncPair.sees_told (cap := cap) (ov := ov) react p hp hfit (shown kd f l as none)
  suffices h : ∃ t, let s := SyncPair.sub kd cap ov react p f x y t
      s.pc = .done ∧ s.got = as.length ∧ s.obs = (p.lift (userObs cap ov react)).run ((p.lift (userObs cap ov react)).call (.up 0) (p.start (userObs cap ov react) {})) (calls (shown kd f l as none)) by
    obtain ⟨t, h1, h2, h3⟩ := h
    refine ⟨t, fun t' ht' => ?_⟩
    intro s
    have hs : s = SyncPair.sub kd cap ov react p f x y t := SyncPair.exec_done ht' h1
    rw [hs]
    exact ⟨h1, h2, by unfold SyncPair.sees; rw [h3]; exact hsee⟩
  rcases List.eq_nil_or_concat as with rfl | ⟨bs, a, rfl⟩
  · have hd := (hg _).trans hm
    rw [shown_nil] at hd
    refine ⟨2, ?_⟩
    intro s
    have hs : s = _ := SyncPair.exec_eq _ _
    rw [hs, SyncPair.repeat_two]
    rw [SyncPair.stops_other (t := { obs := (p.lift (userObs cap ov react)).call (.up 0) (p.start (userObs cap ov react) {}) }) rfl hd,
      SyncPair.stops (t := { obs := (p.lift (userObs cap ov react)).call (.up 0) (p.start (userObs cap ov react) {}), pc := .main 0 }) rfl hd, shown_nil]
    exact ⟨rfl, rfl, rfl⟩
  · rw [List.concat_eq_append] at *
    have hb := hmin bs.length (by simp)
    rw [List.take_left'  rfl] at hb
    have hd := (hg _).trans (Bool.eq_false_iff.2 hb)
    have hd0 : (p.lift (userObs cap ov react)).isDisposed ((p.lift (userObs cap ov react)).call (.up 0) (p.start (userObs cap ov react) {})) = false := by
      have h0 := hmin 0 (by simp)
      have := (hg _).trans (Bool.eq_false_iff.2 h0)
      rw [List.take_zero, shown_nil] at this
      exact this
    have h1 := SyncPair.other_all (kd := kd) (f := f) (x := x) hd0 hy hfo
    have h2 := SyncPair.main_values (kd := kd) (f := f) (x := x) (y := y) (op := needed kd y.fin) hl bs.length bs rfl hd (fun i hi => by
      have := hx i (by simp; omega)
      rw [this, List.getElem_append_left hi])
    have h3 := SyncPair.main_step (kd := kd) (f := f) (x := x) (y := y) (op := needed kd y.fin) hl hd (a := a) (by have := hx bs.length (by simp); rw [this]; simp)
    refine ⟨l.length + 1 + bs.length + 1 + 1, ?_⟩
    intro s
    have hs : s = _ := SyncPair.exec_eq _ _
    rw [SyncPair.repeat_add, SyncPair.repeat_add, SyncPair.repeat_add, h1, h2] at hs
    rw [hs, SyncPair.repeat_one, SyncPair.repeat_one]
    obtain ⟨e1, e2, e3, _⟩ := h3
    rw [SyncPair.stops e2 (by rw [e1]; exact (hg _).trans hm)]
    exact ⟨rfl, by rw [List.length_append]; exact e3, e1⟩

/-- C122: otherwise both observables are taken to their ends; with_latest_from ends as the main one does, the others complete if both did. -/
theorem C122_ends (hp : p.WF) (hfit : Fits cap (p.finals.length + 1)) (l : List β) (as : List α) (hy : y.Is l) (hfo : ∀ e, y.fin ≠ some (.error e)) (hx : x.Is as)
    (hne : ¬ SyncPair.Enough react p (shown kd f l as none)) :
    ∃ t, ∀ t' ≥ t, let s := SyncPair.sub kd cap ov react p f x y t'
      s.pc = .done ∧ s.got = as.length ∧ SyncPair.sees s = told react p (shown kd f l as (closing kd y.fin x.fin)) := by
  have hl : Lawful (p.lift (userObs cap ov react)) := Pipe.lift_lawful p userObs_lawful
  have hd := (SyncPair.gone_iff (cap := cap) (ov := ov) react p hp hfit _).trans (Bool.eq_false_iff.2 hne)
  have hd0 := SyncPair.gone_first hl as hd
  have h1 := SyncPair.other_all (kd := kd) (f := f) (x := x) hd0 hy hfo
  have h2 := SyncPair.main_values (kd := kd) (f := f) (x := x) (y := y) (op := needed kd y.fin) hl as.length as rfl hd hx.1
  have h3 := SyncPair.main_ends (kd := kd) (f := f) hl hd hfo hx.2
  have hs : SyncPair.sub kd cap ov react p f x y (l.length + 1 + as.length + 1) = _ := SyncPair.exec_eq _ _
  rw [SyncPair.repeat_add, SyncPair.repeat_add, h1, h2] at hs
  obtain ⟨e1, e2, e3⟩ := h3
  refine ⟨l.length + 1 + as.length + 1, fun t' ht' => ?_⟩
  intro s
  have h4 : s = SyncPair.sub kd cap ov react p f x y (l.length + 1 + as.length + 1) := SyncPair.exec_done ht' (by unfold SyncPair.sub at hs; rw [hs]; exact e1)
  rw [h4, hs]
  exact ⟨e1, e2, by
    unfold SyncPair.sees
    refine Eq.trans ?_ (SyncPair.sees_told (cap := cap) (ov := ov) react p hp hfit _)
    exact congrArg (fun o => evsOf (p.final o).log) e3⟩

/-- C122: an error of the other observable ends everything; no value of the main one is taken. -/
theorem C122_other_fails (hp : p.WF) (hfit : Fits cap (p.finals.length + 1)) (l : List β) (hy : y.Is l) (e : ε) (he : y.fin = some (.error e)) (hne : ¬ SyncPair.Enough react p ⟨[], none⟩) :
    ∃ t, ∀ t' ≥ t, let s := SyncPair.sub kd cap ov react p f x y t'
      s.pc = .done ∧ s.got = 0 ∧ SyncPair.sees s = told react p ⟨[], some (.error e)⟩ := by
  have hl : Lawful (p.lift (userObs cap ov react)) := Pipe.lift_lawful p userObs_lawful
  have hd : (p.lift (userObs cap ov react)).isDisposed ((p.lift (userObs cap ov react)).call (.up 0) (p.start (userObs cap ov react) {})) = false :=
    (SyncPair.gone_iff (cap := cap) (ov := ov) react p hp hfit _).trans (Bool.eq_false_iff.2 hne)
  have h1 := SyncPair.other_values (kd := kd) (f := f) (x := x) hd l.length (Nat.le_refl _) hy.1
  have hs : SyncPair.sub kd cap ov react p f x y (l.length + 1 + 1) = _ := SyncPair.exec_eq _ _
  rw [SyncPair.repeat_add, SyncPair.repeat_add, h1] at hs
  have h2 : SyncPair.step kd (p.lift (userObs cap ov react)) f x y { obs := (p.lift (userObs cap ov react)).call (.up 0) (p.start (userObs cap ov react) {}), pc := .other l.length, qb := (cells kd (l.take l.length) ([] : List α)).2 }
      = { obs := (p.lift (userObs cap ov react)).onError e ((p.lift (userObs cap ov react)).call (.up 0) (p.start (userObs cap ov react) {})), pc := .main 0, qb := (cells kd (l.take l.length) ([] : List α)).2 } := by
    simp only [SyncPair.step, hy.2, hd, Bool.false_eq_true, if_false, he, SyncPair.ends]
  have h3 : SyncPair.sub kd cap ov react p f x y (l.length + 1 + 1)
      = { obs := (p.lift (userObs cap ov react)).onError e ((p.lift (userObs cap ov react)).call (.up 0) (p.start (userObs cap ov react) {})), pc := .done, qb := (cells kd (l.take l.length) ([] : List α)).2 } := by
    rw [hs, SyncPair.repeat_one, SyncPair.repeat_one, h2]
    exact SyncPair.stops rfl (hl.term _ (.error e) rfl)
  refine ⟨l.length + 1 + 1, fun t' ht' => ?_⟩
  intro s
  have h4 : s = SyncPair.sub kd cap ov react p f x y (l.length + 1 + 1) := SyncPair.exec_done ht' (by unfold SyncPair.sub at h3; rw [h3])
  rw [h4, h3]
  exact ⟨rfl, rfl, SyncPair.sees_told (cap := cap) (ov := ov) react p hp hfit ⟨[], some (.error e)⟩⟩

/-- C122: if the other observable has no end, `subscribe` never comes to the main one; nothing is shown, ever. -/
theorem C122_other_endless (hp : p.WF) (hfit : Fits cap (p.finals.length + 1)) (v : Nat → β) (hy : ∀ i, y.at' i = some (v i)) (hne : ¬ SyncPair.Enough react p ⟨[], none⟩) (t : Nat) :
    let s := SyncPair.sub kd cap ov react p f x y t
    s.pc = .other t ∧ s.got = 0 ∧ SyncPair.sees s = told react p ⟨[], none⟩ ∧ (kd = .zip → s.qb = (List.range t).map v) := by
  have hd : (p.lift (userObs cap ov react)).isDisposed ((p.lift (userObs cap ov react)).call (.up 0) (p.start (userObs cap ov react) {})) = false :=
    (SyncPair.gone_iff (cap := cap) (ov := ov) react p hp hfit _).trans (Bool.eq_false_iff.2 hne)
  have h1 := SyncPair.other_values (kd := kd) (f := f) (x := x) (y := y) (l := (List.range t).map v) hd t (by simp) (fun i hi => by simp [hy])
  intro s
  have hs : s = _ := SyncPair.exec_eq _ _
  rw [hs, h1]
  refine ⟨rfl, rfl, SyncPair.sees_told (cap := cap) (ov := ov) react p hp hfit ⟨[], none⟩, ?_⟩
  rintro rfl
  simp only [cells, List.length_nil, List.drop_zero]
  exact List.take_of_length_le (by simp)

/-- C122: with a main observable without an end, `subscribe` returns if and only if finitely many of its values are enough. -/
theorem C122_endless (hp : p.WF) (hfit : Fits cap (p.finals.length + 1)) (l : List β) (hy : y.Is l) (hfo : ∀ e, y.fin ≠ some (.error e)) (v : Nat → α) (hx : ∀ i, x.at' i = some (v i)) :
    (∃ t, (SyncPair.sub kd cap ov react p f x y t).pc = .done) ↔ ∃ m, SyncPair.Enough react p (shown kd f l ((List.range m).map v) none) := by
  classical
  have hl : Lawful (p.lift (userObs cap ov react)) := Pipe.lift_lawful p userObs_lawful
  constructor
  · rintro ⟨t, h⟩
    apply Classical.byContradiction
    intro hx'
    have hd := (SyncPair.gone_iff (cap := cap) (ov := ov) react p hp hfit _).trans (Bool.eq_false_iff.2 fun h => hx' ⟨t, h⟩)
    have h1 := SyncPair.other_all (kd := kd) (f := f) (x := x) (SyncPair.gone_first hl _ hd) hy hfo
    have h2 := SyncPair.main_values (kd := kd) (f := f) (x := x) (y := y) (op := needed kd y.fin) hl t _ (by simp) hd (fun i hi => by simp [hx])
    have hs : SyncPair.sub kd cap ov react p f x y (l.length + 1 + t) = _ := SyncPair.exec_eq _ _
    rw [SyncPair.repeat_add, h1, h2] at hs
    have h3 : SyncPair.sub kd cap ov react p f x y (l.length + 1 + t) = SyncPair.sub kd cap ov react p f x y t := SyncPair.exec_done (by omega) h
    rw [← h3, hs] at h
    cases h
  · rintro ⟨m, hm⟩
    have hex : ∃ m, SyncPair.Enough react p (shown kd f l ((List.range m).map v) none) ∧ ∀ k < m, ¬ SyncPair.Enough react p (shown kd f l ((List.range k).map v) none) := by
      induction m using Nat.strongRecOn with
      | _ m ih =>
        by_cases h : ∃ k, k < m ∧ SyncPair.Enough react p (shown kd f l ((List.range k).map v) none)
        · obtain ⟨k, hk, hs⟩ := h; exact ih k hk hs
        · exact ⟨m, hm, fun k hk hs => h ⟨k, hk, hs⟩⟩
    obtain ⟨m, h1, h2⟩ := hex
    obtain ⟨t, h⟩ := C122_enough kd cap ov react p f x y hp hfit l ((List.range m).map v) hy hfo (fun i hi => by simp [hx]) h1 (fun k hk => by
      rw [← List.map_take, List.take_range, Nat.min_eq_left (by simp at hk; omega)]
      exact h2 k (by simpa using hk))
    exact ⟨t, (h t (Nat.le_refl _)).1⟩

/-- C122: so zip of an endless main observable and a finite other one does not return unless the pairs are enough: it goes on, though no further pair is possible, and stores every further value. -/
theorem C122_zip_stores (hp : p.WF) (hfit : Fits cap (p.finals.length + 1)) (l : List β) (hy : y.Is l) (hfo : ∀ e, y.fin ≠ some (.error e)) (v : Nat → α) (hx : ∀ i, x.at' i = some (v i))
    (hne : ¬ SyncPair.Enough react p (shown .zip f l ((List.range l.length).map v) none)) (k : Nat) :
    let s := SyncPair.sub .zip cap ov react p f x y (l.length + 1 + (l.length + k))
    s.pc = .main (l.length + k) ∧ s.qa = (List.range k).map (fun i => v (l.length + i)) ∧ SyncPair.sees s = told react p (shown .zip f l ((List.range l.length).map v) none) := by
  have hl : Lawful (p.lift (userObs cap ov react)) := Pipe.lift_lawful p userObs_lawful
  have hsame : shown .zip f l ((List.range (l.length + k)).map v) none = shown .zip f l ((List.range l.length).map v) none := by
    have hz : ((List.range (l.length + k)).map v).zip l = ((List.range l.length).map v).zip l := by
      rw [List.range_add, List.map_append]
      have := List.zip_append (l₁ := (List.range l.length).map v) (l₂ := l) (r₁ := ((List.range k).map (fun x => l.length + x)).map v) (r₂ := []) (by simp)
      rw [List.append_nil, List.zip_nil_right, List.append_nil] at this
      exact this
    simp only [shown, combined, hz]
  have hd := (SyncPair.gone_iff (cap := cap) (ov := ov) react p hp hfit _).trans (Bool.eq_false_iff.2 hne)
  have h1 := SyncPair.other_all (kd := .zip) (f := f) (x := x) (SyncPair.gone_first hl _ hd) hy hfo
  have h2 := SyncPair.main_values (kd := .zip) (f := f) (x := x) (y := y) (op := needed .zip y.fin) hl (l.length + k) ((List.range (l.length + k)).map v) (by simp) (by rw [hsame]; exact hd) (fun i hi => by simp [hx])
  intro s
  have hs : s = _ := SyncPair.exec_eq _ _
  rw [SyncPair.repeat_add, h1, h2] at hs
  rw [hs]
  refine ⟨by simp [inMain], ?_, ?_⟩
  · simp only [inMain, cells]
    rw [List.range_add, List.map_append, List.drop_left' (by simp), List.map_map]
    rfl
  · unfold SyncPair.sees
    simp only [inMain, hsame]
    exact SyncPair.sees_told (cap := cap) (ov := ov) react p hp hfit _

/-! ## Cases -/

/-- Values `0, 1, 2, …` without an end. -/
abbrev SyncPair.nats : Src Nat Unit := ⟨fun i => some i, some .completed⟩

/-- These values and this end. -/
abbrev SyncPair.these (l : List Nat) (fin : Option (Term Unit)) : Src Nat Unit := ⟨fun i => l[i]?, fin⟩

theorem SyncPair.these_is (l : List Nat) (fin : Option (Term Unit)) : (these l fin).Is l := ⟨fun i h => List.getElem?_eq_getElem h, List.getElem?_eq_none (Nat.le_refl _)⟩

/-- `nats | zip(just(7, 8)) | take(2)`: two values are taken. -/
example : SyncPair.Enough (ε := Unit) (fun _ => {}) (.cons (.take 2) .nil) (shown .zip (fun a b => .ok (a + b)) [7, 8] [0, 1] none) ∧
    ∀ k < 2, ¬ SyncPair.Enough (ε := Unit) (fun _ => {}) (.cons (.take 2) .nil) (shown .zip (fun a b => .ok (a + b)) [7, 8] (([0, 1] : List Nat).take k) none) := by
  refine ⟨rfl, fun k hk => ?_⟩
  match k, hk with
  | 0, _ => exact Bool.false_ne_true
  | 1, _ => exact Bool.false_ne_true

example : SyncPair.nats.Begins [0, 1] ∧ (SyncPair.these [7, 8] (some .completed)).Is [7, 8] := ⟨fun i hi => by
  match i, hi with
  | 0, _ => rfl
  | 1, _ => rfl, SyncPair.these_is _ _⟩

example : let s := SyncPair.sub (ε := Unit) .zip none () (fun _ => {}) (.cons (.take 2) .nil) (fun a b => .ok (a + b)) SyncPair.nats (SyncPair.these [7, 8] (some .completed)) 20
    s.got = 2 ∧ SyncPair.sees s = [.next 7, .next 9, .completed] := by decide

/-- Each of the three of `just(1, 2)` with `just(7, 8)`; with `never` behind the other values only with_latest_from completes. -/
example : let run := fun kd fin => SyncPair.sees (SyncPair.sub (ε := Unit) kd none () (fun _ => {}) (.nil : Pipe Unit Nat Nat) (fun a b => .ok (10 * a + b)) (SyncPair.these [1, 2] (some .completed)) (SyncPair.these [7, 8] fin) 20)
    run .zip (some .completed) = [.next 17, .next 28, .completed] ∧ run .latest (some .completed) = [.next 18, .next 28, .completed] ∧ run .withLatest (some .completed) = [.next 18, .next 28, .completed] ∧
    run .zip none = [.next 17, .next 28] ∧ run .latest none = [.next 18, .next 28] ∧ run .withLatest none = [.next 18, .next 28, .completed] ∧
    run .latest (some (.error ())) = [.error ()] := by decide

/-- The hypothesis of `C122_ends`, `C122_other_fails`, `C122_other_endless` and `C122_zip_stores` for a passive subscriber. -/
example (kd : SyncPair.Kind) (l as : List Nat) : ¬ SyncPair.Enough (ε := Unit) (fun _ => {}) (.nil : Pipe Unit Nat Nat) (shown kd (fun a b => .ok (a + b)) l as none) ∧ ¬ SyncPair.Enough (ε := Unit) (fun _ => {}) (.nil : Pipe Unit Nat Nat) ⟨[], none⟩ := by
  refine ⟨?_, Bool.false_ne_true⟩
  have h : (combined kd (fun a b => (.ok (a + b) : Except Unit Nat)) l as).2 = none := by
    cases kd <;> simp only [combined]
    · exact Endless.mapUntil_waits _ (fun ab : Nat × Nat => ⟨ab.1 + ab.2, rfl⟩) _
    all_goals
      cases l.getLast? with
      | none => rfl
      | some b => exact Endless.mapUntil_waits _ (fun a => ⟨a + b, rfl⟩) _
  unfold SyncPair.Enough
  rw [Endless.enough_passive]
  simp [Pipe.spec, shown, h, Spec.endWith]

end Rpp
