import Verif.Source.FromProps
import Verif.Core.Algebra

/-!
# `from_iterable` of containers without an end

The loop of `/repo/src/rpp/rpp/sources/from.hpp` over containers whose elements are made when the iterator is dereferenced (generators,
views, utils/utils.hpp 201-246 `infinite_repeated_container`): which elements are made, and whether the loop ends.
-/

namespace Rpp.Endless

open From (Lbl)

/-- A container as its iterators show it: `c i = none` if the `i`-th iterator is `end()`, otherwise dereferencing it gives the element or throws.  It need not end.
Simplification: advancing and comparing iterators does not throw and makes no element. (sources/from.hpp 52-122, utils/utils.hpp 141-246) -/
abbrev Cont (α ε : Type) := Nat → Option (Except ε α)

/-- Where the loop of from.hpp 107-113 is: about to look at element `i`; past the `is_disposed()` test with element `i` in hand; done. -/
inductive IPc (α : Type) where
  | look (i : Nat)
  | emit (i : Nat) (a : α)
  | done

/-- A subscription in progress; `made` are the elements dereferenced so far, in order. (sources/from.hpp 101-121) -/
structure ISt (α σ : Type) where
  obs : σ
  pc : IPc α := .look 0
  made : List Nat := []

/-- One step of `from_iterable_strategy::subscribe` for the immediate scheduler (from.hpp 101-121): the range-for dereferences the iterator (107) before the body tests `is_disposed()` (109). -/
def istep (O : Obs α ε σ) (kill : σ → σ) (c : Cont α ε) (s : ISt α σ) : Lbl → ISt α σ
  | .kill => { s with obs := kill s.obs }
  | .run => match s.pc with
    | .done => s
    | .look i => match c i with
      | none => { s with obs := O.onCompleted s.obs, pc := .done }
      | some (.error e) => { obs := O.onError e s.obs, pc := .done, made := s.made ++ [i] }
      | some (.ok a) => { s with pc := if O.isDisposed s.obs then .done else .emit i a, made := s.made ++ [i] }
    | .emit i a => { s with obs := O.onNext a s.obs, pc := .look (i + 1) }

/-- A run of the immediate implementation. (sources/from.hpp 101-121) -/
def iexec (O : Obs α ε σ) (kill : σ → σ) (c : Cont α ε) (s : σ) (ls : List Lbl) : ISt α σ := ls.foldl (istep O kill c) { obs := s }

/-- Where the scheduled task is: queued with `index = i`; past `on_next` of the last element; gone. (sources/from.hpp 51-80) -/
inductive SPc where
  | queued (i : Nat)
  | last
  | done

/-- A subscription in progress, see `ISt`. (sources/from.hpp 51-80) -/
structure SSt (σ : Type) where
  obs : σ
  pc : SPc := .queued 0
  made : List Nat := []

/-- One step of `from_iterable_schedulable` (from.hpp 51-80) on a worker; see `From.sstep`.  A task whose handler is disposed is dropped without being called; only the element at `index` is dereferenced (64). -/
def sstep (O : Obs α ε σ) (kill : σ → σ) (c : Cont α ε) (s : SSt σ) : Lbl → SSt σ
  | .kill => { s with obs := kill s.obs }
  | .run => match s.pc with
    | .done => s
    | .last => { s with obs := O.onCompleted s.obs, pc := .done }
    | .queued i =>
      if O.isDisposed s.obs then { s with pc := .done }
      else match c i with
        | none => { s with obs := O.onCompleted s.obs, pc := .done }
        | some (.error e) => { obs := O.onError e s.obs, pc := .done, made := s.made ++ [i] }
        | some (.ok a) => { obs := O.onNext a s.obs, pc := if (c (i + 1)).isSome then .queued (i + 1) else .last, made := s.made ++ [i] }

/-- A run of the scheduled implementation. (sources/from.hpp 51-80, 124-125) -/
def sexec (O : Obs α ε σ) (kill : σ → σ) (c : Cont α ε) (s : σ) (ls : List Lbl) : SSt σ := ls.foldl (sstep O kill c) { obs := s }

/-! ## Specification -/

/-- A subscriber with the callbacks `react` that is given these values and this end has had enough: it was told the end, or a callback disposed of the subscription or threw.  Specification; models no code. -/
def enough (react : List (Call α ε) → Reaction ε) (hist : List (Call α ε)) : List α → Option (Term ε) → Bool
  | [], fin => fin.isSome
  | a :: as, fin => (react (hist ++ [.next a])).dispose || (react (hist ++ [.next a])).throws.isSome || enough react (hist ++ [.next a]) as fin

/-- The first `k` of these values.  Specification; models no code. -/
def first (v : Nat → α) (k : Nat) : List α := (List.range k).map v

/-- The first `k` values are all a subscriber of the chain `p` needs.  Specification; models no code. -/
def Suffices (react : List (Call γ ε) → Reaction ε) (p : Pipe ε α γ) (v : Nat → α) (k : Nat) : Prop :=
  enough react [] (p.spec ⟨first v k, none⟩).vals (p.spec ⟨first v k, none⟩).fin = true

/-- These operators end a sequence that has not ended only if a function given to them throws.  Specification; models no code. -/
def Op.waits : Op ε α β → Prop
  | .take _ | .takeWhile _ | .first _ | .elementAt _ _ => False
  | .map f => ∀ a, ∃ b, f a = .ok b
  | .filter p => ∀ a, ∃ b, p a = .ok b
  | .distinctUntilChanged eq => ∀ a b, ∃ x, eq a b = .ok x
  | .scan _ f | .reduce _ f => ∀ a b, ∃ x, f a b = .ok x
  | .scanNoSeed f | .reduceNoSeed f => ∀ a b, ∃ x, f a b = .ok x
  | .tap cb => ∀ a, cb a = none
  | _ => True

/-- A chain of such operators.  Specification; models no code. -/
def Pipe.waits : Pipe ε α γ → Prop
  | .nil => True
  | .cons o p => Op.waits o ∧ Pipe.waits p

/-! ## Proofs -/

theorem endWith_some (e : Option ε) (fin : Option (Term ε)) (h : fin.isSome = true) : (Spec.endWith e fin).isSome = true := by
  cases e <;> simp [Spec.endWith, h]

theorem takeWhile_fin (q : α → Except ε Bool) (fin : Option (Term ε)) (h : fin.isSome = true) : ∀ l, (Spec.takeWhile q l fin).fin.isSome = true := by
  intro l
  induction l with
  | nil => exact h
  | cons a l ih => simp only [Spec.takeWhile]; split <;> first | exact ih | rfl

theorem reduce_fin {α β : Type} (s : β) (f : β → α → Except ε β) (t : Trace α ε) (h : t.fin.isSome = true) : (Spec.reduce s f t).fin.isSome = true := by
  simp only [Spec.reduce]
  split
  · rfl
  · split
    · rfl
    · exact h

/-- A sequence that has ended has ended behind every operator. -/
theorem op_fin {α β : Type} (o : Op ε α β) (t : Trace α ε) (h : t.fin.isSome = true) : (o.spec t).fin.isSome = true := by
  cases o <;> simp only [Op.spec]
  case map => exact endWith_some _ _ h
  case filter => exact endWith_some _ _ h
  case take n => simp only [Spec.take]; split <;> first | rfl | exact h
  case skip => exact h
  case takeWhile => exact takeWhile_fin _ _ h _
  case takeLast => simp only [Spec.takeLast]; split <;> first | rfl | exact h
  case first => simp only [Spec.first]; split <;> first | rfl | exact h
  case last =>
    simp only [Spec.last]
    split
    · split <;> rfl
    · exact h
  case elementAt =>
    simp only [Spec.elementAt]
    split
    · rfl
    · split <;> first | rfl | exact h
  case distinct => exact h
  case distinctUntilChanged => exact endWith_some _ _ h
  case scan => exact endWith_some _ _ h
  case scanNoSeed =>
    simp only [Spec.scanNoSeed]
    split
    · exact h
    · exact endWith_some _ _ h
  case reduce => exact reduce_fin _ _ _ h
  case reduceNoSeed =>
    simp only [Spec.reduceNoSeed]
    split
    · exact h
    · exact reduce_fin _ _ _ h
  case buffer => simp only [Spec.buffer]; split <;> first | rfl | exact h
  case tap => exact endWith_some _ _ h
  case finallyOp => exact h
  case throttle => exact h

theorem pipe_fin : {α γ : Type} → (p : Pipe ε α γ) → (t : Trace α ε) → t.fin.isSome = true → (p.spec t).fin.isSome = true
  | _, _, .nil, _, h => h
  | _, _, .cons o p, t, h => pipe_fin p _ (op_fin o t h)

theorem spec_app : {α β γ : Type} → (p : Pipe ε α β) → (q : Pipe ε β γ) → (t : Trace α ε) → (p.append q).spec t = q.spec (p.spec t)
  | _, _, _, .nil, _, _ => rfl
  | _, _, _, .cons _ p, q, _ => spec_app p q _

theorem enough_fin (react : List (Call γ ε) → Reaction ε) (fin : Option (Term ε)) (h : fin.isSome = true) : ∀ (l : List γ) hist, enough react hist l fin = true := by
  intro l
  induction l with
  | nil => exact fun _ => h
  | cons a l ih => intro hist; simp [enough, ih]

theorem enough_passive (fin : Option (Term ε)) : ∀ (l : List γ) hist, enough (fun _ => {}) hist l fin = fin.isSome := by
  intro l
  induction l with
  | nil => exact fun _ => rfl
  | cons a l ih => intro hist; simp [enough, ih]

theorem mapUntil_waits (f : α → Except ε β) (h : ∀ a, ∃ b, f a = .ok b) : ∀ l, (Spec.mapUntil f l).2 = none := by
  intro l
  induction l with
  | nil => rfl
  | cons a l ih => obtain ⟨b, hb⟩ := h a; simp [Spec.mapUntil, hb, ih]

theorem filterUntil_waits (f : α → Except ε Bool) (h : ∀ a, ∃ b, f a = .ok b) : ∀ l, (Spec.filterUntil f l).2 = none := by
  intro l
  induction l with
  | nil => rfl
  | cons a l ih => obtain ⟨b, hb⟩ := h a; cases b <;> simp [Spec.filterUntil, hb, ih]

theorem collapse_waits (eq : α → α → Except ε Bool) (h : ∀ a b, ∃ x, eq a b = .ok x) : ∀ l prev, (Spec.collapse eq prev l).2 = none := by
  intro l
  induction l with
  | nil => exact fun _ => rfl
  | cons a l ih =>
    intro prev
    cases prev with
    | none => simp [Spec.collapse, ih]
    | some b => obtain ⟨x, hx⟩ := h b a; cases x <;> simp [Spec.collapse, hx, ih]

theorem scanUntil_waits (f : β → α → Except ε β) (h : ∀ a b, ∃ x, f a b = .ok x) : ∀ l s, (Spec.scanUntil f s l).2 = none := by
  intro l
  induction l with
  | nil => exact fun _ => rfl
  | cons a l ih => intro s; obtain ⟨b, hb⟩ := h s a; simp [Spec.scanUntil, hb, ih]

theorem reduce_waits {α β : Type} (f : β → α → Except ε β) (h : ∀ a b, ∃ x, f a b = .ok x) : ∀ (l : List α) (s : β), (Spec.reduce s f ⟨l, none⟩).fin = none := by
  intro l s
  have : ∀ (l : List α) (s : β), ∃ b, l.foldlM f s = .ok b := by
    intro l
    induction l with
    | nil => exact fun s => ⟨s, rfl⟩
    | cons a l ih => intro s; obtain ⟨b, hb⟩ := h s a; obtain ⟨x, hx⟩ := ih b; exact ⟨x, by rw [List.foldlM_cons, hb]; exact hx⟩
  obtain ⟨b, hb⟩ := this l s
  simp [Spec.reduce, hb]

theorem op_waits {α β : Type} (o : Op ε α β) (h : Op.waits o) (t : Trace α ε) (ht : t.fin = none) : (o.spec t).fin = none := by
  rcases t with ⟨l, fin⟩
  dsimp only at ht; subst ht
  cases o <;> simp only [Op.spec] <;> simp only [Op.waits] at h
  case map => simp [Spec.map, mapUntil_waits _ h, Spec.endWith]
  case filter => simp [Spec.filter, filterUntil_waits _ h, Spec.endWith]
  case skip => rfl
  case takeLast => rfl
  case last => rfl
  case distinct => rfl
  case distinctUntilChanged => simp [Spec.distinctUntilChanged, collapse_waits _ h, Spec.endWith]
  case scan => simp [Spec.scan, scanUntil_waits _ h, Spec.endWith]
  case scanNoSeed => cases l <;> simp [Spec.scanNoSeed, Spec.scan, scanUntil_waits _ h, Spec.endWith]
  case reduce => exact reduce_waits _ h _ _
  case reduceNoSeed =>
    cases l
    · rfl
    · exact reduce_waits _ h _ _
  case buffer => rfl
  case tap => simp only [Spec.tap, Spec.map]; rw [mapUntil_waits _ (fun a => ⟨a, by rw [h a]⟩)]; rfl
  case finallyOp => rfl

theorem pipe_waits : {α γ : Type} → (p : Pipe ε α γ) → Pipe.waits p → (t : Trace α ε) → t.fin = none → (p.spec t).fin = none
  | _, _, .nil, _, _, h => h
  | _, _, .cons o p, hw, t, h => pipe_waits p hw.2 _ (op_waits o hw.1 t h)

section
variable [DecidableEq α] [DecidableEq γ] [DecidableEq ε] {cap : Option Nat} {ov : ε}

theorem user_enough {react : List (Call γ ε) → Reaction ε} (cs : List (Call γ ε)) : ∀ s : UserSt γ ε, s.disposed = false → Fits cap (s.ups.length + (upsOf cs).length) →
    ((userObs cap ov react).run s cs).disposed = enough react (evsOf s.log) (traceOf cs).vals (traceOf cs).fin := by
  induction cs with
  | nil => intro s hd _; simp [enough, hd]
  | cons c cs ih =>
    intro s hd hf
    rw [Obs.run_cons]
    cases c with
    | up d =>
      have hf' : Fits cap (s.ups.length + 1) := fun n hn => by
        have := hf n hn; simp [upsOf] at this; omega
      rw [call_up_fits hd d hf']
      exact ih { s with ups := s.ups ++ [d] } hd (fun n hn => by have := hf n hn; simp [upsOf] at this ⊢; omega)
    | error e =>
      show ((userObs cap ov react).run (implOnError _ _ e s) cs).disposed = _
      obtain ⟨h1, h2⟩ := evs_onError (cap := cap) (ov := ov) (react := react) hd e
      rw [(run_of_disposed h2 cs).2.1]
      simp [enough]
    | completed =>
      have h2 : ((userObs cap ov react).call .completed s).disposed = true := by
        have := userObs_lawful.term (O := userObs cap ov react) s .completed rfl
        simpa using this
      rw [(run_of_disposed h2 cs).2.1]
      simp [enough]
    | next a =>
      rw [traceOf_next]
      simp only [enough]
      have hf' : Fits cap (s.ups.length + (upsOf cs).length) := hf
      have hev : evsOf (s.log ++ [.ev (.next a)]) = evsOf s.log ++ [.next a] := by
        simp [evsOf_append, evsOf]
      rw [call_next hd, hev]
      generalize hs1 : ({ s with log := s.log ++ [.ev (.next a)] } : UserSt γ ε) = s1
      have hs1d : s1.disposed = false := by rw [← hs1]; exact hd
      have hs1e : evsOf s1.log = evsOf s.log ++ [.next a] := by rw [← hs1, ← hev]
      have hs1u : s1.ups = s.ups := by rw [← hs1]
      by_cases hr : (react (evsOf s.log ++ [.next a])).dispose = true
      · simp only [hr, if_true, Bool.true_or]
        obtain ⟨d1, d2, _⟩ := s1.dispose_facts
        cases (react (evsOf s.log ++ [.next a])).throws with
        | none => exact (run_of_disposed d2 cs).2.1
        | some e =>
          have : implOnError (lambdaStrategy react) (localDisp cap ov) e s1.dispose = s1.dispose := by
            rw [implOnError_user, d2]; rfl
          simp only [this]
          exact (run_of_disposed d2 cs).2.1
      · simp only [hr, Bool.false_eq_true, if_false]
        cases (react (evsOf s.log ++ [.next a])).throws with
        | none =>
          have := ih s1 hs1d (by rw [hs1u]; exact hf')
          rw [hs1e] at this
          simpa using this
        | some e =>
          obtain ⟨h1, h2⟩ := evs_onError (cap := cap) (ov := ov) (react := react) hs1d e
          simp only
          rw [(run_of_disposed h2 cs).2.1]
          simp

theorem trace_nexts (l : List α) : traceOf (l.map (.next : α → Call α ε)) = ⟨l, none⟩ := by
  induction l with
  | nil => rfl
  | cons a l ih => rw [List.map_cons, traceOf_next, ih]

theorem ups_nexts (l : List α) : upsOf (l.map (.next : α → Call α ε)) = [] := by
  induction l with
  | nil => rfl
  | cons a l ih => simpa [upsOf] using ih

/-- Whether the source finds its observer disposed after some values, in terms of the chain's specification. -/
theorem disposed_after (react : List (Call γ ε) → Reaction ε) (p : Pipe ε α γ) (hp : p.WF) (hfit : Fits cap p.finals.length) (l : List α) :
    (p.lift (userObs cap ov react)).isDisposed ((p.lift (userObs cap ov react)).run (p.start (userObs cap ov react) {}) (l.map .next))
      = enough react [] (p.spec ⟨l, none⟩).vals (p.spec ⟨l, none⟩).fin := by
  rw [Pipe.isDisposed_final, userObs_isDisposed, Pipe.final_run userObs_lawful {} p, user_enough (p.trans _) {} rfl (by rw [Pipe.upsOf_trans, ups_nexts]; simpa using hfit),
    Pipe.trans_spec p hp, trace_nexts]
  rfl

theorem seen_after (react : List (Call γ ε) → Reaction ε) (p : Pipe ε α γ) (hp : p.WF) (hfit : Fits cap p.finals.length) (l : List α) :
    subscriberSees cap ov react p (l.map .next) = deliver react [] (p.spec ⟨l, none⟩).vals (p.spec ⟨l, none⟩).fin := by
  rw [C04_pipeline cap ov react p hp _ (by rw [ups_nexts]; simpa using hfit), trace_nexts]

end

theorem first_succ (v : Nat → α) (k : Nat) : first v (k + 1) = first v k ++ [v k] := by
  simp [first, List.range_succ]

theorem replicate_add (n m : Nat) : List.replicate (n + m) Lbl.run = List.replicate n .run ++ List.replicate m .run := by
  rw [List.replicate_append_replicate]

section
variable {O : Obs α ε σ} {kill : σ → σ} {c : Cont α ε} {s : σ} {v : Nat → α}

/-- The loop has passed on `k` values. -/
theorem iprogress (k : Nat) (hv : ∀ i < k, c i = some (.ok (v i))) (hn : ∀ i < k, O.isDisposed (O.run s ((first v i).map .next)) = false) :
    iexec O kill c s (List.replicate (2 * k) .run) = { obs := O.run s ((first v k).map .next), pc := .look k, made := List.range k } := by
  induction k with
  | zero => rfl
  | succ k ih =>
    have e := ih (fun i hi => hv i (by omega)) (fun i hi => hn i (by omega))
    rw [show 2 * (k + 1) = 2 * k + 2 by omega, replicate_add]
    unfold iexec at e ⊢
    rw [List.foldl_append, e]
    show istep O kill c (istep O kill c _ .run) .run = _
    have h1 : istep O kill c { obs := O.run s ((first v k).map .next), pc := .look k, made := List.range k } .run
        = { obs := O.run s ((first v k).map .next), pc := .emit k (v k), made := List.range k ++ [k] } := by
      simp only [istep, hv k (by omega), hn k (by omega), Bool.false_eq_true, if_false]
    rw [h1]
    simp only [istep, first_succ, List.map_append, Obs.run_append, List.range_succ]
    rfl

/-- The scheduled task has passed on `k` values and there is another one. -/
theorem sprogress (k : Nat) (hv : ∀ i < k, c i = some (.ok (v i))) (hn : ∀ i < k, O.isDisposed (O.run s ((first v i).map .next)) = false) :
    sexec O kill c s (List.replicate k .run) =
      { obs := O.run s ((first v k).map .next), pc := if k = 0 ∨ (c k).isSome then .queued k else .last, made := List.range k } := by
  induction k with
  | zero => rfl
  | succ k ih =>
    have e := ih (fun i hi => hv i (by omega)) (fun i hi => hn i (by omega))
    have hs : (c k).isSome = true := by rw [hv k (by omega)]; rfl
    rw [if_pos (.inr hs)] at e
    rw [replicate_add]
    unfold sexec at e ⊢
    rw [List.foldl_append, e]
    rw [List.replicate_one, List.foldl_cons, List.foldl_nil]
    simp only [sstep, hv k (by omega), hn k (by omega), Bool.false_eq_true, if_false, first_succ, List.map_append, Obs.run_append, List.range_succ]
    simp only [Nat.add_eq_zero_iff, Nat.one_ne_zero, and_false, false_or]
    rfl

theorem idone (n : Nat) {t : ISt α σ} (h : t.pc = .done) : (List.replicate n Lbl.run).foldl (istep O kill c) t = t := by
  induction n with
  | zero => rfl
  | succ n ih =>
    rw [List.replicate_succ, List.foldl_cons]
    have : istep O kill c t .run = t := by simp only [istep, h]
    rw [this, ih]

theorem sdone (n : Nat) {t : SSt σ} (h : t.pc = .done) : (List.replicate n Lbl.run).foldl (sstep O kill c) t = t := by
  induction n with
  | zero => rfl
  | succ n ih =>
    rw [List.replicate_succ, List.foldl_cons]
    have : sstep O kill c t .run = t := by simp only [sstep, h]
    rw [this, ih]

end

/-! ## Containers with an end -/

/-- The same place in the loop of `Verif.Source.From`. -/
def IPc.same : IPc α → From.IPc α
  | .look i => .look i
  | .emit i a => .emit i a
  | .done => .done

/-- The same place of the task of `Verif.Source.From`; models no code. -/
def SPc.same : SPc → From.SPc
  | .queued i => .queued i
  | .last => .last
  | .done => .done

theorem isame (O : Obs α ε σ) (kill : σ → σ) (c : List (Except ε α)) (ls : List Lbl) : ∀ (s : ISt α σ),
    (⟨(ls.foldl (istep O kill (fun i => c[i]?)) s).obs, (ls.foldl (istep O kill (fun i => c[i]?)) s).pc.same⟩ : From.ISt α σ) = ls.foldl (From.istep O kill c) ⟨s.obs, s.pc.same⟩ := by
  induction ls with
  | nil => intro s; rfl
  | cons l ls ih =>
    intro s
    rw [List.foldl_cons, List.foldl_cons, ih]
    congr 1
    rcases s with ⟨o, pc, made⟩
    cases l with
    | kill => rfl
    | run =>
      cases pc with
      | done => rfl
      | emit i a => rfl
      | look i =>
        cases hc : c[i]? with
        | none => simp only [istep, From.istep, IPc.same, hc]
        | some x =>
          cases x with
          | error e => simp only [istep, From.istep, IPc.same, hc]
          | ok a => cases hd : O.isDisposed o <;> simp [istep, From.istep, IPc.same, hc, hd]

theorem ssame (O : Obs α ε σ) (kill : σ → σ) (c : List (Except ε α)) (ls : List Lbl) : ∀ (s : SSt σ),
    (⟨(ls.foldl (sstep O kill (fun i => c[i]?)) s).obs, (ls.foldl (sstep O kill (fun i => c[i]?)) s).pc.same⟩ : From.SSt σ) = ls.foldl (From.sstep O kill c) ⟨s.obs, s.pc.same⟩ := by
  induction ls with
  | nil => intro s; rfl
  | cons l ls ih =>
    intro s
    rw [List.foldl_cons, List.foldl_cons, ih]
    congr 1
    rcases s with ⟨o, pc, made⟩
    cases l with
    | kill => rfl
    | run =>
      cases pc with
      | done => rfl
      | last => rfl
      | queued i =>
        cases hd : O.isDisposed o with
        | true => simp [sstep, From.sstep, SPc.same, hd]
        | false =>
          cases hc : c[i]? with
          | none => simp [sstep, From.sstep, SPc.same, hc, hd]
          | some x =>
            cases x with
            | error e => simp [sstep, From.sstep, SPc.same, hc, hd]
            | ok a => cases hx : (c[i + 1]?).isSome <;> simp only [sstep, From.sstep, SPc.same, hc, hd, hx, Bool.false_eq_true, if_false, if_true]

end Rpp.Endless
