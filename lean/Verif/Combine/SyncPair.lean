import Verif.Combine.SyncFlatProps

/-!
# `zip`, `combine_latest` and `with_latest_from` on one thread

`/repo/src/rpp/rpp/operators/zip.hpp`, `combine_latest.hpp`, `with_latest_from.hpp` with one other observable, if both hand over all their values inside `subscribe`, as an immediate `from_iterable` does, with or without an end.
`lift` subscribes to the other observable first (details/combining_strategy.hpp 102-120, with_latest_from.hpp 145-167), so it has handed over everything before the main one is subscribed to.
-/

namespace Rpp.SyncPair

open SyncResub (finCalls)

/-- Which operator. (operators/zip.hpp, combine_latest.hpp, with_latest_from.hpp) -/
inductive Kind where
  | zip
  | latest
  | withLatest
  deriving DecidableEq

/-- An observable as an immediate `from_iterable` (or `never`, `error`): value number `i`, if there is one, and what it tells after its last value. (sources/from.hpp 101-121) -/
structure Src (α ε : Type) where
  at' : Nat → Option α
  fin : Option (Term ε)

/-- Where the thread is: in the loop of the other observable or of the main one, about to look at value `i`; returned. (sources/from.hpp 107-113) -/
inductive Pc where
  | other (i : Nat)
  | main (i : Nat)
  | done

/-- `qa`, `qb`: for zip the two deques of `m_pendings` (zip.hpp 38), for combine_latest the two optional values (combine_latest.hpp 36) and for with_latest_from the other's value (with_latest_from.hpp 45), as lists of at most one
element.  `open'`: `m_on_completed_needed` (combining_strategy.hpp 46).  `got`: how many main values were handed over, which the code does not count. -/
structure St (α β σ : Type) where
  obs : σ
  pc : Pc := .other 0
  qa : List α := []
  qb : List β := []
  open' : Nat := 2
  got : Nat := 0

/-- A value of the main observable. (zip.hpp 49-67, combine_latest.hpp 47-63, with_latest_from.hpp 100-113; a throwing selector: observers/observer.hpp 84-97) -/
def nextMain (kd : Kind) (O : Obs δ ε σ) (f : α → β → Except ε δ) (s : St α β σ) (a : α) : St α β σ :=
  match kd with
  | .zip => match s.qa ++ [a], s.qb with
    | x :: qa, y :: qb => match f x y with
      | .ok d => { s with obs := O.onNext d s.obs, qa := qa, qb := qb }
      | .error e => { s with obs := O.onError e s.obs, qa := x :: qa }
    | qa, _ => { s with qa := qa }
  | .latest => match s.qb with
    | [] => { s with qa := [a] }
    | y :: _ => match f a y with
      | .ok d => { s with obs := O.onNext d s.obs, qa := [a] }
      | .error e => { s with obs := O.onError e s.obs, qa := [a] }
  | .withLatest => match s.qb with
    | [] => s
    | y :: _ => match f a y with
      | .ok d => { s with obs := O.onNext d s.obs }
      | .error e => { s with obs := O.onError e s.obs }

/-- A value of the other observable. (zip.hpp 49-67, combine_latest.hpp 47-63, with_latest_from.hpp 65-70) -/
def nextOther (kd : Kind) (O : Obs δ ε σ) (f : α → β → Except ε δ) (s : St α β σ) (b : β) : St α β σ :=
  match kd with
  | .zip => match s.qa, s.qb ++ [b] with
    | x :: qa, y :: qb => match f x y with
      | .ok d => { s with obs := O.onNext d s.obs, qa := qa, qb := qb }
      | .error e => { s with obs := O.onError e s.obs, qb := y :: qb }
    | _, qb => { s with qb := qb }
  | .latest => match s.qa with
    | [] => { s with qb := [b] }
    | x :: _ => match f x b with
      | .ok d => { s with obs := O.onNext d s.obs, qb := [b] }
      | .error e => { s with obs := O.onError e s.obs, qb := [b] }
  | .withLatest => { s with qb := [b] }

/-- An end of one of the two: errors are passed on; `on_completed` is passed on by the one that comes last, for with_latest_from by the main one. (combining_strategy.hpp 64-73, with_latest_from.hpp 72-77, 115-123) -/
def ends (kd : Kind) (O : Obs δ ε σ) (main : Bool) (s : St α β σ) : Option (Term ε) → St α β σ
  | none => s
  | some (.error e) => { s with obs := O.onError e s.obs }
  | some .completed =>
    if kd = .withLatest then (if main then { s with obs := O.onCompleted s.obs } else s)
    else { s with obs := if s.open' = 1 then O.onCompleted s.obs else s.obs, open' := s.open' - 1 }

/-- One step; every value is handed over only if the observer is not disposed (from.hpp 109), and ends are dropped if it is (observers/observer.hpp 99-120).
Simplifications: `subscribe` does not throw; the operators' disposables are disposed exactly if the observer is (C03). (sources/from.hpp 101-121, details/combining_strategy.hpp 102-120, with_latest_from.hpp 145-167) -/
def step (kd : Kind) (O : Obs δ ε σ) (f : α → β → Except ε δ) (x : Src α ε) (y : Src β ε) (s : St α β σ) : St α β σ :=
  match s.pc with
  | .done => s
  | .other i => match y.at' i with
    | none => if O.isDisposed s.obs then { s with pc := .main 0 } else { ends kd O false s y.fin with pc := .main 0 }
    | some b => if O.isDisposed s.obs then { s with pc := .main 0 } else { nextOther kd O f s b with pc := .other (i + 1) }
  | .main i => match x.at' i with
    | none => if O.isDisposed s.obs then { s with pc := .done } else { ends kd O true s x.fin with pc := .done }
    | some a => if O.isDisposed s.obs then { s with pc := .done } else { nextMain kd O f s a with pc := .main (i + 1), got := s.got + 1 }

/-- `k` steps from the start; the observer has been given the operator's disposable first. (details/combining_strategy.hpp 107-109, with_latest_from.hpp 29-34) -/
def exec (kd : Kind) (O : Obs δ ε σ) (f : α → β → Except ε δ) (x : Src α ε) (y : Src β ε) (s : σ) (k : Nat) : St α β σ :=
  (List.range k).foldl (fun s _ => step kd O f x y s) { obs := O.call (.up 0) s }

/-! ## Specification -/

/-- The observable hands over these values and then ends with its `fin`.  Specification; models no code. -/
def Src.Is (x : Src α ε) (l : List α) : Prop := (∀ i (h : i < l.length), x.at' i = some l[i]) ∧ x.at' l.length = none

/-- What the operator makes of all values of the other observable and then some of the main one: pairs, position by position, or every main value with the other's last one; up to an exception of the selector.
Specification; models no code. -/
def combined (kd : Kind) (f : α → β → Except ε δ) (l : List β) (as : List α) : List δ × Option ε :=
  match kd with
  | .zip => Spec.mapUntil (fun ab : α × β => f ab.1 ab.2) (as.zip l)
  | _ => match l.getLast? with
    | none => ([], none)
    | some b => Spec.mapUntil (fun a => f a b) as

/-- The sequence that goes down the chain.  Specification; models no code. -/
def shown (kd : Kind) (f : α → β → Except ε δ) (l : List β) (as : List α) (fin : Option (Term ε)) : Trace δ ε :=
  ⟨(combined kd f l as).1, Spec.endWith (combined kd f l as).2 fin⟩

/-- How the operator ends if the other observable ended with `fo` (not with an error) and then the main one with `fm`: with_latest_from as the main one, the others complete only if both did.  Specification; models no code. -/
def closing (kd : Kind) (fo fm : Option (Term ε)) : Option (Term ε) :=
  match fm with
  | some .completed => if kd = .withLatest then some .completed else fo
  | _ => fm

/-- A subscriber of the chain `p` that was shown this needs nothing more.  Specification; models no code. -/
def Enough (react : List (Call γ ε) → Reaction ε) (p : Pipe ε δ γ) (t : Trace δ ε) : Prop := Endless.enough react [] (p.spec t).vals (p.spec t).fin = true

/-! ## Proofs -/

theorem mapUntil_snoc (g : α → Except ε β) : ∀ (l : List α) (a : α), (Spec.mapUntil g l).2 = none →
    Spec.mapUntil g (l ++ [a]) = match g a with | .ok b => ((Spec.mapUntil g l).1 ++ [b], none) | .error e => ((Spec.mapUntil g l).1, some e) := by
  intro l
  induction l with
  | nil => intro a _; cases h : g a <;> simp [Spec.mapUntil, h]
  | cons c l ih =>
    intro a h
    cases hc : g c with
    | error e => simp [Spec.mapUntil, hc] at h
    | ok b =>
      simp only [Spec.mapUntil, hc] at h
      simp only [List.cons_append, Spec.mapUntil, hc, ih a h]
      cases g a <;> simp

theorem zip_snoc_lt (as : List α) (l : List β) (a : α) (b : β) (h : l[as.length]? = some b) : (as ++ [a]).zip l = as.zip l ++ [(a, b)] := by
  induction as generalizing l with
  | nil => cases l with
    | nil => cases h
    | cons c l => simp at h; simp [h]
  | cons c as ih => cases l with
    | nil => simp at h
    | cons d l =>
      simp only [List.length_cons, List.getElem?_cons_succ] at h
      simp [List.zip_cons_cons, ih l h]

theorem zip_snoc_ge (as : List α) (l : List β) (a : α) (h : l.length ≤ as.length) : (as ++ [a]).zip l = as.zip l := by
  induction as generalizing l with
  | nil => cases l with
    | nil => rfl
    | cons c l => simp at h
  | cons c as ih => cases l with
    | nil => simp
    | cons d l => simp at h; simp [ih l h]

theorem iter_const {τ : Type} (g : τ → τ) : ∀ (k : Nat) (s : τ), (List.range k).foldl (fun s _ => g s) s = Nat.repeat g k s := by
  intro k
  induction k with
  | zero => intro s; rfl
  | succ k ih => intro s; rw [List.range_succ, List.foldl_append, ih]; rfl

theorem repeat_add {τ : Type} (g : τ → τ) (j k : Nat) (s : τ) : Nat.repeat g (j + k) s = Nat.repeat g k (Nat.repeat g j s) := by
  induction k with
  | zero => rfl
  | succ k ih => show g (Nat.repeat g (j + k) s) = g _; rw [ih]

theorem repeat_two {τ : Type} (g : τ → τ) (s : τ) : Nat.repeat g 2 s = g (g s) := rfl

theorem repeat_one {τ : Type} (g : τ → τ) (s : τ) : Nat.repeat g 1 s = g s := rfl

section
variable {kd : Kind} {O : Obs δ ε σ} {f : α → β → Except ε δ} {x : Src α ε} {y : Src β ε}

/-- The calls for a sequence. -/
def calls (t : Trace δ ε) : List (Call δ ε) := t.vals.map .next ++ finCalls t.fin

theorem done_stays (k : Nat) {t : St α β σ} (h : t.pc = .done) : Nat.repeat (step kd O f x y) k t = t := by
  induction k with
  | zero => rfl
  | succ k ih =>
    show step kd O f x y (Nat.repeat _ k t) = t
    rw [ih]
    simp only [step, h]

/-- The cells after `as` main values and all of `l`. -/
def cells (kd : Kind) (l : List β) (as : List α) : List α × List β :=
  match kd with
  | .zip => (as.drop l.length, l.drop as.length)
  | .latest => (as.getLast?.toList, l.getLast?.toList)
  | .withLatest => ([], l.getLast?.toList)

/-- The state in the main loop. -/
def inMain (kd : Kind) (O : Obs δ ε σ) (f : α → β → Except ε δ) (o : σ) (l : List β) (as : List α) (op : Nat) : St α β σ :=
  { obs := O.run o (calls (shown kd f l as none)), pc := .main as.length, qa := (cells kd l as).1, qb := (cells kd l as).2, open' := op, got := as.length }

/-- If the observer is not disposed, the selector has not thrown. -/
theorem not_thrown (hl : Lawful O) {o : σ} {l : List β} {as : List α} (hd : O.isDisposed (O.run o (calls (shown kd f l as none))) = false) : (combined kd f l as).2 = none := by
  cases h : (combined kd f l as).2 with
  | none => rfl
  | some e =>
    exfalso
    simp only [calls, shown, h, Spec.endWith, finCalls] at hd
    rw [Obs.run_append] at hd
    have := hl.term (O.run o ((combined kd f l as).1.map .next)) (.error e) rfl
    have hd' : O.isDisposed (O.call (.error e) (O.run o ((combined kd f l as).1.map .next))) = false := hd
    rw [this] at hd'
    cases hd'

theorem run_snoc_ok {o : σ} {l : List δ} (d : δ) : O.run o (calls ⟨l ++ [d], none⟩) = O.onNext d (O.run o (calls ⟨l, none⟩)) := by
  simp only [calls, finCalls, List.append_nil, List.map_append, Obs.run_append]
  rfl

theorem run_error {o : σ} {l : List δ} (e : ε) : O.run o (calls ⟨l, some (.error e)⟩) = O.onError e (O.run o (calls ⟨l, none⟩)) := by
  simp only [calls, finCalls, List.append_nil, Obs.run_append]
  rfl

theorem run_completed {o : σ} {l : List δ} : O.run o (calls ⟨l, some .completed⟩) = O.onCompleted (O.run o (calls (⟨l, none⟩ : Trace δ ε))) := by
  simp only [calls, finCalls, List.append_nil, Obs.run_append]
  rfl

/-- One main value. -/
theorem main_step (hl : Lawful O) {o : σ} {l : List β} {as : List α} {op : Nat} {a : α} (hd : O.isDisposed (O.run o (calls (shown kd f l as none))) = false) (hx : x.at' as.length = some a) :
    let s := step kd O f x y (inMain kd O f o l as op)
    s.obs = O.run o (calls (shown kd f l (as ++ [a]) none)) ∧ s.pc = .main (as.length + 1) ∧ s.got = as.length + 1 ∧
      (O.isDisposed (O.run o (calls (shown kd f l (as ++ [a]) none))) = false → s = inMain kd O f o l (as ++ [a]) op) := by
  have hn := not_thrown hl hd
  have hsh : shown kd f l as none = ⟨(combined kd f l as).1, none⟩ := by simp [shown, hn, Spec.endWith]
  intro s
  have hs : s = { nextMain kd O f (inMain kd O f o l as op) a with pc := .main (as.length + 1), got := as.length + 1 } := by
    show step kd O f x y _ = _
    simp only [inMain] at hd ⊢
    simp only [step, hx, hd, Bool.false_eq_true, if_false]
  -- what is shown now
  have key : ∀ (g : Option (Except ε δ)), (match g with
        | none => combined kd f l (as ++ [a]) = combined kd f l as
        | some (.ok d) => combined kd f l (as ++ [a]) = ((combined kd f l as).1 ++ [d], none)
        | some (.error e) => combined kd f l (as ++ [a]) = ((combined kd f l as).1, some e)) →
      O.run o (calls (shown kd f l (as ++ [a]) none)) = match g with
        | none => O.run o (calls (shown kd f l as none))
        | some (.ok d) => O.onNext d (O.run o (calls (shown kd f l as none)))
        | some (.error e) => O.onError e (O.run o (calls (shown kd f l as none))) := by
    intro g hg
    rcases g with _ | ⟨e⟩ | ⟨d⟩
    · simp only [shown, hg]
    · dsimp only at hg ⊢; rw [hsh]; simp only [shown, hg, Spec.endWith]; exact run_error e
    · dsimp only at hg ⊢; rw [hsh]; simp only [shown, hg, Spec.endWith]; exact run_snoc_ok d
  rw [hs]
  cases kd with
  | zip =>
    cases hb : l[as.length]? with
    | none =>
      have hle : l.length ≤ as.length := by simpa using hb
      have hdr : l.drop as.length = [] := by simpa using hle
      have e := key none (by simp only [combined, zip_snoc_ge as l a hle])
      have e2 : nextMain .zip O f (inMain .zip O f o l as op) a = { inMain .zip O f o l as op with qa := as.drop l.length ++ [a] } := by
        simp only [nextMain, inMain, cells, hdr]
        cases as.drop l.length <;> rfl
      rw [e2, e]
      refine ⟨rfl, rfl, rfl, fun _ => ?_⟩
      simp only [inMain, cells, e, List.length_append, List.length_cons, List.length_nil, List.drop_append, hdr]
      have h1 : l.drop (as.length + (0 + 1)) = [] := by simp; omega
      have h2 : l.length - as.length = 0 := by omega
      rw [h1, h2]
      rfl
    | some b =>
      have hlt : as.length < l.length := by
        rcases Nat.lt_or_ge as.length l.length with h | h
        · exact h
        · rw [List.getElem?_eq_none h] at hb; cases hb
      have hdr : l.drop as.length = b :: l.drop (as.length + 1) := by
        rw [List.drop_eq_getElem_cons hlt]
        rw [List.getElem?_eq_getElem hlt] at hb
        cases hb; rfl
      have hda : as.drop l.length = [] := by simp; omega
      have e := key (some (f a b)) (by
        simp only [combined, zip_snoc_lt as l a b hb]
        have := mapUntil_snoc (fun ab : α × β => f ab.1 ab.2) (as.zip l) (a, b) hn
        dsimp only at this
        cases h : f a b <;> rw [h] at this <;> exact this)
      cases hf : f a b with
      | ok d =>
        have e2 : nextMain .zip O f (inMain .zip O f o l as op) a = { inMain .zip O f o l as op with obs := O.onNext d (inMain .zip O f o l as op).obs, qa := [], qb := l.drop (as.length + 1) } := by
          simp only [nextMain, inMain, cells, hdr, hda, List.nil_append, hf]
        rw [hf] at e
        rw [e2, e]
        refine ⟨rfl, rfl, rfl, fun _ => ?_⟩
        simp only [inMain, cells, e, List.length_append, List.length_cons, List.length_nil, Nat.zero_add]
        have : (as ++ [a]).drop l.length = [] := by simp; omega
        rw [this]
      | error er =>
        have e2 : nextMain .zip O f (inMain .zip O f o l as op) a = { inMain .zip O f o l as op with obs := O.onError er (inMain .zip O f o l as op).obs, qa := [a] } := by
          simp only [nextMain, inMain, cells, hdr, hda, List.nil_append, hf]
        rw [hf] at e
        rw [e2, e]
        refine ⟨rfl, rfl, rfl, fun h => ?_⟩
        have := hl.term (O.run o (calls (shown .zip f l as none))) (.error er) rfl
        exact absurd (this.symm.trans h) (by decide)
  | latest =>
    cases hb : l.getLast? with
    | none =>
      have e := key none (by simp only [combined, hb])
      have e2 : nextMain .latest O f (inMain .latest O f o l as op) a = { inMain .latest O f o l as op with qa := [a] } := by
        simp only [nextMain, inMain, cells, hb, Option.toList]
      rw [e2, e]
      refine ⟨rfl, rfl, rfl, fun _ => ?_⟩
      simp [inMain, cells, e, hb]
    | some b =>
      have e := key (some (f a b)) (by
        have hn' := hn
        simp only [combined, hb] at hn' ⊢
        have := mapUntil_snoc (fun a => f a b) as a hn'
        cases h : f a b <;> simp only [h] at this <;> exact this)
      cases hf : f a b with
      | ok d =>
        have e2 : nextMain .latest O f (inMain .latest O f o l as op) a = { inMain .latest O f o l as op with obs := O.onNext d (inMain .latest O f o l as op).obs, qa := [a] } := by
          simp only [nextMain, inMain, cells, hb, Option.toList, hf]
        rw [hf] at e
        rw [e2, e]
        refine ⟨rfl, rfl, rfl, fun _ => ?_⟩
        simp [inMain, cells, e, hb]
      | error er =>
        have e2 : nextMain .latest O f (inMain .latest O f o l as op) a = { inMain .latest O f o l as op with obs := O.onError er (inMain .latest O f o l as op).obs, qa := [a] } := by
          simp only [nextMain, inMain, cells, hb, Option.toList, hf]
        rw [hf] at e
        rw [e2, e]
        refine ⟨rfl, rfl, rfl, fun h => ?_⟩
        have := hl.term (O.run o (calls (shown .latest f l as none))) (.error er) rfl
        exact absurd (this.symm.trans h) (by decide)
  | withLatest =>
    cases hb : l.getLast? with
    | none =>
      have e := key none (by simp only [combined, hb])
      have e2 : nextMain .withLatest O f (inMain .withLatest O f o l as op) a = inMain .withLatest O f o l as op := by
        simp only [nextMain, inMain, cells, hb, Option.toList]
      rw [e2, e]
      refine ⟨rfl, rfl, rfl, fun _ => ?_⟩
      simp [inMain, cells, e, hb]
    | some b =>
      have e := key (some (f a b)) (by
        have hn' := hn
        simp only [combined, hb] at hn' ⊢
        have := mapUntil_snoc (fun a => f a b) as a hn'
        cases h : f a b <;> simp only [h] at this <;> exact this)
      cases hf : f a b with
      | ok d =>
        have e2 : nextMain .withLatest O f (inMain .withLatest O f o l as op) a = { inMain .withLatest O f o l as op with obs := O.onNext d (inMain .withLatest O f o l as op).obs } := by
          simp only [nextMain, inMain, cells, hb, Option.toList, hf]
        rw [hf] at e
        rw [e2, e]
        refine ⟨rfl, rfl, rfl, fun _ => ?_⟩
        simp [inMain, cells, e, hb]
      | error er =>
        have e2 : nextMain .withLatest O f (inMain .withLatest O f o l as op) a = { inMain .withLatest O f o l as op with obs := O.onError er (inMain .withLatest O f o l as op).obs } := by
          simp only [nextMain, inMain, cells, hb, Option.toList, hf]
        rw [hf] at e
        rw [e2, e]
        refine ⟨rfl, rfl, rfl, fun h => ?_⟩
        have := hl.term (O.run o (calls (shown .withLatest f l as none))) (.error er) rfl
        exact absurd (this.symm.trans h) (by decide)

theorem combined_nil (l : List β) : combined kd f l ([] : List α) = ([], none) := by
  cases kd <;> simp only [combined, List.zip_nil_left, Spec.mapUntil]
  all_goals cases l.getLast? <;> rfl

theorem shown_nil (l : List β) : calls (shown kd f l ([] : List α) none) = [] := by
  simp only [shown, combined_nil, Spec.endWith, calls, finCalls]
  rfl

/-- An observer that is disposed stays so. -/
theorem gone_stays (hl : Lawful O) {o : σ} {l : List β} {as : List α} {a : α} (hd : O.isDisposed (O.run o (calls (shown kd f l (as ++ [a]) none))) = false) :
    O.isDisposed (O.run o (calls (shown kd f l as none))) = false := by
  cases h : O.isDisposed (O.run o (calls (shown kd f l as none))) with
  | false => rfl
  | true =>
    exfalso
    have hn := not_thrown hl hd
    have hpre : ∀ {τ : Type} (g : τ → Except ε δ) (r q : List τ), (Spec.mapUntil g (r ++ q)).2 = none → (Spec.mapUntil g r).2 = none ∧ ∃ w, (Spec.mapUntil g (r ++ q)).1 = (Spec.mapUntil g r).1 ++ w := by
      intro τ g r q
      induction r with
      | nil => intro _; exact ⟨rfl, _, rfl⟩
      | cons c r ih =>
        cases hc : g c with
        | error e => intro h; simp [Spec.mapUntil, hc] at h
        | ok d =>
          intro h
          simp only [List.cons_append, Spec.mapUntil, hc] at h ⊢
          obtain ⟨h1, w, h2⟩ := ih h
          exact ⟨h1, w, by rw [h2]⟩
    have hw : (combined kd f l as).2 = none ∧ ∃ w, (combined kd f l (as ++ [a])).1 = (combined kd f l as).1 ++ w := by
      cases kd with
      | zip =>
        simp only [combined] at hn ⊢
        rcases Nat.lt_or_ge as.length l.length with hlt | hge
        · rw [zip_snoc_lt as l a _ (List.getElem?_eq_getElem hlt)] at hn ⊢
          exact hpre _ _ _ hn
        · rw [zip_snoc_ge as l a hge] at hn ⊢
          exact ⟨hn, [], by simp⟩
      | latest =>
        simp only [combined] at hn ⊢
        cases hb : l.getLast? with
        | none => exact ⟨rfl, [], rfl⟩
        | some b => rw [hb] at hn; exact hpre _ _ _ hn
      | withLatest =>
        simp only [combined] at hn ⊢
        cases hb : l.getLast? with
        | none => exact ⟨rfl, [], rfl⟩
        | some b => rw [hb] at hn; exact hpre _ _ _ hn
    obtain ⟨h1, w, h2⟩ := hw
    simp only [calls, shown, hn, h1, h2, Spec.endWith, finCalls, List.append_nil, List.map_append, Obs.run_append] at hd h
    rw [SyncResub.nexts_gone hl h] at hd
    rw [h] at hd
    cases hd

theorem gone_first (hl : Lawful O) {o : σ} {l : List β} (as : List α) (hd : O.isDisposed (O.run o (calls (shown kd f l as none))) = false) : O.isDisposed o = false := by
  have key : ∀ n, ∀ as : List α, as.length = n → O.isDisposed (O.run o (calls (shown kd f l as none))) = false → O.isDisposed o = false := by
    intro n
    induction n with
    | zero => intro as h hd; rw [List.eq_nil_of_length_eq_zero h, shown_nil] at hd; exact hd
    | succ n ih =>
      intro as h hd
      rcases List.eq_nil_or_concat as with rfl | ⟨bs, a, rfl⟩
      · cases h
      · rw [List.concat_eq_append] at hd
        exact ih bs (by simpa using h) (gone_stays hl hd)
  exact key _ as rfl hd

/-- The values of the other observable. -/
theorem other_values {l : List β} {o : σ} (hd : O.isDisposed o = false) (j : Nat) (hj : j ≤ l.length) (hy : ∀ i (h : i < l.length), y.at' i = some l[i]) :
    Nat.repeat (step kd O f x y) j { obs := o } = { obs := o, pc := .other j, qb := (cells kd (l.take j) ([] : List α)).2 } := by
  induction j with
  | zero => cases kd <;> rfl
  | succ j ih =>
    show step kd O f x y (Nat.repeat _ j _) = _
    rw [ih (by omega)]
    simp only [step, hy j (by omega), hd, Bool.false_eq_true, if_false]
    have ht : l.take (j + 1) = l.take j ++ [l[j]] := by simp [List.take_succ]
    rw [ht]
    cases kd with
    | zip => simp only [nextOther, cells, List.length_nil, List.drop_zero]
    | latest =>
      simp only [nextOther, cells, List.getLast?_append, List.getLast?_singleton, Option.some_or]
      rfl
    | withLatest =>
      simp only [nextOther, cells, List.getLast?_append, List.getLast?_singleton, Option.some_or]
      rfl

/-- How many completions are still needed once the other observable is over. -/
def needed (kd : Kind) (fo : Option (Term ε)) : Nat :=
  match fo with
  | some .completed => if kd = .withLatest then 2 else 1
  | _ => 2

theorem other_all {l : List β} {o : σ} (hd : O.isDisposed o = false) (hy : y.Is l) (hfo : ∀ e, y.fin ≠ some (.error e)) :
    Nat.repeat (step kd O f x y) (l.length + 1) { obs := o } = inMain kd O f o l [] (needed kd y.fin) := by
  show step kd O f x y (Nat.repeat _ l.length _) = _
  rw [other_values hd l.length (Nat.le_refl _) hy.1]
  simp only [step, hy.2, hd, Bool.false_eq_true, if_false, List.take_length, inMain, shown_nil, Obs.run_nil]
  have hc : (cells kd l ([] : List α)).1 = [] := by cases kd <;> simp [cells]
  rw [hc]
  cases hf : y.fin with
  | none => rfl
  | some t => cases t with
    | error e => exact absurd hf (hfo e)
    | completed => cases kd <;> rfl

/-- The first values of the main observable. -/
theorem main_values (hl : Lawful O) {l : List β} {o : σ} {op : Nat} (n : Nat) : ∀ as : List α, as.length = n → O.isDisposed (O.run o (calls (shown kd f l as none))) = false →
    (∀ i (h : i < as.length), x.at' i = some as[i]) → Nat.repeat (step kd O f x y) n (inMain kd O f o l [] op) = inMain kd O f o l as op := by
  induction n with
  | zero => intro as h _ _; rw [List.eq_nil_of_length_eq_zero h]; rfl
  | succ n ih =>
    intro as h hd hx
    obtain ⟨bs, a, rfl⟩ : ∃ bs a, as = bs ++ [a] := by
      rcases List.eq_nil_or_concat as with rfl | ⟨bs, a, rfl⟩
      · cases h
      · exact ⟨bs, a, by simp⟩
    have hb : bs.length = n := by simpa using h
    have hd' := gone_stays hl hd
    show step kd O f x y (Nat.repeat _ n _) = _
    rw [ih bs hb hd' (fun i hi => by
      have := hx i (by simp; omega)
      rw [this, List.getElem_append_left hi])]
    exact (main_step hl hd' (by have := hx bs.length (by simp); rw [this]; simp)).2.2.2 hd

/-- The observer is disposed in one of the loops. -/
theorem stops {t : St α β σ} {i : Nat} (h : t.pc = .main i) (hd : O.isDisposed t.obs = true) : step kd O f x y t = { t with pc := .done } := by
  cases hx : x.at' i <;> simp only [step, h, hx, hd, if_true]

theorem stops_other {t : St α β σ} {i : Nat} (h : t.pc = .other i) (hd : O.isDisposed t.obs = true) : step kd O f x y t = { t with pc := .main 0 } := by
  cases hy : y.at' i <;> simp only [step, h, hy, hd, if_true]

/-- The main observable is over. -/
theorem main_ends (hl : Lawful O) {l : List β} {as : List α} {o : σ} (hd : O.isDisposed (O.run o (calls (shown kd f l as none))) = false) (hfo : ∀ e, y.fin ≠ some (.error e)) (hx : x.at' as.length = none) :
    let s := step kd O f x y (inMain kd O f o l as (needed kd y.fin))
    s.pc = .done ∧ s.got = as.length ∧ s.obs = O.run o (calls (shown kd f l as (closing kd y.fin x.fin))) := by
  have hn := not_thrown hl hd
  have e0 : shown kd f l as none = ⟨(combined kd f l as).1, none⟩ := by simp [shown, hn, Spec.endWith]
  have e1 : shown kd f l as (closing kd y.fin x.fin) = ⟨(combined kd f l as).1, closing kd y.fin x.fin⟩ := by simp [shown, hn, Spec.endWith]
  intro s
  have hs : s = { ends kd O true (inMain kd O f o l as (needed kd y.fin)) x.fin with pc := .done } := by
    show step kd O f x y _ = _
    simp only [inMain] at hd ⊢
    simp only [step, hx, hd, Bool.false_eq_true, if_false]
  rw [hs, e1]
  cases hfx : x.fin with
  | none => exact ⟨rfl, rfl, by show O.run o (calls (shown kd f l as none)) = _; rw [e0]; rfl⟩
  | some t => cases t with
    | error e =>
      refine ⟨rfl, rfl, ?_⟩
      show O.onError e (O.run o (calls (shown kd f l as none))) = _
      rw [e0]; exact (run_error e).symm
    | completed =>
      cases hfy : y.fin with
      | none =>
        cases kd
        · exact ⟨rfl, rfl, by show O.run o (calls (shown _ f l as none)) = _; rw [e0]; rfl⟩
        · exact ⟨rfl, rfl, by show O.run o (calls (shown _ f l as none)) = _; rw [e0]; rfl⟩
        · exact ⟨rfl, rfl, by show O.onCompleted (O.run o (calls (shown _ f l as none))) = _; rw [e0]; exact run_completed.symm⟩
      | some t => cases t with
        | error e => exact absurd hfy (hfo e)
        | completed =>
          cases kd
          all_goals exact ⟨rfl, rfl, by show O.onCompleted (O.run o (calls (shown _ f l as none))) = _; rw [e0]; exact run_completed.symm⟩

theorem exec_eq (s : σ) (k : Nat) : exec kd O f x y s k = Nat.repeat (step kd O f x y) k { obs := O.call (.up 0) s } := iter_const _ _ _

theorem exec_done {s : σ} {k k' : Nat} (hk : k ≤ k') (h : (exec kd O f x y s k).pc = .done) : exec kd O f x y s k' = exec kd O f x y s k := by
  obtain ⟨d, rfl⟩ := Nat.exists_eq_add_of_le hk
  rw [exec_eq, repeat_add, ← exec_eq, done_stays d h]

end

end Rpp.SyncPair
