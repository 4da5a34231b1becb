import Verif.Core.Model

/-!
# Observers and single-source operators: the specification

Nothing here mentions the operator strategies of `Verif.Core.Model` (only its vocabulary `Call`,
`Reaction`, `Op`, `Pipe`).
-/

namespace Rpp

/-- How a sequence may end. -/
inductive Term (ε : Type) where
  | error (e : ε)
  | completed
deriving DecidableEq, Repr

/-- A sequence as a subscriber understands it: values, then possibly an end. -/
structure Trace (α ε : Type) where
  vals : List α
  fin : Option (Term ε)
deriving DecidableEq, Repr

/-- The sequence a source denotes by making these calls: the values up to the first terminal call. -/
def traceOf : List (Call α ε) → Trace α ε
  | [] => ⟨[], none⟩
  | .next a :: cs => ⟨a :: (traceOf cs).vals, (traceOf cs).fin⟩
  | .error e :: _ => ⟨[], some (.error e)⟩
  | .completed :: _ => ⟨[], some .completed⟩
  | .up _ :: cs => traceOf cs

/-- The disposables handed over by these calls. -/
def upsOf : List (Call α ε) → List Nat
  | [] => []
  | .up d :: cs => d :: upsOf cs
  | _ :: cs => upsOf cs

/-- The terminal call for an end. -/
def Term.toCall : Term ε → Call α ε
  | .error e => .error e
  | .completed => .completed

/-- The observer grammar: `on_next* (on_error | on_completed)?`. -/
def Grammar (l : List (Call α ε)) : Prop :=
  ∃ (vs : List α) (fin : Option (Term ε)), l = vs.map Call.next ++ fin.toList.map Term.toCall

/-- What a subscriber whose callbacks behave like `react` sees of a sequence, having already seen
`hist`: it is shown everything in order, but nothing after its callback disposed the subscription,
and only the exception after its callback threw. -/
def deliver (react : List (Call α ε) → Reaction ε) (hist : List (Call α ε)) :
    List α → Option (Term ε) → List (Call α ε)
  | [], fin => hist ++ fin.toList.map Term.toCall
  | a :: as, fin =>
    let h := hist ++ [.next a]
    if (react h).dispose then h
    else match (react h).throws with
      | some e => h ++ [.error e]
      | none => deliver react h as fin

namespace Spec

/-- The end of a sequence whose processing threw `err` (if it did). -/
def endWith (err : Option ε) (fin : Option (Term ε)) : Option (Term ε) :=
  match err with
  | some e => some (.error e)
  | none => fin

/-- Apply a function to the values until it throws. -/
def mapUntil (f : α → Except ε β) : List α → List β × Option ε
  | [] => ([], none)
  | a :: as => match f a with
    | .ok b => (b :: (mapUntil f as).1, (mapUntil f as).2)
    | .error e => ([], some e)

/-- `map`: apply the function; the first exception ends the sequence. -/
def map (f : α → Except ε β) (t : Trace α ε) : Trace β ε :=
  ⟨(mapUntil f t.vals).1, endWith (mapUntil f t.vals).2 t.fin⟩

/-- Filter the values until the predicate throws. -/
def filterUntil (p : α → Except ε Bool) : List α → List α × Option ε
  | [] => ([], none)
  | a :: as => match p a with
    | .ok true => (a :: (filterUntil p as).1, (filterUntil p as).2)
    | .ok false => filterUntil p as
    | .error e => ([], some e)

/-- `filter`: keep the values satisfying the predicate; the first exception ends the sequence. -/
def filter (p : α → Except ε Bool) (t : Trace α ε) : Trace α ε :=
  ⟨(filterUntil p t.vals).1, endWith (filterUntil p t.vals).2 t.fin⟩

/-- The first `n` values; completed together with the `n`-th one (with the first one if `n = 0`). -/
def take (n : Nat) (t : Trace α ε) : Trace α ε :=
  ⟨t.vals.take n, if max 1 n ≤ t.vals.length then some .completed else t.fin⟩

/-- `skip`: all but the first `n` values. -/
def skip (n : Nat) (t : Trace α ε) : Trace α ε := ⟨t.vals.drop n, t.fin⟩

/-- Values while the predicate holds; completion at the first value where it does not. -/
def takeWhile (p : α → Except ε Bool) : List α → Option (Term ε) → Trace α ε
  | [], fin => ⟨[], fin⟩
  | a :: as, fin => match p a with
    | .ok true => ⟨a :: (takeWhile p as fin).vals, (takeWhile p as fin).fin⟩
    | .ok false => ⟨[], some .completed⟩
    | .error e => ⟨[], some (.error e)⟩

/-- The last `n` values, at completion. -/
def takeLast (n : Nat) (t : Trace α ε) : Trace α ε :=
  match t.fin with
  | some .completed => ⟨t.vals.drop (t.vals.length - n), some .completed⟩
  | fin => ⟨[], fin⟩

/-- `first`: the first value and completion; an error if there is none. -/
def first (notEnough : ε) (t : Trace α ε) : Trace α ε :=
  match t.vals, t.fin with
  | a :: _, _ => ⟨[a], some .completed⟩
  | [], some .completed => ⟨[], some (.error notEnough)⟩
  | [], fin => ⟨[], fin⟩

/-- `last`: the last value at completion; an error if there is none. -/
def last (notEnough : ε) (t : Trace α ε) : Trace α ε :=
  match t.fin with
  | some .completed => match t.vals.getLast? with
    | some a => ⟨[a], some .completed⟩
    | none => ⟨[], some (.error notEnough)⟩
  | fin => ⟨[], fin⟩

/-- `element_at`: the value with that index and completion; an error if there is none. -/
def elementAt (i : Nat) (outOfRange : ε) (t : Trace α ε) : Trace α ε :=
  match t.vals[i]? with
  | some a => ⟨[a], some .completed⟩
  | none => match t.fin with
    | some .completed => ⟨[], some (.error outOfRange)⟩
    | fin => ⟨[], fin⟩

/-- First occurrences only. -/
def nub [BEq α] : List α → List α
  | [] => []
  | a :: as => a :: (nub as).filter (fun b => !(b == a))

/-- `distinct`: first occurrences only. -/
def distinct [BEq α] (t : Trace α ε) : Trace α ε := ⟨nub t.vals, t.fin⟩

/-- Drop values equal to the last one kept (`prev`). -/
def collapse (eq : α → α → Except ε Bool) : (prev : Option α) → List α → List α × Option ε
  | _, [] => ([], none)
  | prev, a :: as =>
    match prev.elim (.ok false) (fun l => eq l a) with
    | .ok true => collapse eq prev as
    | .ok false => (a :: (collapse eq (some a) as).1, (collapse eq (some a) as).2)
    | .error e => ([], some e)

/-- `distinct_until_changed`: values different from the last one kept. -/
def distinctUntilChanged (eq : α → α → Except ε Bool) (t : Trace α ε) : Trace α ε :=
  ⟨(collapse eq none t.vals).1, endWith (collapse eq none t.vals).2 t.fin⟩

/-- Running accumulations (without the seed itself) until the function throws. -/
def scanUntil (f : β → α → Except ε β) : β → List α → List β × Option ε
  | _, [] => ([], none)
  | s, a :: as => match f s a with
    | .ok b => (b :: (scanUntil f b as).1, (scanUntil f b as).2)
    | .error e => ([], some e)

/-- `scan` with a seed: the seed, then the running accumulations. -/
def scan (seed : β) (f : β → α → Except ε β) (t : Trace α ε) : Trace β ε :=
  ⟨seed :: (scanUntil f seed t.vals).1, endWith (scanUntil f seed t.vals).2 t.fin⟩

/-- `scan` without a seed: the first value, then the running accumulations. -/
def scanNoSeed (f : α → α → Except ε α) (t : Trace α ε) : Trace α ε :=
  match t.vals with
  | [] => ⟨[], t.fin⟩
  | a :: as => scan a f ⟨as, t.fin⟩

/-- `reduce` with a seed: the last accumulation at completion. -/
def reduce (seed : β) (f : β → α → Except ε β) (t : Trace α ε) : Trace β ε :=
  match t.vals.foldlM f seed with
  | .error e => ⟨[], some (.error e)⟩
  | .ok b => match t.fin with
    | some .completed => ⟨[b], some .completed⟩
    | fin => ⟨[], fin⟩

/-- `reduce` without a seed: the last accumulation at completion, an error if there are no values. -/
def reduceNoSeed (f : α → α → Except ε α) (t : Trace α ε) : Trace α ε :=
  match t.vals with
  | [] => ⟨[], t.fin⟩
  | a :: as => reduce a f ⟨as, t.fin⟩

/-- The `i`-th chunk of `k` consecutive values. -/
def chunk (k : Nat) (l : List α) (i : Nat) : List α := (l.drop (i * k)).take k

/-- All complete chunks of `k` values. -/
def fullChunks (k : Nat) (l : List α) : List (List α) :=
  (List.range (l.length / k)).map (chunk k l)

/-- What is left after the complete chunks. -/
def remainder (k : Nat) (l : List α) : List α := l.drop (l.length / k * k)

/-- Complete chunks as they fill up; the non-empty remainder at completion only. -/
def buffer (n : Nat) (t : Trace α ε) : Trace (List α) ε :=
  let k := max 1 n
  match t.fin with
  | some .completed =>
    ⟨fullChunks k t.vals ++ (if (remainder k t.vals).isEmpty then [] else [remainder k t.vals]),
      some .completed⟩
  | fin => ⟨fullChunks k t.vals, fin⟩

/-- The side-effecting callback of tap may throw; otherwise the sequence is unchanged. -/
def tap (cb : α → Option ε) (t : Trace α ε) : Trace α ε :=
  map (fun a => match cb a with | none => .ok a | some e => .error e) t

/-- Keep the first value and then each value at least `d` after the last one kept. -/
def throttle (d : Int) : (last : Option Int) → List (Int × α) → List (Int × α)
  | _, [] => []
  | last, x :: xs =>
    if (match last with | none => true | some l => decide (l + d ≤ x.1)) then x :: throttle d (some x.1) xs
    else throttle d last xs

end Spec

/-- Meaning of each operator. -/
def Op.spec : (o : Op ε α β) → Trace α ε → Trace β ε
  | .map f => Spec.map f
  | .filter p => Spec.filter p
  | .take n => Spec.take n
  | .skip n => Spec.skip n
  | .takeWhile p => fun t => Spec.takeWhile p t.vals t.fin
  | .takeLast n => Spec.takeLast n
  | .first e => Spec.first e
  | .last e => Spec.last e
  | .elementAt i e => Spec.elementAt i e
  | @Op.distinct _ _ inst => @Spec.distinct _ _ inst
  | .distinctUntilChanged eq => Spec.distinctUntilChanged eq
  | .scan s f => Spec.scan s f
  | .scanNoSeed f => Spec.scanNoSeed f
  | .reduce s f => Spec.reduce s f
  | .reduceNoSeed f => Spec.reduceNoSeed f
  | .buffer n => Spec.buffer n
  | .tap cb => Spec.tap cb
  | .finallyOp _ => id
  | .throttle d => fun t => ⟨(Spec.throttle d none t.vals).map Prod.snd, t.fin⟩

/-- Side conditions on operator parameters: the index of `element_at` is a `size_t` other than the
maximal one, the equality used by `distinct` is a genuine equality. -/
def Op.WF : Op ε α β → Prop
  | .elementAt i _ => i + 1 < 2 ^ 64
  | @Op.distinct _ _ inst => @LawfulBEq _ inst
  | _ => True

/-- Meaning of a pipeline: composition of the operators' meanings. -/
def Pipe.spec : (p : Pipe ε α γ) → Trace α ε → Trace γ ε
  | .nil, t => t
  | .cons o p, t => p.spec (o.spec t)

/-- The side conditions of all operators of a pipeline. -/
def Pipe.WF : Pipe ε α γ → Prop
  | .nil => True
  | .cons o p => o.WF ∧ p.WF

/-- Disposables an operator itself hands to its observer: the callback of `finally`. -/
def Op.finals : Op ε α β → List Nat
  | .finallyOp d => [d]
  | _ => []

/-- Disposables a pipeline itself hands to the subscriber (the callbacks of its `finally` stages),
subscriber side first. -/
def Pipe.finals : Pipe ε α γ → List Nat
  | .nil => []
  | .cons o p => p.finals ++ o.finals

end Rpp
