import Verif.Core.Lawful

/-!
# Moved-from values (C98): model

The operators move values (`std::move`, `std::forward` of an rvalue) instead of copying them; a variable that was moved from still
exists, but its content is gone.  `Verif.Core.Model` leaves that out.  Here every variable holds a `Cell`; moving takes the content and
leaves a husk.  Every `std::forward` is taken to be a move, which is the worst case.  A user function that is handed a husk
is taken to throw `junk`, so that it would show; a husk handed to the subscriber shows anyway.
-/

namespace Rpp

/-- The content of a variable; `husk`: it was moved from. No counterpart in /repo. -/
inductive Cell (α : Type) where
  | full (a : α)
  | husk
deriving DecidableEq, Repr, BEq

/-- `std::move`: what the receiver gets, and what remains in the variable. -/
def Cell.take (c : Cell α) : Cell α × Cell α := (c, .husk)

/-- A call of a user function with one argument, or a notification. -/
def Cell.ask (junk : ε) (f : α → Except ε γ) : Cell α → Except ε γ
  | .full a => f a
  | .husk => .error junk

/-- A call of a user function with two arguments. -/
def Cell.ask2 (junk : ε) (f : α → β → Except ε γ) : Cell α → Cell β → Except ε γ
  | .full a, .full b => f a b
  | _, _ => .error junk

/-- A call with this value instead of a variable. -/
def Call.full : Call α ε → Call (Cell α) ε
  | .next a => .next (.full a)
  | .error e => .error e
  | .completed => .completed
  | .up d => .up d

namespace Mv

variable (junk : ε)

/-- map.hpp 30-34: `observer.on_next(fn(std::forward<T>(v)))`. -/
def map (f : α → Except ε β) : OpStrategy (Cell α) (Cell β) ε Unit where
  init := ()
  onNext v s := match v.take.1.ask junk f with
    | .ok b => { st := s, out := [.next (.full b)] }
    | .error e => { st := s, throws := some e }

/-- filter.hpp 30-35: the predicate gets `v` as const, then `v` is forwarded. -/
def filter (p : α → Except ε Bool) : OpStrategy (Cell α) (Cell α) ε Unit where
  init := ()
  onNext v s := match v.ask junk p with
    | .ok true => { st := s, out := [.next v.take.1] }
    | .ok false => { st := s }
    | .error e => { st := s, throws := some e }

/-- take.hpp 30-41. -/
def take (n : Nat) : OpStrategy (Cell α) (Cell α) ε Nat where
  init := n
  onNext v count :=
    let (count', o1) := if count > 0 then (count - 1, [Call.next v.take.1]) else (count, [])
    let o2 := if count' = 0 then [Call.completed] else []
    { st := count', out := o1 ++ o2 }

/-- skip.hpp 30-37. -/
def skip (n : Nat) : OpStrategy (Cell α) (Cell α) ε Nat where
  init := n
  onNext v count :=
    if count = 0 then { st := count, out := [.next v.take.1] } else { st := count - 1 }

/-- take_while.hpp 28-35: the predicate gets `v` as const. -/
def takeWhile (p : α → Except ε Bool) : OpStrategy (Cell α) (Cell α) ε Unit where
  init := ()
  onNext v s := match v.ask junk p with
    | .ok true => { st := s, out := [.next v.take.1] }
    | .ok false => { st := s, out := [.completed] }
    | .error e => { st := s, throws := some e }

/-- The loop of take_last.hpp 57-61: `std::move(m_data[m_current_end])` leaves a husk in the vector. -/
def takeLastDrain : (data : List (Cell α)) → (cur k : Nat) → List (Cell α) × List (Call (Cell α) ε)
  | data, _, 0 => (data, [])
  | data, cur, k + 1 =>
    let r := takeLastDrain (match data[cur]? with | some c => data.set cur c.take.2 | none => data)
      (Ops.takeLastNext data.length cur) k
    (r.1, (match data[cur]? with | some c => [Call.next c.take.1] | none => []) ++ r.2)

/-- take_last.hpp 28-64; `reserve` as in `Ops.takeLast`. -/
def takeLast (n : Nat) : OpStrategy (Cell α) (Cell α) ε (Ops.TakeLastSt (Cell α)) where
  init := { data := [], cap := n, cur := 0 }
  onNext v s :=
    if s.cap = 0 then { st := s }
    else if s.data.length < s.cap then { st := { s with data := s.data ++ [v.take.1] } }
    else { st := { s with data := s.data.set s.cur v.take.1, cur := Ops.takeLastNext s.data.length s.cur } }
  onCompleted s :=
    let r := takeLastDrain s.data s.cur s.data.length
    { st := { s with data := r.1 }, out := r.2 ++ [.completed] }

/-- first.hpp 27-37. -/
def first (notEnough : ε) : OpStrategy (Cell α) (Cell α) ε Unit where
  init := ()
  onNext v s := { st := s, out := [.next v.take.1, .completed] }
  onCompleted s := { st := s, out := [.error notEnough] }

/-- last.hpp 30-45: the value is moved into the optional, and out of it at the end. -/
def last (notEnough : ε) : OpStrategy (Cell α) (Cell α) ε (Option (Cell α)) where
  init := none
  onNext v _ := { st := some v.take.1 }
  onCompleted s := match s with
    | some c => { st := some c.take.2, out := [.next c.take.1, .completed] }
    | none => { st := s, out := [.error notEnough] }

/-- element_at.hpp 31-58. -/
def elementAt (index : Nat) (outOfRange : ε) : OpStrategy (Cell α) (Cell α) ε Nat where
  init := Ops.addSize index 1
  onNext v count :=
    let count' := if count ≠ 0 then count - 1 else count
    if count' = 0 then { st := count', out := [.next v.take.1, .completed] } else { st := count' }
  onCompleted count :=
    if count ≠ 0 then { st := count, out := [.error outOfRange] }
    else { st := count, out := [.completed] }

/-- Equality of what two variables hold, as `std::unordered_set` uses it (distinct.hpp 31-39); husks are equal to nothing but husks. -/
def sameCell [BEq α] : Cell α → Cell α → Bool
  | .full a, .full b => a == b
  | .husk, .husk => true
  | _, _ => false

/-- distinct.hpp 31-39: `v` is moved into the set (if it is not there), and the element of the set is passed on by reference. -/
def distinct [BEq α] : OpStrategy (Cell α) (Cell α) ε (List (Cell α)) where
  init := []
  onNext v seen :=
    if seen.any (sameCell v) then { st := seen }
    else { st := v.take.1 :: seen, out := [.next ((v.take.1 :: seen).headD v.take.2)] }

/-- distinct_until_changed.hpp 31-39: the comparator gets both as const; `v` is moved to `last_value`, which is passed on by reference. -/
def distinctUntilChanged (eq : α → α → Except ε Bool) : OpStrategy (Cell α) (Cell α) ε (Option (Cell α)) where
  init := none
  onNext v last := match last with
    | none => { st := some v.take.1, out := [.next v.take.1] }
    | some l => match l.ask2 junk eq v with
      | .ok true => { st := last }
      | .ok false => { st := some v.take.1, out := [.next v.take.1] }
      | .error e => { st := last, throws := some e }

/-- scan.hpp 23-49: `seed = fn(std::move(seed), std::forward<T>(v))`; if `fn` throws, `seed` has been moved from. -/
def scan (seed : β) (f : β → α → Except ε β) : OpStrategy (Cell α) (Cell β) ε (Cell β) where
  init := .full seed
  initOut := [.next (.full seed)]
  onNext v s := match s.take.1.ask2 junk f v.take.1 with
    | .ok b => { st := .full b, out := [.next (.full b)] }
    | .error e => { st := s.take.2, throws := some e }

/-- scan.hpp 71-100. -/
def scanNoSeed (f : α → α → Except ε α) : OpStrategy (Cell α) (Cell α) ε (Option (Cell α)) where
  init := none
  onNext v s := match s with
    | none => { st := some v.take.1, out := [.next v.take.1] }
    | some b => match b.take.1.ask2 junk f v.take.1 with
      | .ok c => { st := some (.full c), out := [.next (.full c)] }
      | .error e => { st := some b.take.2, throws := some e }

/-- reduce.hpp 20-47: as scan; the seed is moved out at the end. -/
def reduce (seed : β) (f : β → α → Except ε β) : OpStrategy (Cell α) (Cell β) ε (Cell β) where
  init := .full seed
  onNext v s := match s.take.1.ask2 junk f v.take.1 with
    | .ok b => { st := .full b }
    | .error e => { st := s.take.2, throws := some e }
  onCompleted s := { st := s.take.2, out := [.next s.take.1, .completed] }

/-- reduce.hpp 69-100. -/
def reduceNoSeed (f : α → α → Except ε α) : OpStrategy (Cell α) (Cell α) ε (Option (Cell α)) where
  init := none
  onNext v s := match s with
    | none => { st := some v.take.1 }
    | some b => match b.take.1.ask2 junk f v.take.1 with
      | .ok c => { st := some (.full c) }
      | .error e => { st := some b.take.2, throws := some e }
  onCompleted s := match s with
    | some b => { st := some b.take.2, out := [.next b.take.1, .completed] }
    | none => { st := s, out := [.completed] }

/-- The elements of a vector as one value: a husk if one of them is. No counterpart in /repo. -/
def pack : List (Cell α) → Cell (List α)
  | [] => .full []
  | .husk :: _ => .husk
  | .full a :: l => match pack l with
    | .full as => .full (a :: as)
    | .husk => .husk

/-- The content of the bucket as a value to be shown. No counterpart in /repo. -/
def packed : Cell (List (Cell α)) → Cell (List α)
  | .full l => pack l
  | .husk => .husk

/-- buffer.hpp 32-59: the bucket is moved out when it is full, and cleared, which makes it usable again (47-48); it is moved out at the
end. `reserve` as in `Ops.buffer`. What the bucket holds after being moved from is not specified: a husk, to which values are added in vain. -/
def buffer (n : Nat) : OpStrategy (Cell α) (Cell (List α)) ε (Cell (List (Cell α))) where
  init := .full []
  onNext v bucket :=
    match bucket with
    | .full l =>
      let b : Cell (List (Cell α)) := .full (l ++ [v.take.1])
      if (l ++ [v.take.1]).length = max 1 n then { st := .full [], out := [.next (packed b.take.1)] } else { st := b }
    | .husk => { st := .husk }
  onCompleted bucket :=
    match bucket with
    | .full l =>
      if l.isEmpty then { st := bucket, out := [.completed] }
      else { st := bucket.take.2, out := [.next (packed bucket.take.1), .completed] }
    | .husk => { st := bucket, out := [.next .husk, .completed] }

/-- tap.hpp 34-51: the callback gets `v` as const, then `v` is forwarded. -/
def tap (cb : α → Option ε) : OpStrategy (Cell α) (Cell α) ε Unit where
  init := ()
  onNext v s := match v.ask junk (fun a => match cb a with | none => .ok () | some e => .error e) with
    | .ok () => { st := s, out := [.next v.take.1] }
    | .error e => { st := s, throws := some e }

/-- finally.hpp 34-39. -/
def finallyOp (d : Nat) : OpStrategy (Cell α) (Cell α) ε Unit where
  init := ()
  initOut := [.up d]
  onNext v s := { st := s, out := [.next v.take.1] }

/-- throttle.hpp 33-42; the clock reading comes with the value, as in `Ops.throttle`. -/
def throttle (duration : Int) : OpStrategy (Cell (Int × α)) (Cell α) ε (Option Int) where
  init := none
  onNext v last :=
    match v with
    | .husk => { st := last, out := [.next .husk] }
    | .full (now, a) =>
      let c : Cell α := .full a
      match last with
      | none => { st := some now, out := [.next c.take.1] }
      | some l => if now ≥ l + duration then { st := some now, out := [.next c.take.1] } else { st := last }

end Mv

/-- State type of each operator's strategy (the data members of the strategies). -/
def Op.MState : Op ε α β → Type
  | .map _ | .filter _ | .takeWhile _ | .first _ | .finallyOp _ | .tap _ => Unit
  | .take _ | .skip _ | .elementAt _ _ => Nat
  | @Op.takeLast _ α _ => Ops.TakeLastSt (Cell α)
  | @Op.last _ α _ | @Op.distinctUntilChanged _ α _ | @Op.scanNoSeed _ α _ | @Op.reduceNoSeed _ α _ => Option (Cell α)
  | @Op.distinct _ α _ => List (Cell α)
  | @Op.buffer _ α _ => Cell (List (Cell α))
  | @Op.scan _ _ β _ _ | @Op.reduce _ _ β _ _ => Cell β
  | .throttle _ => Option Int

/-- Strategy of each operator, with moves (the operators cited at their strategies). -/
def Op.moving (junk : ε) : (o : Op ε α β) → OpStrategy (Cell α) (Cell β) ε o.MState
  | .map f => Mv.map junk f
  | .filter p => Mv.filter junk p
  | .take n => Mv.take n
  | .skip n => Mv.skip n
  | .takeWhile p => Mv.takeWhile junk p
  | .takeLast n => Mv.takeLast n
  | .first e => Mv.first e
  | .last e => Mv.last e
  | .elementAt i e => Mv.elementAt i e
  | @Op.distinct _ _ inst => @Mv.distinct _ _ inst
  | .distinctUntilChanged eq => Mv.distinctUntilChanged junk eq
  | .scan s f => Mv.scan junk s f
  | .scanNoSeed f => Mv.scanNoSeed junk f
  | .reduce s f => Mv.reduce junk s f
  | .reduceNoSeed f => Mv.reduceNoSeed junk f
  | .buffer n => Mv.buffer n
  | .tap cb => Mv.tap junk cb
  | .finallyOp d => Mv.finallyOp d
  | .throttle d => Mv.throttle d

/-- State of a whole chain of observers, as `Pipe.State` (observables/details/chain_strategy.hpp 20-60). -/
def Pipe.MState (τ : Type) : Pipe ε α γ → Type
  | .nil => τ
  | .cons o p => o.MState × p.MState τ

/-- The observer handed to the source, as `Pipe.lift` (observables/details/chain_strategy.hpp 45-56). -/
def Pipe.mlift {τ : Type} (junk : ε) : (p : Pipe ε α γ) → Obs (Cell γ) ε τ → Obs (Cell α) ε (p.MState τ)
  | .nil, O => O
  | .cons o p, O => (o.moving junk).lift (p.mlift junk O)

/-- The chain's state after all operators were lifted, as `Pipe.start` (observables/details/chain_strategy.hpp 20-60). -/
def Pipe.mstart {τ : Type} (junk : ε) : (p : Pipe ε α γ) → Obs (Cell γ) ε τ → τ → p.MState τ
  | .nil, _, t => t
  | .cons o p, O, t => (o.moving junk).start (p.mlift junk O) (p.mstart junk O t)

/-- The final observer's state inside the chain's state; no counterpart in /repo. -/
def Pipe.mfinal {τ : Type} : (p : Pipe ε α γ) → p.MState τ → τ
  | .nil, s => s
  | .cons _ p, s => p.mfinal s.2

end Rpp
