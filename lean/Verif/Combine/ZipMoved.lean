import Verif.Combine.Operators
import Verif.Core.Moved

/-!
# zip and moved-from values (C98): model

`Verif.Combine.Operators.zipHub` leaves out that the values are moved out of the queues into the selector's parameters.
-/

namespace Rpp.Comb

variable {α β ε σ : Type}

/-- `std::move(values.front())` (zip.hpp 64): the value stays in the queue, moved from. -/
def moveFront (q : List (Cell α)) : List (Cell α) :=
  match q with
  | [] => []
  | c :: q => c.take.2 :: q

/-- operators/zip.hpp 49-67 as `zipHub`, with the moves. The selector's parameters are values, so that they are made from the fronts
before it runs; the fronts are popped after the observer's `on_next` has returned (65); nothing else can look at them in between, because
the mutex is held (C95). If the selector throws, the moved-from fronts stay in the queues. -/
def zipMoving (n : Nat) (sel : List (Cell α) → Except ε β) : Hub (Cell α) β ε (ZipSt (Cell α)) where
  start := List.range n
  init := ⟨n, fun _ => []⟩
  dyn := false
  opn _ x := x
  act i c x :=
    match c with
    | .next v =>
      let p := update x.pend i (x.pend i ++ [v.take.1])
      if (List.range n).all (fun j => !(p j).isEmpty) then
        let args := (List.range n).filterMap fun j => ((p j).head?).map fun c => c.take.1
        let p := fun j => if j < n then moveFront (p j) else p j
        match sel args with
        | .ok b => (.out (.next b), { x with pend := fun j => (p j).tail })
        | .error e => (.throw e, { x with pend := p })
      else (.silent, { x with pend := p })
    | .term .completed => (if x.need = 1 then .out (.term .completed) else .silent, { x with need := x.need - 1 })
    | .term (.error e) => (.out (.term (.error e)), x)
  early _ c :=
    match c with
    | .next _ => false
    | .term _ => true

/-- What a variable holds, if anything. No counterpart in /repo. -/
def content : Cell α → Option α
  | .full a => some a
  | .husk => none

/-- A selector which throws `junk` if it is handed a husk, so that it shows. No counterpart in /repo. -/
def askAll (junk : ε) (sel : List α → Except ε β) (l : List (Cell α)) : Except ε β :=
  match l.mapM content with
  | some as => sel as
  | none => .error junk

/-- The notification with this value in a variable; no counterpart in /repo. -/
def Sig.full : Sig α ε → Sig (Cell α) ε
  | .next v => .next (.full v)
  | .term t => .term t

/-- The step with this value in a variable; no counterpart in /repo. -/
def Lbl.full : Lbl α ε → Lbl (Cell α) ε
  | .next i v => .next i (.full v)
  | .term i t => .term i t
  | .opn k => .opn k
  | .run i => .run i
  | .ret i r => .ret i r
  | .gone => .gone
  | .shut => .shut

end Rpp.Comb
