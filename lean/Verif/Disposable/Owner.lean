/-!
# Who keeps a disposable alive

Models disposables/disposable_wrapper.hpp (28-214), composite_disposable.hpp (29-150) and callback_disposable.hpp (25-50) as far as
references are concerned: wrappers held by the user (variables), wrappers stored in composites, and the `shared_ptr` a call of `dispose()`
holds while it runs.  A disposable whose last strong reference is gone is destroyed, which disposes it (`auto_dispose_wrapper`, 43-46).

Simplifications: `add`, `remove`, `clear` are one step each (their races are C49-C53).  The disposals caused by one step are separate
steps, in any order; a composite that is being disposed hands its wrappers over to these steps (the code keeps them until all
children are disposed).  A destruction is a separate step that can happen as soon as there is no strong reference.
-/

namespace Rpp.Owner

/-- `std::variant<monostate, shared_ptr, weak_ptr>` (disposable_wrapper.hpp 100). -/
inductive Ref where
  | empty
  | strong (d : Nat)
  | weak (d : Nat)
deriving DecidableEq, Repr

/-- Events of the log; no counterpart in /repo. -/
inductive Ev where
  /-- disposable `d` came into being -/
  | made (d : Nat)
  /-- a wrapper of `d` was stored in composite `p` -/
  | put (p d : Nat)
  /-- `dispose()` of a wrapper of `d` was called by the user -/
  | asked (d : Nat)
  /-- the wrappers of `d` in composite `p`, if any, were removed -/
  | removed (p d : Nat)
  /-- `clear()` of composite `p` was called -/
  | cleared (p : Nat)
  /-- `d` is disposed: its callback runs, if it has one -/
  | ran (d : Nat)
  /-- the last strong reference to `d` is gone, it is destroyed -/
  | gone (d : Nat)
deriving DecidableEq, Repr

/-- State: the members of the objects of disposables/disposable_wrapper.hpp 20-160, what the running calls are doing, and the log. -/
structure St where
  next : Nat := 0
  /-- constructed and not destroyed -/
  alive : Nat → Bool := fun _ => false
  disp : Nat → Bool := fun _ => false
  /-- is it a composite? -/
  comp : Nat → Bool := fun _ => false
  kids : Nat → List Ref := fun _ => []
  /-- the user's wrappers, in the order of their creation -/
  vars : List Ref := []
  /-- calls of `dispose()` under way -/
  todo : List Ref := []
  log : List Ev := []

/-- Log an event; no counterpart in /repo. -/
def St.say (s : St) (e : Ev) : St := { s with log := s.log ++ [e] }

/-- Replace one component of the state; no counterpart in /repo. -/
def set {β : Type} (f : Nat → β) (k : Nat) (b : β) : Nat → β := fun j => if j = k then b else f j

/-- `get().first` (disposable_wrapper.hpp 88-97): the object, if it still exists. -/
def St.lock (s : St) : Ref → Option Nat
  | .empty => none
  | .strong d => some d
  | .weak d => if s.alive d then some d else none

/-- `is_disposed()` (disposable_wrapper.hpp 61-66). -/
def St.isDisposed (s : St) (r : Ref) : Bool :=
  match s.lock r with
  | some d => s.disp d
  | none => true

/-- `as_weak()` (189-195). -/
def Ref.asWeak : Ref → Ref
  | .strong d => .weak d
  | r => r

/-- Conversion to a wrapper of another type (199-210): a weak wrapper of an object that is gone becomes empty. -/
def St.convert (s : St) (r : Ref) : Ref :=
  match s.lock r with
  | none => .empty
  | some _ => r

/-- `dispose_impl` of an existing object that is not disposed: composite_disposable.hpp 43-61, base_disposable.hpp 36-41. -/
def disposeObj (s : St) (d : Nat) : St :=
  if s.disp d then s
  else { s with disp := set s.disp d true, todo := s.todo ++ s.kids d, kids := set s.kids d [] }.say (.ran d)

/-- What may happen next; the choice is arbitrary; no counterpart in /repo. -/
inductive Lbl where
  /-- a new wrapper `disposable_wrapper::make<…>()`, a composite or not -/
  | make (comp : Bool)
  /-- a new wrapper, copied from `u` -/
  | copy (u : Nat)
  /-- a new wrapper `u.as_weak()` -/
  | weaken (u : Nat)
  /-- a new wrapper of another type, converted from `u` -/
  | conv (u : Nat)
  /-- `v = u` -/
  | assign (v u : Nat)
  /-- `v` goes out of scope, or is assigned an empty wrapper -/
  | drop (v : Nat)
  | dispose (v : Nat)
  /-- `v.add(u)` -/
  | add (v u : Nat)
  | remove (v u : Nat)
  | clear (v : Nat)
  /-- one of the pending `dispose()` calls is carried out -/
  | work (i : Nat)
  /-- `d` is destroyed -/
  | destroy (d : Nat)
deriving DecidableEq, Repr

/-- The wrapper in variable `v` (disposables/disposable_wrapper.hpp 120-160). -/
def St.var (s : St) (v : Nat) : Ref := s.vars[v]?.getD .empty

/-- Is there a strong reference to `d`? (reference counting of std::shared_ptr) -/
def held (s : St) (d : Nat) : Bool :=
  s.vars.contains (.strong d) || (List.range s.next).any (fun p => (s.kids p).contains (.strong d)) || s.todo.contains (.strong d)

/-- A call of `dispose()` through a wrapper begins: nothing if the object is gone (disposable_wrapper.hpp 68-72). -/
def askDispose (s : St) (r : Ref) : St :=
  match s.lock r with
  | some d => { s with todo := s.todo ++ [Ref.strong d] }.say (.asked d)
  | none => s

/-- One step; the single cases cite the lines of disposables/disposable_wrapper.hpp 20-160 they model. -/
def step (s : St) : Lbl → St
  | .make c =>
    { s with next := s.next + 1, alive := set s.alive s.next true, comp := set s.comp s.next c,
             vars := s.vars ++ [Ref.strong s.next] }.say (.made s.next)
  | .copy u => { s with vars := s.vars ++ [s.var u] }
  | .weaken u => { s with vars := s.vars ++ [(s.var u).asWeak] }
  | .conv u => { s with vars := s.vars ++ [s.convert (s.var u)] }
  | .assign v u => { s with vars := s.vars.set v (s.var u) }
  | .drop v => { s with vars := s.vars.set v .empty }
  | .dispose v => askDispose s (s.var v)
  | .add v u =>
    match s.lock (s.var v) with
    -- 164-167: the composite is gone (or `v` is empty): the other one is disposed
    | none => askDispose s (s.var u)
    | some p =>
      if s.comp p then
        -- composite_disposable.hpp 67-68
        if s.isDisposed (s.var u) || s.lock (s.var u) == some p then s
        -- 90-94
        else if s.disp p then askDispose s (s.var u)
        else
          -- 74-88
          match s.lock (s.var u) with
          | some d => { s with kids := set s.kids p (s.kids p ++ [s.var u]) }.say (.put p d)
          | none => s
      else s
  | .remove v u =>
    match s.lock (s.var v) with
    -- container.hpp 38-41 with operator== (disposable_wrapper.hpp 56-59)
    | some p => if s.disp p then s
                else
                  let s' := { s with kids := set s.kids p ((s.kids p).filter fun r => s.lock r != s.lock (s.var u)) }
                  match s.lock (s.var u) with
                  | some d => s'.say (.removed p d)
                  | none => s'
    | none => s
  | .clear v =>
    match s.lock (s.var v) with
    | some p => if s.disp p then s
                else { s with todo := s.todo ++ s.kids p, kids := set s.kids p [] }.say (.cleared p)
    | none => s
  | .work i =>
    match s.todo[i]? with
    | some r =>
      match s.lock r with
      | some d => disposeObj { s with todo := s.todo.eraseIdx i } d
      | none => { s with todo := s.todo.eraseIdx i }
    | none => s
  | .destroy d =>
    if s.alive d && !held s d then
      -- `auto_dispose_wrapper`, 43-46; `disposeObj` leaves no wrappers in it
      disposeObj ({ s with alive := set s.alive d false }.say (.gone d)) d
    else s

/-- The state after a sequence of steps; no counterpart in /repo. -/
def exec (ls : List Lbl) : St := ls.foldl step {}

/-! ## Specification -/

/-- `d` can be got at from a wrapper of the user through strong references. -/
inductive Reach (s : St) : Nat → Prop
  | var {d} : .strong d ∈ s.vars → Reach s d
  | kid {p d} : Reach s p → .strong d ∈ s.kids p → Reach s d

/-- Nothing is under way: no `dispose()` call, no destruction. -/
def Quiet (s : St) : Prop := s.todo = [] ∧ ∀ d, s.alive d = true → held s d = true

/-- No composite contains itself, directly or indirectly. -/
def Acyclic (s : St) : Prop := ∃ rank : Nat → Nat, ∀ p d, .strong d ∈ s.kids p → rank p < rank d

end Rpp.Owner
