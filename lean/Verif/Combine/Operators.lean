import Verif.Combine.Hub

/-!
# merge, zip, combine_latest, with_latest_from, take_until

Each as a `Hub`.  In the code the sources may have different value types; here they share the type `α`.
`sel` is the user's selector, which may throw.
-/

namespace Rpp.Comb

variable {α β ε : Type}

/-- operators/merge.hpp 36-39, 48 (`m_on_completed_needed`, starts at 1), 75-93 (terminals: the counter is decremented before the
mutex is taken), 105-109 (`on_next` of an inner source, mutex held), 121-126 (`on_next` of the outer source: increment and subscribe).
Source 0 is the outer one; its values are the `opn` labels. Not modelled: `remove` of the finished source's disposables (87-91). -/
def mergeHub : Hub α α ε Nat where
  start := [0]
  init := 1
  dyn := true
  opn _ n := n + 1
  act i c n :=
    match c with
    | .next v => if i = 0 then (.silent, n) else (.out (.next v), n)
    | .term .completed => (if n = 1 then .out (.term .completed) else .silent, n - 1)
    | .term (.error e) => (.out (.term (.error e)), n)
  early _ c :=
    match c with
    | .next _ => false
    | .term _ => true

/-- `m_pendings`: the queues of values not used yet (operators/zip.hpp 25-67). -/
structure ZipSt (α : Type) where
  need : Nat
  pend : Nat → List α

/-- Replace one entry of a tuple; no counterpart in /repo. -/
def update {γ : Type} (f : Nat → γ) (i : Nat) (x : γ) : Nat → γ := fun j => if j = i then x else f j

/-- operators/zip.hpp 49-67 (`on_next`: push, and if every queue has a value apply the selector to the fronts and pop them; if the
selector throws, nothing is popped), details/combining_strategy.hpp 36-40, 62-73 (terminals).
Not modelled: that the fronts are moved from when handed to the selector (zip.hpp 64). -/
def zipHub (n : Nat) (sel : List α → Except ε β) : Hub α β ε (ZipSt α) where
  start := List.range n
  init := ⟨n, fun _ => []⟩
  dyn := false
  opn _ x := x
  act i c x :=
    match c with
    | .next v =>
      let p := update x.pend i (x.pend i ++ [v])
      if (List.range n).all (fun j => !(p j).isEmpty) then
        match sel ((List.range n).filterMap fun j => (p j).head?) with
        | .ok b => (.out (.next b), { x with pend := fun j => (p j).tail })
        | .error e => (.throw e, { x with pend := p })
      else (.silent, { x with pend := p })
    | .term .completed => (if x.need = 1 then .out (.term .completed) else .silent, { x with need := x.need - 1 })
    | .term (.error e) => (.out (.term (.error e)), x)
  early _ c :=
    match c with
    | .next _ => false
    | .term _ => true

/-- `m_values`: the last value of each source (operators/details/combining_strategy.hpp 36-73, with_latest_from.hpp 28-52). -/
structure LatestSt (α : Type) where
  need : Nat
  vals : Nat → Option α

/-- operators/combine_latest.hpp 46-63 (`on_next`: store, and if every source has a value apply the selector, all under the
mutex), details/combining_strategy.hpp 36-40, 62-73 (terminals). -/
def combineLatestHub (n : Nat) (sel : List α → Except ε β) : Hub α β ε (LatestSt α) where
  start := List.range n
  init := ⟨n, fun _ => none⟩
  dyn := false
  opn _ x := x
  act i c x :=
    match c with
    | .next v =>
      let p := update x.vals i (some v)
      if (List.range n).all (fun j => (p j).isSome) then
        match sel ((List.range n).filterMap p) with
        | .ok b => (.out (.next b), { x with vals := p })
        | .error e => (.throw e, { x with vals := p })
      else (.silent, { x with vals := p })
    | .term .completed => (if x.need = 1 then .out (.term .completed) else .silent, { x with need := x.need - 1 })
    | .term (.error e) => (.out (.term (.error e)), x)
  early _ c :=
    match c with
    | .next _ => false
    | .term _ => true

/-- operators/with_latest_from.hpp 65-70 (`on_next` of another source: store), 72-77 (its terminals), 99-113 (`on_next` of the main
source 0: the selector is applied while the mutexes of the stored values are held, the observer's mutex is taken afterwards),
115-123.  Sources `1..n` are the others. -/
def withLatestHub (n : Nat) (sel : α → List α → Except ε β) : Hub α β ε (Nat → Option α) where
  start := List.range (n + 1)
  init := fun _ => none
  dyn := false
  opn _ x := x
  act i c x :=
    match c with
    | .next v =>
      if i = 0 then
        if (List.range n).all (fun j => (x (j + 1)).isSome) then
          match sel v ((List.range n).filterMap fun j => x (j + 1)) with
          | .ok b => (.out (.next b), x)
          | .error e => (.throw e, x)
        else (.silent, x)
      else (.silent, update x i (some v))
    | .term .completed => if i = 0 then (.out (.term .completed), x) else (.silent, x)
    | .term (.error e) => (.out (.term (.error e)), x)
  early _ _ := true

/-- operators/take_until.hpp 53-62 (terminals of both), 73-78 (`on_next` of the notifier, source 1), 84-89 (`on_next` of source 0);
the state is `m_stopped`.  `is_disposed` (67) asks the downstream observer itself, under its mutex; here a notification
may also pass while the observer is being disposed, and does not wait for the mutex. -/
def takeUntilHub : Hub α α ε Bool where
  start := [0, 1]
  init := false
  dyn := false
  opn _ x := x
  act i c stopped :=
    match c with
    | .next v =>
      if i = 0 then (if stopped then .silent else .out (.next v), stopped)
      else (if stopped then .silent else .out (.term .completed), true)
    | .term t => (if stopped then .silent else .out (.term t), true)
  early _ _ := true

end Rpp.Comb
