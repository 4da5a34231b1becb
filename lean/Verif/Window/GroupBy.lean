import Verif.Window.Window

/-!
# `group_by` (operators/group_by.hpp 62-158)
-/

namespace Rpp.Win
variable {κ β α ε : Type}

/-- The selectors and the comparator.  A selector may throw. (operators/group_by.hpp 62-158) -/
structure GFun (κ β α ε : Type) where
  key : β → Except ε κ
  value : β → Except ε α
  lt : κ → κ → Bool

/-- `key_to_observer` (77): the entries of the `std::map` in its order, with the number of the group's subject.
`names`: the keys the main observer was told with the groups (132-134), by number of the group. -/
structure GSt (κ : Type) where
  map : List (κ × Nat)
  names : List κ
  deriving Repr

/-- `std::map::find` (124): the first entry that is not less than the key, unless the key is less than it. (operators/group_by.hpp 62-158) -/
def mapFind (lt : κ → κ → Bool) (k : κ) : List (κ × Nat) → Option Nat
  | [] => none
  | p :: r => if lt p.1 k then mapFind lt k r else if lt k p.1 then none else some p.2

/-- `std::map::emplace` of a key that is not there (136): before the first entry that is not less. (operators/group_by.hpp 62-158) -/
def mapInsert (lt : κ → κ → Bool) (k : κ) (w : Nat) : List (κ × Nat) → List (κ × Nat)
  | [] => [(k, w)]
  | p :: r => if lt p.1 k then p :: mapInsert lt k w r else (k, w) :: p :: r

/-- `on_error` 101-107, `on_completed` 109-115: all groups in the order of the map, then the main observer. -/
def endAll (m : List (κ × Nat)) (x : Item α ε) : List (Instr α ε) :=
  m.map (fun p => .push p.2 x) ++ [.mainEnd x]

/-- `on_next` 97-98 for the value's group: `value_selector` is only called when the group is not disposed; if
it throws, the observer's `on_next` (observer.hpp 84-113) calls `on_error`. -/
def groupPush (F : GFun κ β α ε) (m : List (κ × Nat)) (w : Nat) (b : β) : List (Instr α ε) :=
  match F.value b with
  | .ok v => [.push w (.val v)]
  | .error e => .stopIfDown w :: endAll m (.err e)

/-- `on_next` 94-99 with `deduce_observer` 119-137.  `gone`: the main observer is disposed (127), then no new
group is made.  `key_selector` throws: as above. -/
def groupAccept (F : GFun κ β α ε) (q : GSt κ) (gone : Bool) : Item β ε → GSt κ × List (Instr α ε)
  | .val b =>
    match F.key b with
    | .error e => (q, endAll q.map (.err e))
    | .ok k =>
      match mapFind F.lt k q.map with
      | some w => (q, groupPush F q.map w b)
      | none =>
        if gone then (q, [])
        else
          (⟨mapInsert F.lt k q.names.length q.map, q.names ++ [k]⟩,
            [.create q.names.length, .openW q.names.length] ++ groupPush F (mapInsert F.lt k q.names.length q.map) q.names.length b)
  | .err e => (q, endAll q.map (.err e))
  | .done => (q, endAll q.map .done)

/-- The selector threw. -/
def Except.isErr {a b : Type} : Except a b → Bool
  | .error _ => true
  | .ok _ => false

/-- The last notification: a terminal one, or one that makes a selector throw. -/
def groupTerm (F : GFun κ β α ε) (q : GSt κ) (gone : Bool) : Item β ε → Bool
  | .val b =>
    match F.key b with
    | .error _ => true
    | .ok k => if (mapFind F.lt k q.map).isNone && gone then false else Except.isErr (F.value b)
  | _ => true

/-- `group_by(key_selector, value_selector, comparator)`.  Simplification: the call of `value_selector` and the
check before it are one instruction apart from nothing else, i.e. if the group is disposed between them the
throw goes unnoticed. (operators/group_by.hpp 62-158) -/
def groupOper (F : GFun κ β α ε) : Oper (GSt κ) (Item β ε) α ε where
  init := ⟨[], []⟩
  accept := groupAccept F
  isTerm := groupTerm F

/-! ## Specification -/

/-- Two keys the comparator does not tell apart. -/
def same (lt : κ → κ → Bool) (a b : κ) : Bool := !lt a b && !lt b a

/-- What `std::map` requires of a comparator: a strict weak order. -/
structure Swo (lt : κ → κ → Bool) : Prop where
  irrefl : ∀ a, lt a a = false
  trans : ∀ a b c, lt a b = true → lt b c = true → lt a c = true
  same_trans : ∀ a b c, same lt a b = true → same lt b c = true → same lt a c = true

/-- The distinct keys, in the order of their first appearance. -/
def distinct (lt : κ → κ → Bool) (ks : List κ) : List κ :=
  ks.foldl (fun acc k => if acc.any (fun a => same lt a k) then acc else acc ++ [k]) []

/-- The keys and values of the source's values, until the end.  The value is missing if `value_selector` throws. -/
def entries (F : GFun κ β α ε) : List (Item β ε) → List (κ × Option α)
  | .val b :: r =>
    match F.key b, F.value b with
    | .error _, _ => []
    | .ok k, .ok v => (k, some v) :: entries F r
    | .ok k, .error _ => [(k, none)]
  | _ => []

/-- The end: the first exception of a selector or the source's terminal notification. -/
def gend (F : GFun κ β α ε) : List (Item β ε) → Option (Item α ε)
  | .val b :: r =>
    match F.key b, F.value b with
    | .error e, _ => some (.err e)
    | .ok _, .ok _ => gend F r
    | .ok _, .error e => some (.err e)
  | .err e :: _ => some (.err e)
  | .done :: _ => some .done
  | [] => none

/-- What the group of key `k` gets: the values with that key in the order of the source, then the end. -/
def groupGets (F : GFun κ β α ε) (as : List (Item β ε)) (k : κ) : List (Item α ε) :=
  (entries F as).filterMap (fun p => if same F.lt k p.1 then p.2.map .val else none) ++ (gend F as).toList

/-- When the main observer has left, values with a new key are dropped; `kept` are the others.  (The flag says
that the main observer had left when the notification came.) -/
def keepStep (F : GFun κ β α ε) (p : List κ × List (Item β ε)) (a : Item β ε × Bool) : List κ × List (Item β ε) :=
  match a.1 with
  | .val b =>
    match F.key b with
    | .error _ => (p.1, p.2 ++ [a.1])
    | .ok k =>
      if p.1.any (fun n => same F.lt n k) then (p.1, p.2 ++ [a.1])
      else if a.2 then p
      else (p.1 ++ [k], p.2 ++ [a.1])
  | x => (p.1, p.2 ++ [x])

/-- The groups whose subscription has not ended (operators/group_by.hpp 62-158). -/
def kept (F : GFun κ β α ε) (as : List (Item β ε × Bool)) : List (Item β ε) := (as.foldl (keepStep F) ([], [])).2

/-- What happens with the values, group by group: a group is opened with the first value of its key. -/
def groupActs (lt : κ → κ → Bool) : List κ → List (κ × Option α) → List (Act α ε)
  | _, [] => []
  | names, (k, v) :: r =>
    match names.findIdx? (fun a => same lt a k) with
    | some w => (v.map (fun v => Act.fed w (.val v))).toList ++ groupActs lt names r
    | none => .opened names.length :: (v.map (fun v => Act.fed names.length (.val v))).toList ++ groupActs lt (names ++ [k]) r

end Rpp.Win
