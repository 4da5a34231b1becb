import Verif.Window.Hub

/-!
# `window` (operators/window.hpp 30-111)
-/

namespace Rpp.Win
variable {α ε : Type}

/-- `window_observer_strategy`'s fields (91-110): `m_items_in_current_window`, the number of the subject in
`m_subject_data` (an `std::optional`), the number of subjects made so far.  `ub`: the optional was
dereferenced while it was empty. -/
structure WSt where
  items : Nat
  cur : Option Nat
  next : Nat
  ub : Bool
  deriving DecidableEq, Repr

/-- `on_next` 49-60: a new subject when the previous one is full. -/
def winOpen (n : Nat) (q : WSt) : WSt × List (Instr α ε) :=
  if q.items = n then ({ q with items := 0, cur := some q.next, next := q.next + 1 }, [.create q.next, .openW q.next])
  else (q, [])

/-- `on_next` 61-70: the value, and the end of the subject when it is full. -/
def winFill (n : Nat) (q : WSt) (v : α) : WSt × List (Instr α ε) :=
  match q.cur with
  | none => ({ q with ub := true }, [])
  | some w =>
    if q.items + 1 = n then
      ({ q with items := q.items + 1, cur := none }, [.push w (.val v), .push w .done, .drop w])
    else ({ q with items := q.items + 1 }, [.push w (.val v)])

/-- `on_next` 49-70, `on_error` 72-77, `on_completed` 79-84. -/
def winAccept (n : Nat) (q : WSt) : Item α ε → WSt × List (Instr α ε)
  | .val v => ((winFill (ε := ε) n (winOpen (α := α) (ε := ε) n q).1 v).1, (winOpen n q).2 ++ (winFill n (winOpen (α := α) (ε := ε) n q).1 v).2)
  | x => (q, (match q.cur with | some w => [.push w x] | none => []) ++ [.mainEnd x])

/-- `window(count)`; the constructor 41-46: at least one value per window, and the first value finds a
"full" window. -/
def winOper (α ε : Type) (count : Nat) : Oper WSt (Item α ε) α ε where
  init := ⟨max 1 count, none, 0, false⟩
  accept := fun q _ x => winAccept (max 1 count) q x
  isTerm := fun _ _ x => x.term

/-! ## Specification -/

/-- The source's values. -/
def vals : List (Item α ε) → List α
  | [] => []
  | .val v :: r => v :: vals r
  | _ :: r => vals r

/-- The source's terminal notification. -/
def fin : List (Item α ε) → Option (Item α ε)
  | [] => none
  | .val _ :: r => fin r
  | x :: _ => some x

/-- What happens with the `i`-th notification (counted from 0) when windows have `n` values: the window
number `i / n` is opened for its first value, gets the value, and is completed with its last one; the end
of the source ends the window that is open. -/
def winActs (n i : Nat) : Item α ε → List (Act α ε)
  | .val v =>
    (if i % n = 0 then [.opened (i / n)] else []) ++ [.fed (i / n) (.val v)] ++
      (if (i + 1) % n = 0 then [.fed (i / n) .done] else [])
  | x => (if i % n = 0 then [] else [.fed (i / n) x]) ++ [.ended x]

/-- The same for a list of notifications, the first of which has number `i`. -/
def winSpec (n : Nat) : Nat → List (Item α ε) → List (Act α ε)
  | _, [] => []
  | i, x :: r => winActs n i x ++ winSpec n (i + 1) r

/-- Everything window `k` gets: `n` values from number `k * n` on, then the end: completion if it is full,
else the end of the source. -/
def windowGets (n : Nat) (as : List (Item α ε)) (k : Nat) : List (Item α ε) :=
  (((vals as).drop (k * n)).take n).map .val ++
    (if (k + 1) * n ≤ (vals as).length then [.done]
     else if k * n < (vals as).length then (fin as).toList else [])

/-- The windows the main observer was given. -/
def openeds {ι : Type} : List (Ev ι α ε) → List Nat
  | [] => []
  | .opened w :: r => w :: openeds r
  | _ :: r => openeds r

/-- The terminal events of the main observer. -/
def endeds {ι : Type} : List (Ev ι α ε) → List (Item α ε)
  | [] => []
  | .ended x :: r => x :: endeds r
  | _ :: r => endeds r

end Rpp.Win
