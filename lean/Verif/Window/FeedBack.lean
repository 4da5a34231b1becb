/-!
# C108: group_by and window fed by their own subscribers

A subscriber of `group_by` or `window`, or of one of the groups or windows, may push values into the source
from inside its callback. `on_next` of the operator is then entered again while an outer `on_next` waits for a
callback to return. Each such wait is a frame on a stack; a frame remembers what the outer `on_next` does next.
-/

namespace Rpp.WFeed

/-! ## group_by -/

namespace Group

/-- What is heard: the group numbered `g` for key `k` is announced, it is given a value, it ends, the announcements end.
(operators/group_by.hpp 94-137) -/
inductive Note (κ α : Type) where
  | opened (g : Nat) (k : κ)
  | val (g : Nat) (a : α)
  | ended (g : Nat)
  | over
deriving DecidableEq

/-- A callback that is running: it announces a group and the value that made it necessary waits
(operators/group_by.hpp 132-136), or it is told a value (98). -/
inductive Frame (κ α : Type) where
  | opening (g : Nat) (k : κ) (a : α)
  | value
deriving DecidableEq

/-- `map`: `key_to_observer` (operators/group_by.hpp 76). For the specification: `log`, the callbacks in the order
they started; `fed`, the values given to the operator; `calm`, see `step`. -/
structure St (κ α : Type) where
  map : List (κ × Nat) := []
  next : Nat := 0
  closed : Bool := false
  stack : List (Frame κ α) := []
  log : List (Note κ α) := []
  fed : List α := []
  calm : Bool := true
deriving DecidableEq

/-- What user code can do next, on the one thread there is: feed a value, complete the source (both also inside a
callback), return from the innermost callback. -/
inductive Lbl (α : Type) where
  | feed (a : α)
  | finish
  | ret
deriving DecidableEq

/-- `std::map::find` (operators/group_by.hpp 123). Simplification: keys are compared with `=` (the comparator is
treated in Verif.Window.GroupBy). -/
def find [DecidableEq κ] (k : κ) (m : List (κ × Nat)) : Option Nat := (m.find? fun p => p.1 = k).map (·.2)

/-- The key of a group that is being announced. -/
def Frame.key? : Frame κ α → Option κ
  | .opening _ k _ => some k
  | .value => none

/-- Is the group of key `k` being announced? -/
def opening [DecidableEq κ] (k : κ) (st : List (Frame κ α)) : Bool := st.any fun f => f.key? = some k

/-- One step (operators/group_by.hpp 94-137). The group is announced before it enters the map (132-136); `emplace` keeps
the entry that is already there (136). Nothing reaches the operator after the source's end, hence the callbacks of
`on_completed` (109-115) are one step. Simplifications: the selectors do not throw, nobody disposes, every announced
group is subscribed to at once (else the notes of a group are what its subject is given).
`calm` stays true as long as neither a value of key `k` is fed nor the source ends while the group of `k` is being
announced. -/
def step [DecidableEq κ] (key : α → κ) (s : St κ α) : Lbl α → St κ α
  | .feed a =>
    if s.closed then s
    else
      let s := { s with fed := s.fed ++ [a], calm := s.calm && !opening (key a) s.stack }
      match find (key a) s.map with
      | some g => { s with stack := .value :: s.stack, log := s.log ++ [.val g a] }
      | none => { s with next := s.next + 1, stack := .opening s.next (key a) a :: s.stack,
                         log := s.log ++ [.opened s.next (key a)] }
  | .finish =>
    if s.closed then s
    else { s with closed := true, calm := s.calm && s.stack.all (fun f => f.key?.isNone),
                  log := s.log ++ s.map.map (fun p => .ended p.2) ++ [.over] }
  | .ret => match s.stack with
    | [] => s
    | .value :: st => { s with stack := st }
    | .opening g k a :: st => match find k s.map with
      | some g' => { s with stack := .value :: st, log := s.log ++ [.val g' a] }
      | none => { s with map := s.map ++ [(k, g)], stack := .value :: st, log := s.log ++ [.val g a] }

/-- Any history. -/
def exec [DecidableEq κ] (key : α → κ) (ls : List (Lbl α)) : St κ α := ls.foldl (step key) {}

/-! ### Specification -/

/-- The keys announced, in order. -/
def opens (log : List (Note κ α)) : List κ := log.filterMap fun | .opened _ k => some k | _ => none

/-- The values given to group `g`, in order. -/
def gets (g : Nat) (log : List (Note κ α)) : List α :=
  log.filterMap fun | .val g' a => if g' = g then some a else none | _ => none

/-- How often group `g` was ended. -/
def ends (g : Nat) (log : List (Note κ α)) : Nat := log.countP fun | .ended g' => g' == g | _ => false

/-- Every key once, in the order of first appearance. -/
def firsts [DecidableEq κ] (ks : List κ) : List κ := ks.foldl (fun l k => if k ∈ l then l else l ++ [k]) []

end Group

/-! ## window -/

namespace Count

/-- What is heard: window `w` is announced, is given a value, ends; the announcements end; or the code reads an empty
`std::optional`. (operators/window.hpp 49-84) -/
inductive Note (α : Type) where
  | opened (w : Nat)
  | val (w : Nat) (a : α)
  | ended (w : Nat)
  | over
  | ub
deriving DecidableEq

/-- A callback that is running: it announces a window and the value waits (operators/window.hpp 57), it is told a value
(61), it is told the end of the window (66). -/
inductive Frame (α : Type) where
  | opening (a : α)
  | value
  | ending
deriving DecidableEq

/-- `cur`: `m_subject_data`, the number of the window it belongs to; `items`: `m_items_in_current_window`
(operators/window.hpp 108-110); `done`: the windows whose subject has ended (it passes nothing on any more:
subjects/details/subject_state.hpp 116, 183); `closed`: the source has ended. For the specification: `log`, `fed`, `calm` as for group_by. -/
structure St (α : Type) where
  cur : Option Nat := none
  items : Nat
  next : Nat := 0
  done : List Nat := []
  closed : Bool := false
  ub : Bool := false
  stack : List (Frame α) := []
  log : List (Note α) := []
  fed : List α := []
  calm : Bool := true
deriving DecidableEq

/-- What user code can do next: feed a value, complete the source (both also inside a callback), return from the innermost
callback. -/
inductive Lbl (α : Type) where
  | feed (a : α)
  | finish
  | ret
deriving DecidableEq

/-- The observer of the window's subject is told the end; an ended subject does nothing. Tells whether a callback runs.
(operators/window.hpp 66, 82; subjects/details/subject_state.hpp 143-151) -/
def St.fin (s : St α) (w : Nat) : St α × Bool :=
  if w ∈ s.done then (s, false) else ({ s with done := s.done ++ [w], log := s.log ++ [.ended w] }, true)

/-- operators/window.hpp 63-69: what follows the value. -/
def St.after (n : Nat) (s : St α) : St α :=
  let s := { s with items := s.items + 1 }
  if s.items = n then
    match s.cur with
    | some w => match s.fin w with
      | (s, true) => { s with stack := .ending :: s.stack }
      | (s, false) => { s with cur := none }
    | none => { s with ub := true, log := s.log ++ [.ub] }
  else s

/-- operators/window.hpp 61: `m_subject_data->observer.on_next(v)`. -/
def St.give (n : Nat) (s : St α) (a : α) : St α :=
  match s.cur with
  | some w => if w ∈ s.done then s.after n else { s with stack := .value :: s.stack, log := s.log ++ [.val w a] }
  | none => { s with ub := true, log := s.log ++ [.ub] }

/-- One step (operators/window.hpp 49-84), `n` is `m_window_size`. Nothing is said about what follows undefined behavior.
Nothing reaches the operator after the source's end, hence the callbacks of `on_completed` (79-84) are one step.
Not modelled: that `reset()` (68) destroys an observer whose `on_next` is still running, which is undefined behavior
too. `calm` stays true as long as nothing is fed while a window is being announced or ended, or while the callback for
the last value of a window is running, and the source does not end while a window is being announced. -/
def step (n : Nat) (s : St α) : Lbl α → St α
  | .feed a =>
    if s.ub || s.closed then s
    else
      let s := { s with fed := s.fed ++ [a],
                        calm := s.calm && s.stack.all (· matches .value) &&
                          (s.stack.isEmpty || decide (s.items + s.stack.length < n)) }
      if s.items = n then
        { s with cur := some s.next, next := s.next + 1, stack := .opening a :: s.stack,
                 log := s.log ++ [.opened s.next] }
      else s.give n a
  | .finish =>
    if s.ub || s.closed then s
    else
      let s := { s with closed := true, calm := s.calm && s.stack.all (fun f => !(f matches .opening _)) }
      let s := match s.cur with
        | some w => (s.fin w).1
        | none => s
      { s with log := s.log ++ [.over] }
  | .ret =>
    if s.ub then s
    else match s.stack with
    | [] => s
    | .opening a :: st => { s with items := 0, stack := st }.give n a
    | .value :: st => { s with stack := st }.after n
    | .ending :: st =>
      match s.cur with
      | some _ => { s with cur := none, stack := st }
      | none => { s with ub := true, stack := st, log := s.log ++ [.ub] }

/-- Any history of `window(count)`: the size is at least 1 (operators/window.hpp 43). -/
def exec (count : Nat) (ls : List (Lbl α)) : St α := ls.foldl (step (max 1 count)) { items := max 1 count }

/-! ### Specification -/

/-- The values given to windows, in order. -/
def vals (log : List (Note α)) : List (Nat × α) := log.filterMap fun | .val w a => some (w, a) | _ => none

/-- The windows announced, in order. -/
def opens (log : List (Note α)) : List Nat := log.filterMap fun | .opened w => some w | _ => none

/-- The windows ended, in order. -/
def ends (log : List (Note α)) : List Nat := log.filterMap fun | .ended w => some w | _ => none

/-- How often the announcements ended. -/
def overs (log : List (Note α)) : Nat := log.countP (· matches .over)

/-- The `i`-th value belongs to window `i / n`. -/
def spread (n : Nat) (as : List α) : List (Nat × α) := as.mapIdx fun i a => (i / n, a)

end Count

end Rpp.WFeed
