import Verif.Combine.Operators

/-!
# What the combining operators should do

Written in terms of the history only: what the sources notified (`recv`), in which order the operator took it (`act`), what the
downstream observer was told (`beg`).
-/

namespace Rpp.Comb

variable {α β ε : Type}

/-- The values among some notifications. -/
def sigVals (l : List (Sig α ε)) : List α := l.filterMap fun | .next v => some v | .term _ => none

/-- The notifications of source `i` among those with their source. -/
def ofSrc (i : Nat) (l : List (Nat × Sig β ε)) : List (Sig β ε) := l.filterMap fun p => if p.1 = i then some p.2 else none

/-- What the downstream observer was told by source `i`. -/
def toldBy (i : Nat) (log : List (Ev α β ε)) : List (Sig β ε) := ofSrc i (begs log)

/-- The `k`-th value of every one of `n` sources. -/
def row (n : Nat) (vs : Nat → List α) (k : Nat) : List α := (List.range n).filterMap fun j => (vs j)[k]?

/-- The values in the order in which the operator took them, with their sources. -/
def taken (log : List (Ev α β ε)) : List (Nat × α) := log.filterMap fun | .act i (.next v) => some (i, v) | _ => none

/-- The values of source `j` among them. -/
def ofTaken (j : Nat) (l : List (Nat × α)) : List α := l.filterMap fun p => if p.1 = j then some p.2 else none

/-- The last value of source `j`. -/
def latest (j : Nat) (l : List (Nat × α)) : Option α := ((l.filter fun p => p.1 == j).getLast?).map (·.2)

/-- The last values of the sources `js`, if each has one. -/
def latestAll (js : List Nat) (l : List (Nat × α)) : Option (List α) :=
  if js.all (fun j => (latest j l).isSome) then some (js.filterMap (latest · l)) else none

/-- `combine_latest`: one result for each value taken once every source has one. -/
def combineLatestSpec (n : Nat) (sel : List α → Except ε β) (l : List (Nat × α)) : List β :=
  (List.range l.length).filterMap fun k => (latestAll (List.range n) (l.take (k + 1))).bind fun t => (sel t).toOption

/-- `with_latest_from`: one result for each value of source 0 taken once every other source has one. -/
def withLatestSpec (n : Nat) (sel : α → List α → Except ε β) (l : List (Nat × α)) : List β :=
  (List.range l.length).filterMap fun k =>
    l[k]?.bind fun p => if p.1 = 0 then (latestAll ((List.range n).map (· + 1)) (l.take k)).bind fun t => (sel p.2 t).toOption else none

end Rpp.Comb
