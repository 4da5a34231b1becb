import Verif.Combine.Locks

/-!
# Callbacks of one observer do not overlap (C96): specification

In the networks of `Verif.Combine.Locks`, every observer is called by whoever it is subscribed to.  `Serial` says when an observer
is called by one thread at a time.
-/

namespace Rpp.Locks

open Rpp.Emit (Instr Port)

/-- An observer: the observers of object `i` (taken together), or subscriber `u`. -/
inductive Node where
  | obj (i : Nat)
  | sub (u : Nat)
deriving DecidableEq, Repr

/-- Functions by which no observer is notified: `is_disposed`, disposing a subscription, and the work on a queue
(operators/take_until.hpp 61, subjects/details/subject_state.hpp 54-64, schedulers/details/queue.hpp 251-270,
schedulers/new_thread.hpp 67-97). -/
def Entry.aside : Entry → Bool
  | .ask | .leave _ | .put | .pump _ => true
  | _ => false

/-- The observer a call notifies; no counterpart in /repo. -/
def Target.node : Target → Option Node
  | .fn i e => if e.aside then none else some (.obj i)
  | .user u => some (.sub u)

/-- The observer a running function belongs to; no counterpart in /repo. -/
def Frame.node : Frame → Option Node
  | .fn i e _ _ => if e.aside then none else some (.obj i)
  | .cb (some u) _ => some (.sub u)
  | .cb none _ => none

/-- A function of observer `x` runs in thread `t`. -/
def Runs (s : St) (x : Node) (t : Nat) : Prop := ∃ f ∈ s.stack t, f.node = some x

/-- The body makes all its calls with mutex `m` held. -/
def lockedBy (m : Nat) : List Instr → Bool → Bool
  | [], _ => true
  | .lock k :: c, h => lockedBy m c (h || k == m)
  | .unlock k :: c, h => lockedBy m c (h && k != m)
  | .down :: c, h => h && lockedBy m c h

/-- The function makes all its calls with mutex `m` of its object held. -/
def Entry.lockedBy (e : Entry) (m : Nat) : Bool := Locks.lockedBy m e.code false

/-- `x` is called by functions of object `i` only, those for which `P` holds. -/
structure ByObj (net : Net) (progs : List (List Target)) (x : Node) (i : Nat) (P : Entry → Prop) : Prop where
  fn : ∀ j e k y, net.next j e k = some y → y.node = some x → j = i ∧ P e
  user : ∀ u k, ∀ y ∈ net.user u k, y.node ≠ some x
  prog : ∀ p ∈ progs, ∀ y ∈ p, y.node ≠ some x

/-- `x` is called by the callbacks of subscriber `v` only. -/
structure BySub (net : Net) (progs : List (List Target)) (x : Node) (v : Nat) : Prop where
  fn : ∀ j e k y, net.next j e k = some y → y.node ≠ some x
  user : ∀ u k, ∀ y ∈ net.user u k, y.node = some x → u = v
  prog : ∀ p ∈ progs, ∀ y ∈ p, y.node ≠ some x

/-- `x` is called by the program of thread `t` only. -/
structure ByThread (net : Net) (progs : List (List Target)) (x : Node) (t : Nat) : Prop where
  fn : ∀ j e k y, net.next j e k = some y → y.node ≠ some x
  user : ∀ u k, ∀ y ∈ net.user u k, y.node ≠ some x
  prog : ∀ r p, progs[r]? = some p → ∀ y ∈ p, y.node = some x → r = t

/-- The rules by which one knows that an observer is called by one thread at a time: one thread calls it; or one operator, with
always the same mutex held; or one operator or subscriber which is itself called by one thread at a time. -/
inductive Serial (net : Net) (progs : List (List Target)) : Node → Prop where
  | thread {x} (t : Nat) : ByThread net progs x t → Serial net progs x
  | guarded {x} (i m : Nat) : ByObj net progs x i (fun e => e.lockedBy m = true) → Serial net progs x
  | after {x} (i : Nat) : ByObj net progs x i (fun e => e.aside = false) → Serial net progs (.obj i) → Serial net progs x
  | within {x} (v : Nat) : BySub net progs x v → Serial net progs (.sub v) → Serial net progs x

end Rpp.Locks
