/-!
# Subscribing through a chain with subscribe_on

Models operators/subscribe_on.hpp (20-55), observables/details/chain_strategy.hpp (44-55, 87-91) and observable.hpp (57-61): a
subscription goes from the subscriber towards the source.  An operator that lifts moves the observer into a new one, `subscribe_on`
moves it into a task of a worker that goes on with the rest of the chain.  At the end the source's `subscribe` is called, which is user
code (create.hpp) or calls user code (defer.hpp 25-29), and may throw.

Any number of subscriptions, any interleaving of threads; disposal at any time.  The worker's scheduler is arbitrary (C55-C65, C77-C85 are
about schedulers): a task is taken at any time, once; it is skipped if its observer is disposed at that time.

Simplification: `is_disposed()` of an observer in the chain is that of the subscriber (operators between may be disposed earlier).
-/

namespace Rpp.SubOn

/-- An operator between the subscriber and the source. -/
inductive Link where
  /-- the observer is moved into another one: `lift`, `lift_with_disposable_strategy` (chain_strategy.hpp 49-52) -/
  | lift
  /-- `subscribe_on` with a worker -/
  | on (w : Nat)
deriving DecidableEq, Repr

/-- The workers of a chain, from the subscriber to the source. (operators/subscribe_on.hpp 20-60, observables/details/chain_strategy.hpp 44-60) -/
def workers (c : List Link) : List Nat := c.filterMap fun
  | .on w => some w
  | .lift => none

/-- `none` is the thread that called `subscribe`. (operators/subscribe_on.hpp 20-60, observables/details/chain_strategy.hpp 44-60) -/
def home (c : List Link) : Option Nat := (workers c).getLast?

/-- Events of the log; no counterpart in /repo. -/
inductive Ev where
  /-- `subscribe` was called, the observer is not disposed (observable.hpp 59) -/
  | sub (k : Nat) (c : List Link)
  /-- `subscribe` was called with a disposed observer -/
  | refused (k : Nat) (c : List Link)
  | dispose (k : Nat)
  /-- worker `w` starts the task of subscription `k`, its observer is not disposed -/
  | hop (k w : Nat)
  /-- the source's `subscribe` begins, on a worker or the subscriber's thread -/
  | src (k : Nat) (t : Option Nat)
  /-- it has thrown -/
  | threw (k : Nat)
  /-- the observer gets the exception by `on_error` -/
  | err (k : Nat)
  /-- an observer that was moved away gets it -/
  | lost (k : Nat)
  /-- the subscriber's call of `subscribe` throws it -/
  | out (k : Nat)
deriving DecidableEq, Repr

/-- How far a subscription has come; `d` is the part of the chain that is behind it, `r` is left. (operators/subscribe_on.hpp 20-60, observables/details/chain_strategy.hpp 44-60) -/
inductive Pos where
  | fresh
  /-- in the queue of a worker -/
  | waiting (d : List Link) (w : Nat) (r : List Link)
  | running (d r : List Link)
  | source
  | over
deriving DecidableEq, Repr

/-- State: the members of the objects of operators/subscribe_on.hpp 20-60, observables/details/chain_strategy.hpp 44-60, what the running calls are doing, and the log. -/
structure St where
  pos : Nat → Pos := fun _ => .fresh
  chain : Nat → List Link := fun _ => []
  disp : Nat → Bool := fun _ => false
  log : List Ev := []

/-- Replace one component of the state; no counterpart in /repo. -/
def set {β : Type} (f : Nat → β) (k : Nat) (b : β) : Nat → β := fun j => if j = k then b else f j

/-- Log an event; no counterpart in /repo. -/
def St.say (s : St) (e : Ev) : St := { s with log := s.log ++ [e] }

/-- What may happen next; the choice is arbitrary; no counterpart in /repo. -/
inductive Lbl where
  | sub (k : Nat) (c : List Link)
  | dispose (k : Nat)
  /-- the worker takes the task -/
  | take (k : Nat)
  /-- one more operator, or the source -/
  | go (k : Nat)
  /-- the source's `subscribe` returns or throws -/
  | ret (k : Nat) (throws : Bool)
deriving DecidableEq, Repr

/-- The operator the source was lifted by last: is the observer in the task intact when the source throws?  The task calls
`observable.subscribe(std::move(observer))` (subscribe_on.hpp 31); a lift has moved from it then. -/
def intact (c : List Link) : Bool :=
  match c.getLast? with
  | some .lift => false
  | _ => true

/-- One step; the single cases cite the lines of operators/subscribe_on.hpp 20-60, observables/details/chain_strategy.hpp 44-60 they model. -/
def step (s : St) : Lbl → St
  | .sub k c =>
    match s.pos k with
    | .fresh =>
      -- observable.hpp 59-60
      if s.disp k then { s with pos := set s.pos k .over }.say (.refused k c)
      else { s with pos := set s.pos k (.running [] c), chain := set s.chain k c }.say (.sub k c)
    | _ => s
  | .dispose k => { s with disp := set s.disp k true }.say (.dispose k)
  | .take k =>
    match s.pos k with
    | .waiting d w r =>
      -- a disposed schedulable is dropped (C64)
      if s.disp k then { s with pos := set s.pos k .over }
      else { s with pos := set s.pos k (.running (d ++ [Link.on w]) r) }.say (.hop k w)
    | _ => s
  | .go k =>
    match s.pos k with
    -- chain_strategy.hpp 49-52
    | .running d (.lift :: r) => { s with pos := set s.pos k (.running (d ++ [Link.lift]) r) }
    -- 54, subscribe_on.hpp 51-52
    | .running d (.on w :: r) => { s with pos := set s.pos k (.waiting d w r) }
    -- 87-91
    | .running d [] => { s with pos := set s.pos k .source }.say (.src k (home d))
    | _ => s
  | .ret k throws =>
    match s.pos k with
    | .source =>
      if throws then
        let s' := { s with pos := set s.pos k .over }.say (.threw k)
        match home (s.chain k) with
        | none => s'.say (.out k)
        -- schedulers/details/queue.hpp 136-139: `on_error` of the handler
        | some _ => if intact (s.chain k) then (if s.disp k then s' else s'.say (.err k)) else s'.say (.lost k)
      else { s with pos := set s.pos k .over }
    | _ => s

/-- The state after a sequence of steps; no counterpart in /repo. -/
def exec (ls : List Lbl) : St := ls.foldl step {}

/-! ## Specification -/

/-- The workers that subscription `k` has passed, in order. -/
def hops (k : Nat) (log : List Ev) : List Nat := log.filterMap fun
  | .hop j w => if j = k then some w else none
  | _ => none

/-- A moment at which it is checked that the observer of `k` is not disposed. -/
def isCheck (k : Nat) : Ev → Bool
  | .sub j _ => j == k
  | .hop j _ => j == k
  | _ => false

/-- The observer of `k` was not disposed at the last check. -/
def Checked (k : Nat) (pre : List Ev) : Prop :=
  ∃ a e b, pre = a ++ e :: b ∧ isCheck k e = true ∧ .dispose k ∉ a ∧ ∀ x ∈ b, isCheck k x = false

/-- Nothing is left to be done for `k`. -/
def Settled (s : St) (k : Nat) : Prop := s.pos k = .over

end Rpp.SubOn
