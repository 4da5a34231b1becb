import Verif.Net.Flat

/-!
# Observables one after the other

`concat` as a source, `start_with`, `repeat`, `retry` and `on_error_resume_next`: when an observable ends, the operator either tells its
observer of the end or subscribes to another observable.  Which one may depend on the ends so far: `ks i` is the observable that is
subscribed to after the ends `i` (`ks []` is the first one), and `sw i t` tells whether its end `t` leads to another one.

Simplified: only one of the observables can notify at a time (the ones before have ended, the ones after are not subscribed to), and
its calls do not overlap, so that its notification and what it leads to are one step.  That the loop `drain` and the flag `is_inside_drain`
subscribe to exactly one observable after an end, on whatever threads, is the subject of `Verif.Resub`.  That an observable which has failed
is not heard any more is so for `concat` (sources/concat.hpp 58-82) and `retry` (operators/retry.hpp 50-86), which remember its end; on_error_resume_next does not,
so that it is modelled only for observables that make no call after an error (`Net.Silent` in `Verif.Net.FollowProps`, and C109).
-/

namespace Rpp.Net

open Comb (Sig)

variable {α ε : Type}

/-- The operator: the ends of the observables so far, what the present one has notified, what the observer was told, whether the
observer is disposed of (`concat_state_t`: sources/concat.hpp 24-47; `retry_state_t`: operators/retry.hpp 20-39;
operators/on_error_resume_next.hpp 49-61). -/
structure FollowSt (α ε : Type) where
  ends : List (Term ε) := []
  got : List (Sig α ε) := []
  told : List (Sig α ε) := []
  gone : Bool := false

/-- A notification of the present observable: a value goes to the observer; an end does too, or leads to the next observable
(sources/concat.hpp 60-114; operators/retry.hpp 52-111; operators/on_error_resume_next.hpp 63-84). -/
def hear (sw : List (Term ε) → Term ε → Bool) (s : FollowSt α ε) : Sig α ε → FollowSt α ε
  | .next v => { s with got := s.got ++ [.next v], told := s.told ++ [.next v] }
  | .term t =>
    if sw s.ends t then { s with ends := s.ends ++ [t], got := [] }
    else { s with got := s.got ++ [.term t], told := s.told ++ [.term t] }

/-- The next notification of the present observable, whose sequence so far is `o`; none reaches an observer that is disposed of
(sources/concat.hpp 74, 91; operators/retry.hpp 86, 92; operators/on_error_resume_next.hpp 45, 91). -/
def followNext (s : FollowSt α ε) (o : Trace α ε) : Option (Sig α ε) := if s.gone then none else (notes o)[s.got.length]?

/-- The present observable's next notification reaches the operator; see `hear`. -/
def pushFollow (sw : List (Term ε) → Term ε → Bool) (s : FollowSt α ε) (o : Trace α ε) : FollowSt α ε :=
  match followNext s o with
  | some x => hear sw s x
  | none => s

/-! ## Specification -/

/-- The observables up to the one after the ends `i` have made sequences that `can` allows, ended with `i`, and their values are `vs`,
in this order.  Specification; models no code. -/
inductive Before (can : List (Term ε) → Trace α ε → Prop) (sw : List (Term ε) → Term ε → Bool) : List (Term ε) → List α → Prop
  | first : Before can sw [] []
  | next {i vs t o} : Before can sw i vs → can i o → o.fin = some t → sw i t = true → Before can sw (i ++ [t]) (vs ++ o.vals)

end Rpp.Net
