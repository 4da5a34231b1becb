import Verif.Resub.Stack
import Verif.Scheduler.CurrentThreadProofs

/-!
# Specification for C92 and C93

An exception thrown while an observable is being subscribed (by `create`'s function, `defer`'s factory, a notifier or selector, a range of observables) reaches the subscriber of the operator which subscribed it: as the one `on_error`, or out of the subscriber's own `subscribe()` where that called the code directly. It never ends the process. For the concat operator that is false (`C92_concat_refutes`).

However many attempts are made, and whether they end at once or later, the stack does not grow with them.
-/

namespace Rpp.Stack

/-! ## Specification -/

/-- The subscriber has ended or was disposed. -/
def Over (l : List Ev) : Prop := (∃ y, Ev.told y ∈ l) ∨ Ev.disposed ∈ l

/-- Subscriptions made by the subscriber's own call of `subscribe()`. -/
def Direct : Kind → Role → Prop
  | .resume, .src => True
  | .merge, .outer | .switch, .outer | .concat, .outer => True
  | _, _ => False

/-- What may follow when the code of a subscription in role `r` throws `x`, `pre` having happened: the subscriber gets `x` as its error if it has not ended before, and only then; the caller of `subscribe()` gets it if the code was called by that. -/
def Reaches (kind : Kind) (r : Role) (x : Nat) (pre : List Ev) : Ev → Prop
  | .told y => y = some x ∧ ¬ Over pre ∧ ¬ Direct kind r
  | .dropped y => y = x ∧ Over pre ∧ ¬ Direct kind r
  | .out y => y = x ∧ Direct kind r
  | _ => False

/-- Every exception reaches the subscriber. -/
def AllReach (kind : Kind) (log : List Ev) : Prop :=
  ∀ pre k r x post, log = pre ++ .threw k r x :: post → ∃ e post', post = e :: post' ∧ Reaches kind r x pre e

/-- The process is not ended. -/
def Lives (log : List Ev) : Prop := ∀ x, Ev.died x ∉ log

/-- The end, as the subscriber is told. -/
@[simp] def Ev.ends : Ev → Option (Option Nat)
  | .told y => some y
  | _ => none

/-- While being subscribed, observables notify their own observers only. -/
def Own (kind : Kind) (ls : List Lbl) : Prop :=
  ∀ pre k r n post, ls = pre ++ .emit k r n :: post → ∀ k' r' fs, (exec kind pre).stack = .body k' r' :: fs → k' = k

/-- The drain loops. -/
def Frame.isLoop : Frame → Bool
  | .loop _ | .pump _ => true
  | _ => false

/-- The code of a source or inner observable being subscribed. -/
def Frame.isAttempt : Frame → Bool
  | .body _ .src | .body _ .inner => true
  | _ => false

end Rpp.Stack
