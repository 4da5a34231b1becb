import Verif.Subject.Model

/-!
# What the observers of a subject should see

Stated on the history of operations only.
-/

namespace Rpp.Subj

variable {α ε : Type}

/-- How a history ended the subject, if it did: with a terminal event, or by being disposed (`some none`). -/
def ending : List (Int × Op α ε) → Option (Option (Term ε))
  | [] => none
  | (_, .error e) :: _ => some (some (.error e))
  | (_, .completed) :: _ => some (some .completed)
  | (_, .disposeSubject) :: _ => some none
  | _ :: h => ending h

/-- The values emitted (with their times) before the subject ended. -/
def emitted : List (Int × Op α ε) → List (Int × α)
  | [] => []
  | (t, .next v) :: h => (t, v) :: emitted h
  | (_, .error _) :: _ => []
  | (_, .completed) :: _ => []
  | (_, .disposeSubject) :: _ => []
  | _ :: h => emitted h

/-- What an observer subscribed to a running subject is to be told by the operations that follow: every value
until it is disposed or the subject ends, and the terminal event. -/
def heard (k : Nat) : List (Int × Op α ε) → Trace α ε
  | [] => ⟨[], none⟩
  | (_, .next v) :: h => ⟨v :: (heard k h).vals, (heard k h).fin⟩
  | (_, .error e) :: _ => ⟨[], some (.error e)⟩
  | (_, .completed) :: _ => ⟨[], some .completed⟩
  | (_, .disposeSubject) :: _ => ⟨[], none⟩
  | (_, .dispose j) :: h => if j = k then ⟨[], none⟩ else heard k h
  | (_, .subscribe _) :: h => heard k h

/-- The same for an observer that subscribes after the history `before`: if the subject has ended, only the
terminal event. -/
def told (k : Nat) (before after : List (Int × Op α ε)) : Trace α ε :=
  match ending before with
  | none => heard k after
  | some fin => ⟨[], fin⟩

/-- `k` has not subscribed during `h`. -/
def Fresh (k : Nat) (h : List (Int × Op α ε)) : Prop := ∀ t, (t, Op.subscribe k) ∉ h

/-- The clock never goes back. -/
def Clocked (h : List (Int × Op α ε)) : Prop := (h.map (·.1)).Pairwise (· ≤ ·)

/-- The last `n` elements. -/
def lastN (n : Nat) (l : List β) : List β := l.drop (l.length - n)

end Rpp.Subj
