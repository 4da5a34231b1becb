import Verif.Combine.ZipMovedProofs
import Verif.Core.MovedProofs
import Verif.Core.Props

/-!
# C98: nobody is handed a value which has been moved from
-/

namespace Rpp

section Pipes

variable [DecidableEq α] [DecidableEq γ] [DecidableEq ε]

/-- What the subscriber of `source | p` sees, with all the moves; the source hands over `cs`. -/
def movingSees (junk : ε) (cap : Option Nat) (ov : ε) (react : List (Call (Cell γ) ε) → Reaction ε) (p : Pipe ε α γ)
    (cs : List (Call α ε)) : List (Call (Cell γ) ε) :=
  evsOf (p.mfinal ((p.mlift junk (userObs cap ov react)).run (p.mstart junk (userObs cap ov react) {}) (cs.map Call.full))).log

omit [DecidableEq α] in
/-- C98: through any pipeline of single-source operators, the subscriber is shown exactly what the operators mean, in proper values: nothing
it gets, and (because of `junk`, which can be any exception) nothing a user function gets, has been moved from. -/
theorem C98_pipeline (junk : ε) (cap : Option Nat) (ov : ε) (react : List (Call (Cell γ) ε) → Reaction ε)
    (p : Pipe ε α γ) (hp : p.WF) (cs : List (Call α ε)) (hfit : Fits cap (p.finals.length + (upsOf cs).length)) :
    movingSees junk cap ov react p cs = deliver react [] ((p.spec (traceOf cs)).vals.map Cell.full) (p.spec (traceOf cs)).fin := by
  have hups : upsOf (cs.map Call.full) = upsOf cs := by
    induction cs with
    | nil => rfl
    | cons c cs ih =>
      have ih := ih (fun n hn => by have := hfit n hn; cases c <;> simp [upsOf] at this ⊢ <;> omega)
      cases c <;> simp [Call.full, upsOf, ih]
  have ha := (p.agree junk hp (Agree.map cs)).trace
  unfold movingSees
  rw [Pipe.mfinal_run junk userObs_lawful {} p, user_deliver (p.mtrans junk (cs.map Call.full)) {} rfl
    (by rw [Pipe.upsOf_mtrans, hups]; simpa using hfit), ha.1, ha.2, Pipe.trans_spec p hp cs]
  rfl

/-- C98: so no value shown to the subscriber has been moved from. -/
theorem C98_no_husk (junk : ε) (cap : Option Nat) (ov : ε) (react : List (Call (Cell γ) ε) → Reaction ε)
    (p : Pipe ε α γ) (hp : p.WF) (cs : List (Call α ε)) (hfit : Fits cap (p.finals.length + (upsOf cs).length)) :
    Call.next Cell.husk ∉ movingSees junk cap ov react p cs := by
  rw [C98_pipeline junk cap ov react p hp cs hfit]
  generalize (p.spec (traceOf cs)).vals = vs
  generalize (p.spec (traceOf cs)).fin = fin
  have : ∀ (vs : List γ) hist, Call.next Cell.husk ∉ hist → Call.next Cell.husk ∉ deliver react hist (vs.map Cell.full) fin := by
    intro vs
    induction vs with
    | nil =>
      intro hist h
      simp only [deliver, List.map_nil, List.mem_append, not_or]
      refine ⟨h, ?_⟩
      cases fin with
      | none => simp
      | some t => cases t <;> simp [Term.toCall]
    | cons v vs ih =>
      intro hist h
      have h' : Call.next Cell.husk ∉ hist ++ [Call.next (Cell.full v)] := by simp [h]
      simp only [deliver, List.map_cons]
      split
      · exact h'
      · split
        · simp [h]
        · exact ih _ h'
  exact this vs [] (by simp)

end Pipes

/-- A function which throws for zero. -/
def failsAtZero (a b : Nat) : Except Nat Nat := if b = 0 then .error 7 else .ok (a + b)

-- Non-vacuity: a scan whose function throws (its seed is lost), values after that, and take_last and buffer behind it.
example : movingSees 99 none 0 (fun _ => {}) (.cons (.scan 1 failsAtZero) .nil) [.next 2, .next 3, .next 0, .next 5] =
    [.next (.full 1), .next (.full 3), .next (.full 6), .error 7] := by decide
example : movingSees 99 none 0 (fun _ => {}) (.cons (.takeLast 3) (.cons (.buffer 2) .nil)) [.next 1, .next 2, .next 3, .next 4, .next 5, .completed] =
    [.next (.full [3, 4]), .next (.full [5]), .completed] := by decide
-- The husk would show: an observer told of it twice, or a function handed it.
example : (Cell.husk : Cell Nat).ask 99 (fun a => .ok a : Nat → Except Nat Nat) = .error 99 := rfl

namespace Comb

variable {α β ε : Type}

/-- C98, zip, in part: if the selector never throws, the selector is never handed a moved-from value (`junk` never appears) and the
subscriber gets what it would get without moves, in every interleaving of the sources. Missing: selectors which throw; see
`C98_zip_refutes`. -/
theorem C98_zip_partial (n : Nat) (junk : ε) (sel : List α → Except ε β) (hsel : ∀ l, ∃ b, sel l = .ok b) (ls : List (Lbl α ε)) :
    begs (exec (zipMoving n (askAll junk sel)) (ls.map Lbl.full)).log = begs (exec (zipHub n sel) ls).log := by
  rw [((zip_sim n junk sel hsel).exec ls).log]
  generalize (exec (zipHub n sel) ls).log = log
  simp only [begs, List.filterMap_map]
  congr 1
  funext e
  cases e <;> rfl

/-- A selector which shows what it was given, and throws if the first one is zero. -/
def showArgs (l : List (Cell Nat)) : Except Nat (List (Cell Nat)) :=
  if l.head? = some (.full 0) then .error 7 else .ok l

/-- Two sources on two threads. The first has a value 5 to come after 0; the selector throws for 0 and 1. Before the exception has become the
subscriber's `on_error`, the second source's next value arrives. -/
def zipRun : List (Lbl (Cell Nat) Nat) :=
  [.next 0 (.full 0), .run 0, .run 0, .next 1 (.full 1), .run 1, .run 1, .next 0 (.full 5), .run 0, .run 0]

/-- C98 does not hold for zip: when the selector throws, the values it was handed stay in the queues, moved from, and if another source
notifies before the exception has been turned into `on_error`, the selector is handed them again and the subscriber is shown the result. -/
theorem C98_zip_refutes : ∃ ls : List (Lbl (Cell Nat) Nat), (∀ i, Lbl.next i Cell.husk ∉ ls) ∧
    values (exec (zipMoving 2 showArgs) ls).log = [[.husk, .husk]] := by
  refine ⟨zipRun, fun i h => ?_, by decide⟩
  simp [zipRun] at h

-- Non-vacuity of `C98_zip_partial`: two sources, two pairs.
example : values (exec (zipMoving 2 (askAll 9 (fun l => .ok l : List Nat → Except Nat (List Nat))))
    ((([.next 0 1, .run 0, .run 0, .next 0 2, .run 0, .run 0, .next 1 3, .run 1, .run 1, .ret 1 .ok, .run 1, .next 1 4, .run 1, .run 1] :
      List (Lbl Nat Nat)).map Lbl.full))).log = [[1, 3], [2, 4]] := by decide

end Comb

end Rpp
