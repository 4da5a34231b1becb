import Verif.Time.StagesLive

/-!
# C100: `delay` and `observe_on` change the time and the thread of what is seen, not what is seen

Statements compare two things: the chain `c` with its cuts, run by an arbitrary schedule `ls` (the source calls when it
likes, every cut's worker runs its tasks when it likes, time passes at every cut as it likes, the observers behind the
cuts become disposed when they like), and `c.flat`, the same operators without the cuts, as modelled in `Verif.Core`
(C04).  The subscriber's callbacks `react` may throw and dispose.
-/

namespace Rpp.Stages
open Rpp.Time (Delay.St Delay.Item)

section
variable {ε α γ : Type} [DecidableEq ε] [DecidableEq γ] (ov : ε) (react : List (Call γ ε) → Reaction ε)

/-- C100, at any time: what the subscriber has seen is a beginning of what it would have seen without the cuts. -/
theorem C100_prefix (c : Chain ε α γ) (hc : c.WF) (ls : List (Lbl α ε)) (he : c.NoError (c.run ov react ls)) :
    c.seen ov react (c.run ov react ls) <+: subscriberSees none ov react c.flat (c.given (c.run ov react ls)) := by
  rw [Chain.given, ← c.sees_flat ov react hc]
  exact c.good_prefix _ (c.good_run (u := true) ls (.inr rfl)) he

/-- C100, in the end: when nothing is left to do, it has seen everything it would have seen without the cuts (unless
somebody disposed of the subscription from outside). -/
theorem C100_all (c : Chain ε α γ) (hc : c.WF) (ls : List (Lbl α ε)) (hd : ∀ n, .act n .dispose ∉ ls)
    (he : c.NoError (c.run ov react ls)) (hq : c.Quiet (c.run ov react ls)) :
    c.seen ov react (c.run ov react ls) = subscriberSees none ov react c.flat (c.given (c.run ov react ls)) := by
  rw [Chain.given, ← c.sees_flat ov react hc]
  exact c.good_all _ (c.good_run (u := false) ls (.inl hd)) he hq

/-- C100, and that end can always be reached: whatever has happened so far, there are steps of the workers (and of the
clock) after which nothing is left to do; neither the source nor an outside disposal is needed. -/
theorem C100_can_finish (c : Chain ε α γ) (ls : List (Lbl α ε)) :
    ∃ more : List (Nat × Act), (∀ x ∈ more, x.2 ≠ .dispose) ∧
      c.Quiet (c.run ov react (ls ++ more.map (fun x => .act x.1 x.2))) := by
  obtain ⟨l, hl, -, hq⟩ := can_quiet c _ (c.good_run (ov := ov) (react := react) (u := true) ls (.inr rfl))
  refine ⟨l, hl, ?_⟩
  have : c.run ov react (ls ++ l.map (fun x => .act x.1 x.2)) =
      l.foldl (fun s x => c.act ov react s x.1 x.2) (c.run ov react ls) := by
    unfold Chain.run
    rw [List.foldl_append, List.foldl_map]
    rfl
  rw [this]
  exact hq

/-- C100, both, for chains whose cuts are all `delay`s: here errors wait in line like everything else. -/
theorem C100_delays (c : Chain ε α γ) (hc : c.WF) (hdl : c.delays) (ls : List (Lbl α ε)) :
    c.seen ov react (c.run ov react ls) <+: subscriberSees none ov react c.flat (c.given (c.run ov react ls)) ∧
    ((∀ n, .act n .dispose ∉ ls) → c.Quiet (c.run ov react ls) →
      c.seen ov react (c.run ov react ls) = subscriberSees none ov react c.flat (c.given (c.run ov react ls))) := by
  have he := noError_of_delays c hdl _ (c.good_run (ov := ov) (react := react) (u := true) ls (.inr rfl))
  exact ⟨C100_prefix ov react c hc ls he, fun hd hq => C100_all ov react c hc ls hd he hq⟩

end

/-! ## The hypotheses are met -/

/-- A call of the source, handed over through the first cut and delivered by the task of its worker. -/
def oneThrough (x : Delay.Item Nat Nat) (k : Nat) (t : Nat) : List (Lbl Nat Nat) :=
  [.src x, .act 0 .push, .act 0 .call, .act 0 .call, .act 0 (.tick k), .act 0 (.task t), .act 0 (.task t), .act 0 (.task t)]

/-- `source | map(+1) | delay(2) | take(2) | observe_on | scan(0, +) | subscribe` -/
def demo : Chain Nat Nat Nat :=
  .stage (.cons (.map fun a : Nat => .ok (a + 1)) .nil) false 2
    (.stage (.cons (.take 2) .nil) true 0 (.last (.cons (.scan 0 fun a b : Nat => .ok (a + b)) .nil)))

example : demo.WF := by
  simp [demo, Chain.WF, Timeless, timeless, Pipe.WF, Op.WF]

/-- Both values got through, `take` completed, and the chain in front of it closed while a third value is waiting. -/
def demoRun : List (Lbl Nat Nat) :=
  oneThrough (.val 10) 2 0 ++ [.act 1 .push, .act 1 .call, .act 1 .call, .act 0 (.task 0), .act 0 (.task 0)] ++
  oneThrough (.val 20) 2 1 ++ [.act 1 .push, .act 1 .call, .act 1 .push, .act 1 .call, .act 0 .close, .act 0 (.task 1),
    .act 0 (.task 1)] ++ [.src (.val 30), .act 0 .push] ++
  [.act 1 (.task 0), .act 1 (.task 0), .act 1 (.task 0), .act 1 (.task 0), .act 1 (.task 0), .act 1 (.task 0),
    .act 1 (.task 0), .act 1 (.task 0), .act 1 (.task 0), .act 1 (.task 0), .act 1 (.task 0)]

set_option maxRecDepth 100000 in
example : demo.seen 0 (fun _ => {}) (demo.run 0 (fun _ => {}) demoRun) = [.next 0, .next 11, .next 32, .completed] ∧
    demo.given (demo.run 0 (fun _ => {}) demoRun) = [.next 10, .next 20, .next 30] ∧
    subscriberSees none 0 (fun _ => {}) demo.flat [.next 10, .next 20, .next 30] =
      [.next 0, .next 11, .next 32, .completed] := by decide

set_option maxRecDepth 100000 in
/-- Half way: the subscriber has seen less. -/
example : demo.seen 0 (fun _ => {}) (demo.run 0 (fun _ => {}) (demoRun.take 18)) = [.next 0] := by decide

/-- Why `NoError`: an error overtakes a value waiting at an `observe_on`, so the subscriber misses the value. -/
def single : Chain Nat Nat Nat := .stage .nil true 0 (.last .nil)

/-- A value, then an error before the worker got to run. -/
def errRun : List (Lbl Nat Nat) :=
  [.src (.val 7), .act 0 .push, .act 0 .call, .act 0 .call, .src (.err 1), .act 0 .push, .act 0 .call, .act 0 .call]

example : single.seen 0 (fun _ => {}) (single.run 0 (fun _ => {}) errRun) = [.error 1] ∧
    subscriberSees none 0 (fun _ => {}) single.flat (single.given (single.run 0 (fun _ => {}) errRun)) =
      [.next 7, .error 1] := by decide

end Rpp.Stages
