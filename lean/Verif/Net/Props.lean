import Verif.Net.Live

/-!
# C102: whole expressions

Whatever an expression is made of — pipelines, merge_with, zip, combine_latest, with_latest_from, take_until, delay, flat_map,
concat, start_with, repeat, retry, and on_error_resume_next (after observables that make no call after an error, see C109), nested in any way —
and however the threads behind its sources and operators are scheduled, the subscriber sees a sequence that the meanings of the operators
allow for the sequences of the sources, and nothing is missing when nothing is left to do.
-/

namespace Rpp.Net

open Comb (Sig)

/-- C102: what was seen is not taken back: later the subscriber's sequence goes on where it was. -/
theorem C102_grows {ε γ : Type} (n : Net ε γ) (ls : List n.Lbl) (l : n.Lbl) :
    notes (n.seq (n.exec ls)) <+: notes (n.seq (n.exec (ls ++ [l]))) := by
  have : n.exec (ls ++ [l]) = n.step (n.exec ls) l := List.foldl_append ..
  rw [this]
  exact seq_mono n _ (good_exec n ls) l

section
variable {ε γ : Type} [DecidableEq ε] [DecidableEq γ]

theorem sees_deliver (ov : ε) : {γ : Type} → [DecidableEq γ] → (react : List (Call γ ε) → Reaction ε) → (n : Net ε γ) → n.WF → (s : n.State) →
    n.sees ov react s = deliver react [] (n.seq s).vals (n.seq s).fin
  | _, _, react, .src p, hw, s => by
    classical
    have := C04_pipeline none ov react p hw s (fun c hc => by cases hc)
    have e := p.trans_spec hw s
    exact this.trans (by rw [← e]; rfl)
  | _, _, react, .join j _ p, hw, s => by
    classical
    have := C04_pipeline none ov react p hw.2 ((j.machine.told s.1).map toCall) (fun c hc => by cases hc)
    rw [← p.trans_spec hw.2] at this
    exact this
  | _, _, react, .flat _ _ _ p, hw, s => by
    classical
    have := C04_pipeline none ov react p hw.2.2 ((flatTold s.1).map toCall) (fun c hc => by cases hc)
    have e := p.trans_spec hw.2.2 ((flatTold s.1).map toCall)
    exact this.trans (by rw [← e]; rfl)
  | _, _, react, .follow _ _ _ p, hw, s => by
    classical
    have := C04_pipeline none ov react p hw.2 (s.1.told.map toCall) (fun c hc => by cases hc)
    have e := p.trans_spec hw.2 (s.1.told.map toCall)
    exact this.trans (by rw [← e]; rfl)

/-- C102: at every moment of every execution the subscriber has seen a sequence that the operators' meanings allow, given the
sequences the sources have made so far (cut where its own callback disposes or throws). -/
theorem C102_sees (ov : ε) (react : List (Call γ ε) → Reaction ε) (n : Net ε γ) (hw : n.WF) (ls : List n.Lbl) :
    ∃ t, n.Can (n.given (n.exec ls)) t ∧ n.sees ov react (n.exec ls) = deliver react [] t.vals t.fin :=
  ⟨_, can_seq n hw _ (good_exec n ls), sees_deliver ov react n hw _⟩

/-- C102: it obeys the observer grammar: values, then at most one terminal notification, then nothing. -/
theorem C102_grammar (ov : ε) (react : List (Call γ ε) → Reaction ε) : (n : Net ε γ) → (ls : List n.Lbl) →
    Grammar (n.sees ov react (n.exec ls))
  | .src p, _ => by classical exact C04_pipeline_grammar none ov react p _
  | .join _ _ p, _ => by classical exact C04_pipeline_grammar none ov react p _
  | .flat _ _ _ p, _ => by classical exact C04_pipeline_grammar none ov react p _
  | .follow _ _ _ p, _ => by classical exact C04_pipeline_grammar none ov react p _

/-- C102: when nothing is left to do and nobody has disposed of an observer (other than because a sequence had ended), nothing is
missing: every operator whose sequence counts has used the whole sequence of each of its operands. -/
theorem C102_all (ov : ε) (react : List (Call γ ε) → Reaction ε) (n : Net ε γ) (hw : n.WF) (ls : List n.Lbl)
    (hr : n.Rest (n.exec ls)) (hk : n.Kept (n.exec ls)) :
    ∃ t, n.CanAll (n.given (n.exec ls)) t ∧ n.sees ov react (n.exec ls) = deliver react [] t.vals t.fin :=
  ⟨_, canAll_seq n hw _ (good_exec n ls) hr hk, sees_deliver ov react n hw _⟩

/-- C102: nothing gets stuck: whatever has happened, some further steps of the operators and the subscriber alone — no source notifies,
nobody disposes — lead to a point where nothing is left to do.  (For `repeat()` and `retry()` without a number there need not be such a point.) -/
theorem C102_can_rest (n : Net ε γ) (hb : n.Bounded) (ls : List n.Lbl) :
    ∃ ks : List n.Lbl, (∀ l ∈ ks, n.inner l = true) ∧ n.Later (n.given (n.exec ls)) (n.given (n.exec (ls ++ ks))) ∧ n.Rest (n.exec (ls ++ ks)) := by
  obtain ⟨ks, h1, h2⟩ := leads_rest n hb _ (good_exec n ls)
  have e : n.exec (ls ++ ks) = ks.foldl n.step (n.exec ls) := List.foldl_append ..
  exact ⟨ks, h1, by rw [e]; exact given_inners n ks _ h1, by rw [e]; exact h2⟩

/-- C102: an observer is disposed of only by somebody who disposes, or because its sequence has ended. -/
theorem C102_kept (n : Net ε γ) (ls : List n.Lbl) (hl : ∀ l ∈ ls, n.tidy l = true) : n.Kept (n.exec ls) := by
  refine whole_kept n _ ?_
  have : ∀ (ls : List n.Lbl) s, Whole n s → (∀ l ∈ ls, n.tidy l = true) → Whole n (ls.foldl n.step s) := by
    intro ls
    induction ls with
    | nil => exact fun _ h _ => h
    | cons l ls ih => exact fun s h hl => ih _ (whole_step n s h l (hl l List.mem_cons_self)) fun k hk => hl k (List.mem_cons_of_mem _ hk)
  exact this ls _ (whole_init n) hl

/-- C102: so, if nobody disposes, everything that the sources have notified so far can always still get through: some further
steps of the operators and the subscriber alone lead to a point where the subscriber has seen a complete result. -/
theorem C102_finish (ov : ε) (react : List (Call γ ε) → Reaction ε) (n : Net ε γ) (hw : n.WF) (hb : n.Bounded) (ls : List n.Lbl)
    (hl : ∀ l ∈ ls, n.tidy l = true) :
    ∃ ks : List n.Lbl, (∀ l ∈ ks, n.inner l = true) ∧
      n.Later (n.given (n.exec ls)) (n.given (n.exec (ls ++ ks))) ∧
      ∃ t, n.CanAll (n.given (n.exec (ls ++ ks))) t ∧ n.sees ov react (n.exec (ls ++ ks)) = deliver react [] t.vals t.fin := by
  obtain ⟨ks, h1, h2, h3⟩ := C102_can_rest n hb ls
  have hk := C102_kept n (ls ++ ks) fun l hm => by
    rcases List.mem_append.1 hm with hm | hm
    · exact hl l hm
    · exact inner_tidy n l (h1 l hm)
  obtain ⟨t, h4, h5⟩ := C102_all ov react n hw (ls ++ ks) h3 hk
  exact ⟨ks, h1, h2, t, h4, h5⟩

/-- C102: without `flat_map` the sources are always the same, and then these steps change nothing about what they have notified. -/
theorem C102_same (n : Net ε γ) (hf : n.Fixed) (ls ks : List n.Lbl) (h : n.Later (n.given (n.exec ls)) (n.given (n.exec (ls ++ ks)))) :
    n.given (n.exec (ls ++ ks)) = n.given (n.exec ls) := later_eq n hf h

end

/-! ## The hypotheses are met -/

/-- `b | zip(c, +) | map(+100)` -/
def demoZip : Net Nat Nat :=
  .join (.zip 1 fun l => .ok (l.foldl (· + ·) 0)) (fun _ => .src (.nil : Pipe Nat Nat Nat)) (.cons (.map fun a => .ok (a + 100)) .nil)

/-- The operands of `demo`. -/
def demoKids : Nat → Net Nat Nat
  | 0 => .src (.cons (.filter fun a : Nat => .ok (a % 2 == 0)) .nil)
  | _ => demoZip

/-- `a | filter(even) | merge_with(b | zip(c, +) | map(+100)) | scan(0, +)` -/
def demo : Net Nat Nat := .join (.merge 1) demoKids (.cons (.scan 0 fun a b : Nat => .ok (a + b)) .nil)

example : demo.WF := by
  refine ⟨fun i => ?_, by simp [Pipe.WF, Op.WF]⟩
  match i with
  | 0 => simp [demoKids, Net.WF, Pipe.WF, Op.WF]
  | _ + 1 => exact ⟨fun i => by simp [Net.WF, Pipe.WF], by simp [Pipe.WF, Op.WF]⟩

example : demo.Bounded := fun i => match i with
  | 0 => trivial
  | _ + 1 => fun _ => trivial

/-- Steps of the call of source `i` of an operator, until it is done. -/
def driveHub (i : Nat) : List HubAct := [.run i, .run i, .run i, .run i, .ret i, .run i, .run i, .run i]

/-- The zip of the demo gets a value from both sides and tells the sum. -/
def demoZipRun (x y : Nat) : List demoZip.Lbl :=
  [.kid 0 (.call (.next x)), .push 0] ++ (driveHub 0).map (fun a => .act a) ++
  [.kid 1 (.call (.next y)), .push 1] ++ (driveHub 1).map (fun a => .act a)

/-- `merge_with` subscribes; 2 and 1 come from the one side while the zip of the other side makes a value, which is let in first. -/
def demoRun : List demo.Lbl :=
  ([.opn 0, .run 0, .opn 1, .run 0, .outer, .run 0, .run 0] : List HubAct).map (fun a => .act a) ++
  [.kid 0 (.call (.next 1)), .push 0, .kid 0 (.call (.next 2)), .push 0] ++
  (demoZipRun 3 4).map (fun l => .kid 1 l) ++ [.push 1] ++
  (driveHub 2).map (fun a => .act a) ++ (driveHub 1).map (fun a => .act a)

set_option maxRecDepth 100000 in
example : demo.sees 0 (fun _ => {}) (demo.exec demoRun) = [.next 0, .next 107, .next 109] := by decide

set_option maxRecDepth 100000 in
/-- Nothing is left to do after this run. -/
example : demo.Rest (demo.exec demoRun) := by
  refine ⟨⟨fun i => ?_, .inl (by decide)⟩, fun i hi => ⟨?_, ?_⟩⟩
  · match i with
    | 0 => rfl
    | 1 => rfl
    | 2 => rfl
    | _ + 3 => rfl
  · match i, hi with
    | 0, _ => rfl
    | 1, _ => rfl
  · match i, hi with
    | 0, _ => trivial
    | 1, _ =>
      refine ⟨fun i => ?_, fun i hi => ⟨?_, trivial⟩⟩
      · match i with
        | 0 => rfl
        | 1 => rfl
        | _ + 2 => rfl
      · match i, hi with
        | 0, _ => rfl
        | 1, _ => rfl

set_option maxRecDepth 100000 in
example : demo.Kept (demo.exec demoRun) := by
  refine fun _ => ⟨(by decide : .gone ∉ (demo.exec demoRun).1.log), fun i hi => ?_⟩
  match i, hi with
  | 0, _ => trivial
  | 1, _ => exact fun _ => ⟨(by decide : .gone ∉ ((demo.exec demoRun).2 1).1.log), fun _ _ => trivial⟩

set_option maxRecDepth 100000 in
example : ∀ l ∈ demoRun, demo.tidy l = true := List.all_eq_true.1 (by decide : demoRun.all demo.tidy = true)

set_option maxRecDepth 100000 in
/-- In the middle of that run a value is on its way to `merge_with`, and the subscriber has only seen the seed of `scan`. -/
example : demo.sees 0 (fun _ => {}) (demo.exec (demoRun.take 10)) = [.next 0] ∧
    (demo.exec (demoRun.take 10)).1.log.length < (demo.exec (demoRun.take 10 ++ [.push 0])).1.log.length := by decide

end Rpp.Net
