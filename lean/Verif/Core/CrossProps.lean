import Verif.Core.CrossAlone

/-!
# C94: disposing a subscription from other threads

`subscription env react p cs` is everything that happens while the source of `source | p` makes the calls `cs` in one thread
and other threads call `dispose()` of the subscription, interleaved as `env` says: `env n` are the threads that make a step
before the `n`-th access of the emitting thread to the shared state.  `shown` are the subscriber's callbacks, in the order in
which they began.  The theorems hold for all pipelines, sources, subscribers and interleavings.
-/

namespace Rpp.Cross

section
variable {α γ ε : Type} [DecidableEq α] [DecidableEq γ] [DecidableEq ε]

/-- C94: whenever it is disposed of, and by whichever threads, the subscriber has been shown a beginning of what it would have
been shown had nobody interfered: nothing is lost in between, reordered or duplicated. -/
theorem C94_prefix (env : Nat → List Nat) (react : List (Call γ ε) → Reaction ε) (ov : ε) (p : Pipe ε α γ) (hp : p.WF)
    (cs : List (Call α ε)) :
    shown (subscription env react p cs).log <+: deliver react [] (p.spec (traceOf cs)).vals (p.spec (traceOf cs)).fin := by
  rw [← C04_pipeline none ov react p hp cs (fun _ h => by cases h)]
  exact subscription_sim env react ov p cs

/-- C94: and all of it, if no other thread has called `dispose()`. -/
theorem C94_exact (env : Nat → List Nat) (react : List (Call γ ε) → Reaction ε) (ov : ε) (p : Pipe ε α γ) (hp : p.WF)
    (cs : List (Call α ε)) (hn : ∀ t, Ev.asked (some t) ∉ (subscription env react p cs).log) :
    shown (subscription env react p cs).log = deliver react [] (p.spec (traceOf cs)).vals (p.spec (traceOf cs)).fin := by
  rw [← C04_pipeline none ov react p hp cs (fun _ h => by cases h)]
  exact subscription_alone env react ov p cs hn

/-- C94, in part: once a `dispose()` has returned, in whichever thread, at most one more callback begins. Missing: none does
(`C94_refutes`). -/
theorem C94_late_partial (env : Nat → List Nat) (react : List (Call γ ε) → Reaction ε) (p : Pipe ε α γ) (cs : List (Call α ε))
    (pre post : List (Ev γ ε)) (t : Option Nat) (h : (subscription env react p cs).log = pre ++ .answered t :: post) :
    (shown post).length ≤ 1 := by
  have hg : Good (subscription env react p cs) :=
    Keeps.subscription user_good ⟨⟨fun h => (by cases h), by simp [after, shown], by simp [after]⟩, fun t ht => by cases ht⟩
      (fun w h => h.say _ rfl (fun h => by cases h)) (fun w h => h.say _ rfl (fun h => by cases h)) p cs
  have hl := hg.1.late
  obtain ⟨q, hq⟩ := after_suffix Ev.isAns pre post (.answered t) rfl
  rw [h, hq, shown_append, List.length_append] at hl
  omega

/-- C94: none begins once a `dispose()` called in a callback of the subscriber has returned. -/
theorem C94_own (env : Nat → List Nat) (react : List (Call γ ε) → Reaction ε) (p : Pipe ε α γ) (cs : List (Call α ε))
    (pre post : List (Ev γ ε)) (h : (subscription env react p cs).log = pre ++ .answered none :: post) : shown post = [] := by
  have hg : Own (subscription env react p cs) := by
    refine Keeps.subscription user_own ⟨fun c hc => (by cases hc), fun h => (by cases h), rfl⟩
      (fun w h => h.soft (Soft.say _ _ rfl rfl)) (fun w h => h.soft (Soft.say _ _ rfl rfl)) p cs
  have hl := hg.none
  obtain ⟨q, hq⟩ := after_suffix Ev.isOwn pre post (.answered none) rfl
  rw [h, hq, shown_append] at hl
  exact (List.append_eq_nil_iff.1 hl).2

/-- C94: what the source calls after a `dispose()` has returned has no effect: neither a callback of the subscriber nor one
given to an operator is run. -/
theorem C94_stop (env : Nat → List Nat) (react : List (Call γ ε) → Reaction ε) (p : Pipe ε α γ) (cs : List (Call α ε))
    (pre mid post : List (Ev γ ε)) (t : Option Nat)
    (h : (subscription env react p cs).log = pre ++ .answered t :: mid ++ .enter :: post) :
    Ev.ran ∉ post ∧ ∀ c, Ev.start c ∉ post := by
  have hg : Good (subscription env react p cs) :=
    Keeps.subscription user_good ⟨⟨fun h => (by cases h), by simp [after, shown], by simp [after]⟩, fun t ht => by cases ht⟩
      (fun w h => h.say _ rfl (fun h => by cases h)) (fun w h => h.say _ rfl (fun h => by cases h)) p cs
  have hl := hg.1.stale
  rw [List.append_assoc, List.cons_append] at h
  obtain ⟨q, hq⟩ := after_suffix Ev.isAns pre (mid ++ .enter :: post) (.answered t) rfl
  obtain ⟨q', hq'⟩ := after_suffix Ev.isEnter (q ++ mid) post .enter rfl
  rw [h, hq, ← List.append_assoc, hq'] at hl
  refine ⟨fun hm => ?_, fun c hm => ?_⟩
  · have := hl _ (List.mem_append_right _ hm); cases this
  · have := hl _ (List.mem_append_right _ hm); cases this

/-- C94: no disposable is released twice. -/
theorem C94_once (env : Nat → List Nat) (react : List (Call γ ε) → Reaction ε) (p : Pipe ε α γ) (cs : List (Call α ε)) (d : Nat) :
    (subscription env react p cs).log.count (.released d) ≤ 1 := by
  have hg : RGood false (subscription env react p cs) :=
    Keeps.subscription user_rgood
      ⟨⟨fun d h => (by cases h), fun d => (by simp), fun h => (by cases h), fun t h => (by cases h), fun t _ h => (by cases h)⟩,
        fun t h => by cases h⟩
      (fun w h => h.say _ (fun _ h => by cases h) (fun _ h => by cases h) (fun _ h => by cases h))
      (fun w h => h.say _ (fun _ h => by cases h) (fun _ h => by cases h) (fun _ h => by cases h)) p cs
  exact hg.1.once d

/-- C94: if a `dispose()` has returned or the sequence has ended, and no other thread is still within `dispose()`, then
every disposable the source handed over (at whatever time) and every `finally` callback of the pipeline has been run, exactly
once. -/
theorem C94_release (env : Nat → List Nat) (react : List (Call γ ε) → Reaction ε) (p : Pipe ε α γ) (cs : List (Call α ε))
    (hend : (∃ t, Ev.answered t ∈ (subscription env react p cs).log) ∨
      ∃ c ∈ shown (subscription env react p cs).log, c = .completed ∨ ∃ e, c = .error e)
    (hover : ∀ t, Ev.asked (some t) ∈ (subscription env react p cs).log → Ev.answered (some t) ∈ (subscription env react p cs).log)
    (d : Nat) (hd : d ∈ p.finals ∨ .up d ∈ cs) : (subscription env react p cs).log.count (.released d) = 1 := by
  have hg : RGood false (subscription env react p cs) :=
    Keeps.subscription user_rgood
      ⟨⟨fun d h => (by cases h), fun d => (by simp), fun h => (by cases h), fun t h => (by cases h), fun t _ h => (by cases h)⟩,
        fun t h => by cases h⟩
      (fun w h => h.say _ (fun _ h => by cases h) (fun _ h => by cases h) (fun _ h => by cases h))
      (fun w h => h.say _ (fun _ h => by cases h) (fun _ h => by cases h) (fun _ h => by cases h)) p cs
  have hi : Good (subscription env react p cs) :=
    Keeps.subscription user_good ⟨⟨fun h => (by cases h), by simp [after, shown], by simp [after]⟩, fun t ht => by cases ht⟩
      (fun w h => h.say _ rfl (fun h => by cases h)) (fun w h => h.say _ rfl (fun h => by cases h)) p cs
  have ho : Own (subscription env react p cs) :=
    Keeps.subscription user_own ⟨fun c hc => (by cases hc), fun h => (by cases h), rfl⟩
      (fun w h => h.soft (Soft.say _ _ rfl rfl)) (fun w h => h.soft (Soft.say _ _ rfl rfl)) p cs
  have hh := subscription_handed env react p cs d hd
  have hdis : (subscription env react p cs).disposed = true := by
    rcases hend with ⟨t, ht⟩ | ⟨c, hc, ht⟩
    · exact hi.1.dead (List.any_eq_true.2 ⟨_, ht, rfl⟩)
    · exact ho.fin c hc ht
  have hups : (subscription env react p cs).ups = [] := by
    rcases hg.1.live hdis with h | h | ⟨t, ht⟩
    · exact h
    · cases h
    · exact absurd (hover t (hg.1.won t ht).2) (hg.1.not t (by rw [ht]; exact fun h => by cases h))
  have hr : Ev.released d ∈ (subscription env react p cs).log := by
    rcases hg.1.kept d hh with h | h
    · rw [hups] at h; cases h
    · exact h
  have := hg.1.once d
  have := List.count_pos_iff.2 hr
  omega

end

/-! ## The schedules used as examples -/

/-- The pipeline `map(x + 1) | finally(9)`; models no code. -/
def exPipe : Pipe Nat Nat Nat := .cons (.map (fun x => .ok (x + 1))) (.cons (.finallyOp 9) .nil)

/-- Thread 1 calls `dispose()` and gets through with it before the access number `n`; models no code. -/
def allAt (n : Nat) : Nat → List Nat := fun k => if k = n then [1, 1, 1] else []

/-- What happens if thread 1 disposes right before the access number `n`; models no code. -/
def exLog (n : Nat) : List (Ev Nat Nat) :=
  (subscription (allAt n) (fun _ => {}) exPipe [.up 7, .next 1, .next 2, .completed]).log

/-- C94: a callback of the subscriber may begin after `dispose()` has returned in another thread: the check is made, `dispose()`
is called and returns, the callback is run. -/
theorem C94_refutes : ∃ (env : Nat → List Nat) (pre post : List (Ev Nat Nat)) (t : Option Nat),
    (subscription env (fun _ => {}) exPipe [.up 7, .next 1, .next 2, .completed]).log = pre ++ .answered t :: post ∧
      shown post ≠ [] :=
  ⟨allAt 11, (exLog 11).take 10, (exLog 11).drop 11, some 1, by decide, by decide⟩

-- Non-vacuity: the interleavings reach the interesting places.
example : shown (exLog 100) = [.next 2, .next 3, .completed] := by decide
example : exLog 18 = [.handed 9, .enter, .handed 7, .leave, .enter, .ran, .ran, .start (.next 2), .finish (.next 2), .leave, .enter,
    .ran, .ran, .asked (some 1), .released 9, .released 7, .answered (some 1), .start (.next 3), .finish (.next 3), .leave, .enter,
    .leave] := by decide
example : ∀ t, Ev.asked (some t) ∉ exLog 100 := by
  have : exLog 100 = [.handed 9, .enter, .handed 7, .leave, .enter, .ran, .ran, .start (.next 2), .finish (.next 2), .leave, .enter,
    .ran, .ran, .start (.next 3), .finish (.next 3), .leave, .enter, .ran, .ran, .start .completed, .finish .completed,
    .released 9, .released 7, .leave] := by decide
  rw [this]; simp
-- `dispose()` returns between two calls of the source, which then have no effect
example : exLog 13 = (exLog 13).take 14 ++ .answered (some 1) :: ((exLog 13).drop 15).take 1 ++ .enter :: (exLog 13).drop 17 := by
  decide
-- a disposable handed over after `dispose()` is released, too
example : exLog 3 = [.handed 9, .enter, .asked (some 1), .released 9, .answered (some 1), .handed 7, .released 7, .leave, .enter,
    .leave, .enter, .leave, .enter, .leave] := by decide
-- `dispose()` in the callback, while another thread is disposing, too
example : (subscription (fun k => if k = 11 then [1, 1] else []) (fun _ => { dispose := true }) exPipe [.up 7, .next 1, .next 2]).log =
    [.handed 9, .enter, .handed 7, .leave, .enter, .ran, .ran, .asked (some 1), .start (.next 2), .asked none, .answered none,
      .finish (.next 2), .leave, .enter, .leave] := by decide
example : exPipe.WF := ⟨trivial, trivial, trivial⟩

end Rpp.Cross
