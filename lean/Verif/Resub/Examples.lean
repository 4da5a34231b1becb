import Verif.Resub.Repeat

/-! Concrete runs that meet the hypotheses of the theorems of C30 – C34. -/

namespace Rpp.Resub

open Rpp.Comb (Sig Res)

variable {α β ε σ : Type}

/-- The thread a label is about. -/
def Lbl.who : Lbl α ε → Who
  | .next w _ | .term w _ | .run w | .ret w _ | .throw w _ => w
  | .ask n _ | .throwN n _ => .src n
  | .gone | .shut => .main

theorem step_other (P : Policy β ε σ) (s : St α β ε σ) (l : Lbl α ε) (w : Who) (h : l.who ≠ w) : (step P s l).calls w = s.calls w := by
  have hg : ∀ (s : St α β ε σ) (p : Pc α β ε) (u : Who), u ≠ w → (s.goto u p).calls w = s.calls w := fun s p u hu => by
    have : w ≠ u := fun hh => hu hh.symm
    simp [St.goto, this]
  cases l with
  | next u v =>
    cases u <;> simp only [step, Lbl.who] at *
    · split
      · simp only [St.emit]; exact hg _ _ _ h
      · rfl
    · split
      · split <;> simp only [St.emit] <;> exact hg _ _ _ h
      · rfl
  | term u t =>
    cases u <;> simp only [step, Lbl.who] at *
    · split
      · simp only [St.emit, St.ended]; split <;> exact hg _ _ _ h
      · rfl
    · split
      · simp only [St.emit]; exact hg _ _ _ h
      · rfl
  | run u =>
    simp only [step, Lbl.who, St.advance] at *
    split
    any_goals rfl
    · split <;> exact hg _ _ _ h
    · split <;> exact hg _ _ _ h
    · exact hg _ _ _ h
    · simp only [St.emit]; exact hg _ _ _ h
    · exact hg _ _ _ h
    · split <;> exact hg _ _ _ h
    · split <;> exact hg _ _ _ h
    · exact hg _ _ _ h
    · split <;> exact hg _ _ _ h
    · split <;> exact hg _ _ _ h
    · exact hg _ _ _ h
  | ret u r =>
    simp only [step, Lbl.who] at *
    split <;> first | rfl | (simp only [St.emit]; exact hg _ _ _ h)
  | ask n r =>
    simp only [step, Lbl.who] at *
    split <;> first | rfl | (simp only [St.emit]; exact hg _ _ _ h)
  | throw u e =>
    simp only [step, Lbl.who] at *
    split
    · split
      · simp only [St.emit]; exact hg _ _ _ h
      · rfl
    · rfl
  | throwN n e =>
    simp only [step, Lbl.who] at *
    split
    · split
      · simp only [St.emit]; exact hg _ _ _ h
      · rfl
    · rfl
  | gone => simp only [step]; split <;> rfl
  | shut => simp only [step]; split <;> rfl

theorem quiet_check (P : Policy β ε σ) (ls : List (Lbl α ε)) (h0 : ((exec P ls).calls .main).isIdle = true)
    (h : (ls.map Lbl.who).all (fun w => ((exec P ls).calls w).isIdle) = true) : Quiet (exec P ls) := by
  intro w
  by_cases hw : w = .main
  · subst hw; exact isIdle_eq h0
  by_cases hm : w ∈ ls.map Lbl.who
  · exact isIdle_eq (List.all_eq_true.mp h w hm)
  · have : ∀ (ls : List (Lbl α ε)) (s : St α β ε σ), w ∉ ls.map Lbl.who → (ls.foldl (step P) s).calls w = s.calls w := by
      intro ls
      induction ls with
      | nil => intro s _; rfl
      | cons l ls ih =>
        intro s hn
        simp only [List.map_cons, List.mem_cons, not_or] at hn
        rw [List.foldl_cons, ih _ hn.2, step_other P s l w (fun hh => hn.1 hh.symm)]
    unfold exec
    rw [this ls _ hm]
    cases w with
    | main => exact absurd rfl hw
    | _ => rfl

theorem not_ended {log : List (Ev α β ε)} (h : log.all (fun ev => !ev.ends) = true) : ¬ Ended log := by
  rw [List.all_eq_true] at h
  rintro (⟨w, t, hh⟩ | ⟨w, e, hh⟩)
  · have := h _ hh; cases this
  · have := h _ hh; cases this

/-- `w` subscribes: the loop up to the call of `subscribe`. -/
def opens (w : Who) : List (Lbl Nat Nat) := [.run w, .run w, .run w, .run w]
/-- `w` returns from `subscribe` and from the loop's exchange. -/
def returns (w : Who) : List (Lbl Nat Nat) := [.run w, .run w]
/-- Used in the proofs; models no code. -/
def emits (w : Who) (v : Nat) : List (Lbl Nat Nat) := [.next w v, .run w, .ret w .ok]
/-- Used in the proofs; models no code. -/
def tells (w : Who) : List (Lbl Nat Nat) := [.run w, .ret w .ok, .run w]

/-- Source 1 completes while it is being subscribed: the subscriber goes on.  Source 2 completes later on its own thread, which goes on.  Source 3 ends it. -/
def concatDemo : List (Lbl Nat Nat) :=
  opens .main ++ emits (.src 1) 10 ++ [.term (.src 1) .completed, .run (.src 1)] ++ returns .main ++
  opens .main ++ returns .main ++ emits (.src 2) 20 ++ emits (.src 2) 21 ++ [.term (.src 2) .completed, .run (.src 2)] ++
  opens (.src 2) ++ returns (.src 2) ++ emits (.src 3) 30 ++ [.term (.src 3) .completed, .run (.src 3)] ++ [.run (.src 3), .run (.src 3)] ++ tells (.src 3)

set_option maxRecDepth 100000 in
example : openings (exec (concatPolicy ["a", "b", "c"]) concatDemo).log = [(1, "a"), (2, "b"), (3, "c")] ∧
    values (exec (concatPolicy ["a", "b", "c"]) concatDemo).log = [10, 20, 21, 30] ∧
    .beg (.src 3) (.term .completed) ∈ (exec (concatPolicy ["a", "b", "c"]) concatDemo).log ∧
    .handed 1 ∈ (exec (concatPolicy ["a", "b", "c"]) concatDemo).log := by decide

set_option maxRecDepth 100000 in
/-- With a fourth source it goes on. -/
example : Quiet (exec (concatPolicy ["a", "b", "c", "d"]) (concatDemo ++ [.run (.src 3), .run (.src 3)])) ∧
    .gone ∉ (exec (concatPolicy ["a", "b", "c", "d"]) (concatDemo ++ [.run (.src 3), .run (.src 3)])).log ∧
    ¬ Ended (exec (concatPolicy ["a", "b", "c", "d"]) (concatDemo ++ [.run (.src 3), .run (.src 3)])).log ∧
    attempts (exec (concatPolicy ["a", "b", "c", "d"]) (concatDemo ++ [.run (.src 3), .run (.src 3)])).log = 4 :=
  ⟨quiet_check _ _ (by decide) (by decide), by decide, not_ended (by decide), by decide⟩

set_option maxRecDepth 100000 in
/-- All done: `C30_concat_completes`, and `C30_start_with` for `["a", "b"]` put before `"c"`. -/
example : Quiet (exec (concatPolicy ["a", "b", "c"]) concatDemo) ∧
    (∀ m, 0 < m → m ≤ 3 → .recv (.src m) (.term .completed) ∈ (exec (concatPolicy ["a", "b", "c"]) concatDemo).log) ∧
    .opened 3 "c" ∈ (exec (concatPolicy (["a", "b"] ++ ["c"])) concatDemo).log := by
  refine ⟨quiet_check _ _ (by decide) (by decide), fun m h1 h2 => ?_, by decide⟩
  have : m = 1 ∨ m = 2 ∨ m = 3 := by omega
  rcases this with rfl | rfl | rfl <;> decide

set_option maxRecDepth 100000 in
/-- The first source fails: it is over and `"b"` is not subscribed; the same when its `subscribe` throws. -/
example : .beg (.src 1) (.term (.error 7)) ∈ (exec (concatPolicy ["a", "b"]) (opens .main ++ returns .main ++ [.term (.src 1) (.error 7)] ++ tells (.src 1))).log ∧
    .beg .main (.term (.error 8)) ∈ (exec (concatPolicy ["a", "b"]) (opens .main ++ [.throw .main 8] ++ tells .main)).log ∧
    attempts (exec (concatPolicy ["a", "b"]) (opens .main ++ [.throw .main 8] ++ tells .main)).log = 1 := by decide

set_option maxRecDepth 100000 in
example : Quiet (exec (concatPolicy ["a", "b"]) (opens .main ++ returns .main ++ [.term (.src 1) (.error 7)] ++ tells (.src 1))) :=
  quiet_check _ _ (by decide) (by decide)

set_option maxRecDepth 100000 in
/-- repeat(3) is done, repeat(4) and repeat() go on. -/
example : openings (exec (repeatPolicy 16 "a" 3) concatDemo).log = [(1, "a"), (2, "a"), (3, "a")] ∧
    .beg (.src 3) (.term .completed) ∈ (exec (repeatPolicy 16 "a" 3) concatDemo).log ∧
    attempts (exec (repeatPolicy 16 "a" 4) (concatDemo ++ [.run (.src 3), .run (.src 3)])).log = 4 ∧
    attempts (exec (repeatForeverPolicy "a") (concatDemo ++ [.run (.src 3), .run (.src 3)])).log = 4 ∧
    .gone ∉ (exec (repeatForeverPolicy "a") (concatDemo ++ [.run (.src 3), .run (.src 3)])).log := by decide

set_option maxRecDepth 100000 in
example : Quiet (exec (repeatPolicy 16 "a" 3) concatDemo) ∧ Quiet (exec (repeatPolicy 16 "a" 4) (concatDemo ++ [.run (.src 3), .run (.src 3)])) ∧
    Quiet (exec (repeatForeverPolicy "a") (concatDemo ++ [.run (.src 3), .run (.src 3)])) ∧
    ¬ Ended (exec (repeatForeverPolicy "a") (concatDemo ++ [.run (.src 3), .run (.src 3)])).log ∧
    ¬ Ended (exec (repeatPolicy 16 "a" 4) (concatDemo ++ [.run (.src 3), .run (.src 3)])).log :=
  ⟨quiet_check _ _ (by decide) (by decide), quiet_check _ _ (by decide) (by decide), quiet_check _ _ (by decide) (by decide),
   not_ended (by decide), not_ended (by decide)⟩

/-- Three attempts: the first fails while being subscribed, the second on its own thread, the third fails too. -/
def retryDemo : List (Lbl Nat Nat) :=
  opens .main ++ emits (.src 1) 10 ++ [.term (.src 1) (.error 1), .run (.src 1)] ++ returns .main ++
  opens .main ++ returns .main ++ emits (.src 2) 20 ++ [.term (.src 2) (.error 2), .run (.src 2)] ++
  opens (.src 2) ++ returns (.src 2) ++ emits (.src 3) 30 ++ [.term (.src 3) (.error 3)] ++ tells (.src 3)

set_option maxRecDepth 100000 in
/-- retry(2) gives up with the third error; so does a `size_t` of 3 values with `retry(2)`, its greatest argument. -/
example : .beg (.src 3) (.term (.error 3)) ∈ (exec (retryPolicy 16 (some 2)) retryDemo).log ∧ attempts (exec (retryPolicy 16 (some 2)) retryDemo).log = 3 ∧
    values (exec (retryPolicy 16 (some 2)) retryDemo).log = [10, 20, 30] ∧
    .beg (.src 3) (.term (.error 3)) ∈ (exec (retryPolicy 3 (some 2)) retryDemo).log := by decide

/-- … the same, the third goes on to a fourth attempt, which completes. -/
def retryMore : List (Lbl Nat Nat) :=
  opens .main ++ emits (.src 1) 10 ++ [.term (.src 1) (.error 1), .run (.src 1)] ++ returns .main ++
  opens .main ++ returns .main ++ [.term (.src 2) (.error 2), .run (.src 2)] ++
  opens (.src 2) ++ returns (.src 2) ++ [.term (.src 3) (.error 3), .run (.src 3)] ++ opens (.src 3) ++ returns (.src 3) ++ emits (.src 4) 40

set_option maxRecDepth 100000 in
example : Quiet (exec (retryPolicy 16 none) retryMore) ∧ .gone ∉ (exec (retryPolicy 16 none) retryMore).log ∧ ¬ Ended (exec (retryPolicy 16 none) retryMore).log ∧
    attempts (exec (retryPolicy 16 none) retryMore).log = 4 ∧
    .beg (.src 4) (.term .completed) ∈ (exec (retryPolicy 16 none) (retryMore ++ [.term (.src 4) .completed] ++ tells (.src 4))).log ∧
    .beg .main (.term (.error 9)) ∈ (exec (retryPolicy 16 none) (opens .main ++ [.throw .main 9] ++ tells .main)).log :=
  ⟨quiet_check _ _ (by decide) (by decide), by decide, not_ended (by decide), by decide, by decide, by decide⟩

/-- The source fails with 5; the selector is asked, and what it returns emits 20. -/
def resumeDemo : List (Lbl Nat Nat) :=
  opens .main ++ returns .main ++ emits (.src 1) 10 ++ [.term (.src 1) (.error 5), .ask 1 .ok, .run (.src 1)] ++ emits (.ntf 1) 20

set_option maxRecDepth 100000 in
example : Quiet (exec resumeNextPolicy resumeDemo) ∧ .gone ∉ (exec resumeNextPolicy resumeDemo).log ∧ ¬ Ended (exec resumeNextPolicy resumeDemo).log ∧
    values (exec resumeNextPolicy resumeDemo).log = [10, 20] ∧ .asked 1 5 ∈ (exec resumeNextPolicy resumeDemo).log ∧
    .beg (.ntf 1) (.term (.error 6)) ∈ (exec resumeNextPolicy (resumeDemo ++ [.term (.ntf 1) (.error 6)] ++ tells (.ntf 1))).log ∧
    .beg (.src 1) (.term .completed) ∈ (exec resumeNextPolicy (opens .main ++ returns .main ++ [.term (.src 1) .completed] ++ tells (.src 1))).log ∧
    .beg (.src 1) (.term (.error 9)) ∈
      (exec resumeNextPolicy (opens .main ++ returns .main ++ [.term (.src 1) (.error 5), .ask 1 (.throw 9)] ++ tells (.src 1))).log :=
  ⟨quiet_check _ _ (by decide) (by decide), by decide, not_ended (by decide), by decide, by decide, by decide, by decide, by decide⟩

/-- The first attempt fails, its notifier emits while being subscribed (the thread of the notifier hands over), the subscriber starts the second attempt; it fails,
and its notifier emits later. -/
def whenDemo : List (Lbl Nat Nat) :=
  opens .main ++ emits (.src 1) 10 ++ [.term (.src 1) (.error 1), .ask 1 .ok, .next (.ntf 1) 0, .run (.ntf 1), .run (.src 1)] ++ returns .main ++
  opens .main ++ returns .main ++ emits (.src 2) 20 ++ [.term (.src 2) (.error 2), .ask 2 .ok, .run (.src 2), .next (.ntf 2) 0, .run (.ntf 2)] ++
  opens (.ntf 2) ++ returns (.ntf 2) ++ emits (.src 3) 30

set_option maxRecDepth 100000 in
example : Quiet (exec retryWhenPolicy whenDemo) ∧ .gone ∉ (exec retryWhenPolicy whenDemo).log ∧ ¬ Ended (exec retryWhenPolicy whenDemo).log ∧
    attempts (exec retryWhenPolicy whenDemo).log = 3 ∧ values (exec retryWhenPolicy whenDemo).log = [10, 20, 30] ∧
    .asked 2 2 ∈ (exec retryWhenPolicy whenDemo).log ∧ .recv (.ntf 2) (.next 0) ∈ (exec retryWhenPolicy whenDemo).log ∧
    .beg (.ntf 3) (.term (.error 8)) ∈
      (exec retryWhenPolicy (whenDemo ++ [.term (.src 3) (.error 3), .ask 3 .ok, .run (.src 3), .term (.ntf 3) (.error 8)] ++ tells (.ntf 3))).log ∧
    .beg (.src 3) (.term .completed) ∈ (exec retryWhenPolicy (whenDemo ++ [.term (.src 3) .completed] ++ tells (.src 3))).log :=
  ⟨quiet_check _ _ (by decide) (by decide), by decide, not_ended (by decide), by decide, by decide, by decide, by decide, by decide, by decide⟩

end Rpp.Resub
