import Verif.Window.ToggleApart

/-!
# `window_toggle`: properties (C41)

`exec ls` is the state after any schedule `ls`: the source, the openings and the closing of every window are
threads of their own, each of which keeps the contract of an observable; subscribers come and go at any time.

"At that moment": all calls that pass a notification on take the same mutex.  `log = pre ++ acc a x :: mid ++
rel b :: post`, with neither `acc`, `rel` nor `created` in `mid`, is one such call: `x` is passed on by `a`, the
windows created in `pre` are there, and `endedIn w (pre ++ mid)` says that window `w` has ended.
-/

namespace Rpp.Win.Toggle
variable {α ε : Type}
open Rpp.Win (Item)

/-- **C41.** Windows open with the openings: one for each, in order, once the opening has the mutex. -/
theorem C41_opens (ls : List (Lbl α ε)) :
    createds (exec ls).log = List.range (createds (exec ls).log).length ∧
    (createds (exec ls).log).length ≤ (exec ls).log.countP Ev.isOpen ∧
    (exec ls).log.countP Ev.isOpen ≤ (createds (exec ls).log).length + 1 ∧
    (((exec ls).pc .opn).isIdle = true → (exec ls).log.countP Ev.isOpen = (createds (exec ls).log).length) := by
  obtain ⟨o1, o2⟩ := invO ls
  rw [o1, o2]
  simp only [List.length_range]
  have h : ((exec ls).pc .opn).opening ≤ 1 := by
    cases (exec ls).pc .opn <;> simp [Pc.opening]
    rename_i j; cases j <;> simp
  have h' : ((exec ls).pc .opn).isIdle = true → ((exec ls).pc .opn).opening = 0 := by
    intro q; rw [isIdle_eq q]; rfl
  refine ⟨trivial, by omega, by omega, fun q => ?_⟩
  have := h' q
  omega

/-- **C41.** A window is only given something after its creation and before its end, and only by a call
that has the mutex to pass just that on, or by its own closing, which completes it. -/
theorem C41_fed_only (ls : List (Lbl α ε)) (pre post a w x) (h : (exec ls).log = pre ++ .fed a w x :: post) :
    .created w ∈ pre ∧ (∀ b y, .fed b w y ∈ pre → y.term = false) ∧
      ((∃ p q, pre = p ++ .acc a x :: q ∧ ∀ e ∈ q, e.mark = false) ∨ (a = .cls w ∧ x = .done ∧ .fire w ∈ pre)) := by
  obtain ⟨h1, h2, h3⟩ := fedOk ls pre a w x post h
  refine ⟨h2, ?_, h3⟩
  intro b y hm
  obtain ⟨l1, l2, rfl⟩ := List.append_of_mem hm
  rw [fedEnd_append] at h1
  simp only [fedEnd, decide_true, Bool.true_and, Bool.or_eq_false_iff] at h1
  exact h1.2.1

/-- **C41.** A call that passes `x` on reaches exactly the windows open at that moment, each once. -/
theorem C41_call (ls : List (Lbl α ε)) (pre mid post a x b)
    (h : (exec ls).log = pre ++ .acc a x :: mid ++ .rel b :: post) (hm : ∀ e ∈ mid, e.mark = false) :
    b = a ∧
    (∀ w, .created w ∈ pre → endedIn w (pre ++ mid) = false → .fed a w x ∈ mid) ∧
    (∀ w y, .fed a w y ∈ mid → y = x ∧ .created w ∈ pre) ∧
    (fedBy a mid).Nodup ∧
    (∀ c w y, .fed c w y ∈ mid → c = a ∨ (c = .cls w ∧ y = .done ∧ .fire w ∈ pre ++ mid)) := by
  obtain ⟨rfl, ⟨m, g⟩, _⟩ := (invC ls).fin pre a x mid b post h hm
  refine ⟨rfl, ?_, ?_, g.g2, ?_⟩
  · intro w hw he
    rcases g.g3 w hw with q | q | q
    · cases q
    · rw [he] at q; cases q
    · exact q
  · intro w y hf
    rcases g.g1 _ w y hf with ⟨_, q2, q3, _⟩ | ⟨_, q2, _⟩
    · exact ⟨q2, q3⟩
    · exact absurd rfl q2
  · intro c w y hf
    rcases g.g1 _ w y hf with ⟨q1, _⟩ | ⟨q1, _, q3, q4⟩
    · exact .inl q1
    · exact .inr ⟨q1, q3, q4⟩

/-- **C41.** Termination reaches all open windows: after a call that passes a terminal notification on, every
window created before has ended; and the main observer is told, unless it had left or been told before. -/
theorem C41_terminates (ls : List (Lbl α ε)) (pre mid post a x b)
    (h : (exec ls).log = pre ++ .acc a x :: mid ++ .rel b :: post) (hm : ∀ e ∈ mid, e.mark = false) (hx : x.term = true) :
    (∀ w, .created w ∈ pre → endedIn w (pre ++ mid) = true) ∧
    (.ended x ∈ mid ∨ .leave ∈ pre ++ mid ∨ pre.any Ev.isEnded = true) := by
  obtain ⟨rfl, ⟨m, g⟩, q⟩ := (invC ls).fin pre a x mid b post h hm
  refine ⟨?_, q hx⟩
  intro w hw
  rcases g.g3 w hw with q | q | q
  · cases q
  · exact q
  · obtain ⟨l1, l2, rfl⟩ := List.append_of_mem q
    rw [endedIn_append, endedIn_append]
    simp [endedIn, hx]

/-- **C41.** A window closes with its own closing: once that has fired, the completion is under way, and when it is
done the window has ended. -/
theorem C41_closes (ls : List (Lbl α ε)) (w : Nat) :
    (.fire w ∈ (exec ls).log → ((exec ls).pc (.cls w)).closing = true ∨ .fireEnd w ∈ (exec ls).log) ∧
    (.fireEnd w ∈ (exec ls).log → endedIn w (exec ls).log = true) := by
  obtain ⟨z1, z2⟩ := invZ ls
  exact ⟨z1 w, fun h => (invB ls).en w (z2 w h).2 (z2 w h).1⟩

/-- **C41.** The main observer: one callback at a time, nothing after the terminal one. -/
theorem C41_main (ls : List (Lbl α ε)) : mains (exec ls).log ≠ .bad := (invE ls).m5

/-- **C41.** A window's observer gets values in the order in which the window was given them since it joined,
each at most once, none skipped; and at most one terminal notification.  In every schedule. -/
theorem C41_values (ls : List (Lbl α ε)) (w : Nat) :
    (gots w (exec ls).log).filter isVal <+: (due w (exec ls).log).filter isVal ∧
    (gots w (exec ls).log).countP Item.term ≤ 1 :=
  ⟨(invD_val ls w).d4.p, (invT ls w).t4⟩

/-- **C41**, the observers' part for windows whose closing keeps apart from the calls that pass notifications
on (missing: see `C41_race_refutes`): callbacks one at a time, nothing after the terminal one, in order; and if
the observer did not leave and nothing is on its way, all that the window was given since it joined. -/
theorem C41_observer_partial (ls : List (Lbl α ε)) (w : Nat) (h : apart w (exec ls).log = true) :
    cbs w (exec ls).log ≠ .bad ∧ gots w (exec ls).log <+: due w (exec ls).log ∧
    (.unsub w ∉ (exec ls).log → (∀ a, ((exec ls).pc a).fly w = false) → gots w (exec ls).log = due w (exec ls).log) := by
  obtain ⟨hD, hQ⟩ := invApart ls w h
  have ft : ∀ l : List (Item α ε), l.filter (fun _ => true) = l := fun l => by simp
  have h4 := hD.d4.p
  rw [ft, ft] at h4
  refine ⟨hQ.q3, h4, fun hu hf => ?_⟩
  cases hs : (exec ls).seen w
  · obtain ⟨q1, q2, _⟩ := hD.d0 hs
    rw [q1, q2]
  · refine (hQ.e3 hs hu (fun a => ?_)).symm
    cases hx : ((exec ls).pc a).fl (fun _ => true) w with
    | none => rfl
    | some y => have := fl_fly hx; rw [hf a] at this; cases this

/-- **C41.** `erase` is always called with a valid iterator, if no closing is made to emit again from inside the
completion callback it caused (missing: see `C41_erase_refutes`). -/
theorem C41_erase_partial (ls : List (Lbl α ε)) (h : ∀ w, .again w ∉ (exec ls).log) : (exec ls).ub = false := by
  refine (invU ls).u1 ?_
  rw [List.any_eq_false]
  intro e he
  cases e <;> simp [Ev.isAgain]
  exact h _ he

/-! ## The mutex is always released -/

/-- Used in the statements and proofs of this file; models no code. -/
def Pc.left : Pc α ε → Nat
  | .loop _ r => 4 * r.length + 3
  | .deliv _ _ (some r) .chk => 4 * r.length + 6
  | .deliv _ _ (some r) .go => 4 * r.length + 5
  | .deliv _ _ (some r) .inn => 4 * r.length + 4
  | .openCb _ => 1
  | .mainCb _ => 2
  | .mainOut _ => 1
  | _ => 0

theorem settle_same (s : St α ε) : s.settle.lock = s.lock ∧ s.settle.pc = s.pc := by
  unfold St.settle; split <;> exact ⟨rfl, rfl⟩

theorem run_left (s : St α ε) (a : Actor) (h : (s.pc a).holds = true) :
    (s.run a).lock = none ∨ ((s.run a).lock = s.lock ∧ ((s.run a).pc a).holds = true ∧ ((s.run a).pc a).left < (s.pc a).left) := by
  have upeq : ∀ (c : Pc α ε), upd s.pc a c a = c := by intro c; simp [upd]
  unfold St.run
  cases hp : s.pc a with
  | loop x r =>
    cases r with
    | nil =>
      simp only
      split
      · right; simp [upeq, Pc.holds, Pc.left]
      · left; rfl
    | cons w r =>
      right
      simp only [St.give]
      split
      · split
        · simp [upeq, Pc.holds, Pc.left]; omega
        · simp [upeq, cont, Pc.holds, Pc.left]
      · simp [upeq, cont, Pc.holds, Pc.left]
  | deliv x w k st =>
    rw [hp] at h
    cases k with
    | none => cases h
    | some r =>
      right
      cases st with
      | chk =>
        simp only
        split <;> simp [upeq, cont, Pc.holds, Pc.left]
      | go => simp [upeq, Pc.holds, Pc.left]
      | inn =>
        simp only
        split
        · rw [(settle_same _).1, (settle_same _).2]; simp [upeq, cont, Pc.holds, Pc.left]
        · simp [upeq, cont, Pc.holds, Pc.left]
  | openCb w => left; rfl
  | mainCb x => right; simp only; rw [(settle_same _).1, (settle_same _).2]; simp [upeq, Pc.holds, Pc.left]
  | mainOut x => left; rfl
  | idle => rw [hp] at h; cases h
  | want j => rw [hp] at h; cases h
  | post w => rw [hp] at h; cases h
  | fired w => rw [hp] at h; cases h

theorem run_frees (s : St α ε) (a : Actor) (h : (s.pc a).holds = true) : ∃ k, ((List.replicate k (Lbl.run a)).foldl step s).lock = none := by
  generalize hn : (s.pc a).left = n
  induction n using Nat.strongRecOn generalizing s with
  | ind n ih =>
    rcases run_left s a h with q | ⟨q1, q2, q3⟩
    · exact ⟨1, q⟩
    · obtain ⟨k, hk⟩ := ih _ (by omega) (s.run a) q2 rfl
      exact ⟨k + 1, by simpa [List.replicate_succ, step] using hk⟩

/-- **C41.** Whoever has the mutex gives it back, needing nobody else's help. -/
theorem C41_finishes (ls : List (Lbl α ε)) (a : Actor) (h : (exec ls).lock = some a) :
    ∃ k, (exec (ls ++ List.replicate k (.run a))).lock = none := by
  obtain ⟨k, hk⟩ := run_frees (exec ls) a (((invA ls).lock a).mp h)
  exact ⟨k, by simpa [exec, List.foldl_append] using hk⟩

/-! ## What fails -/

/-- Window 0 is open and observed; the source pushes 7; while its observer is inside the callback, the closing
fires, on its own thread, without the mutex. -/
def raceRun : List (Lbl Nat Nat) :=
  [.opn, .run .opn, .sub 0, .run .opn, .run .opn,
   .src (.val 7), .run .src, .run .src, .run .src, .run .src,
   .fire 0, .run (.cls 0), .run (.cls 0), .run (.cls 0)]

/-- **C41, refuted:** the completion of a window overlaps a value's callback. -/
theorem C41_race_refutes :
    ∃ ls : List (Lbl Nat Nat), cbs 0 (exec ls).log = .bad ∧ gots 0 (exec ls).log = [.val 7, .done] ∧ apart 0 (exec ls).log = false :=
  ⟨raceRun, by decide, by decide, by decide⟩

/-- **C41, refuted:** a value is delivered after the completion. -/
theorem C41_late_value_refutes :
    ∃ ls : List (Lbl Nat Nat), gots 0 (exec ls).log = [.done, .val 7] ∧ cbs 0 (exec ls).log = .bad :=
  ⟨[.opn, .run .opn, .sub 0, .run .opn, .run .opn,
    .src (.val 7), .run .src, .run .src, .run .src,
    .fire 0, .run (.cls 0), .run (.cls 0), .run (.cls 0), .run (.cls 0), .run .src], by decide, by decide⟩

/-- **C41, refuted:** a value given to an open, observed window is lost although nobody left. -/
theorem C41_lost_value_refutes :
    ∃ ls : List (Lbl Nat Nat), due 0 (exec ls).log = [.val 7, .done] ∧ gots 0 (exec ls).log = [.done] ∧
      .unsub 0 ∉ (exec ls).log ∧ (exec ls).lock = none :=
  ⟨[.opn, .run .opn, .sub 0, .run .opn, .run .opn,
    .src (.val 7), .run .src, .run .src,
    .fire 0, .run (.cls 0), .run (.cls 0), .run (.cls 0), .run (.cls 0), .run .src, .run .src], by decide, by decide, by decide, by decide⟩

/-- **C41, refuted:** a closing that is made to emit again from inside the window's completion callback erases the
window twice (undefined behaviour). -/
theorem C41_erase_refutes : ∃ ls : List (Lbl Nat Nat), (exec ls).ub = true :=
  ⟨[.opn, .run .opn, .sub 0, .run .opn, .run .opn,
    .fire 0, .run (.cls 0), .run (.cls 0), .run (.cls 0), .refire 0, .run (.cls 0), .run (.cls 0)], by decide⟩

/-! ## The hypotheses can be met -/

/-- Two windows; 1 goes to the first, 2 to both; the first one closes; 3 goes to the second; the source completes. -/
def goodRun : List (Lbl Nat Nat) :=
  [.opn, .run .opn, .sub 0, .run .opn, .run .opn,
   .src (.val 1), .run .src, .run .src, .run .src, .run .src, .run .src, .run .src,
   .opn, .run .opn, .sub 1, .run .opn, .run .opn,
   .src (.val 2)] ++ List.replicate 10 (.run .src) ++
  [.fire 0] ++ List.replicate 5 (.run (.cls 0)) ++
  [.src (.val 3)] ++ List.replicate 6 (.run .src) ++
  [.src .done] ++ List.replicate 8 (.run .src)

set_option maxRecDepth 100000 in
example : (exec goodRun).log =
    [.open, .created 0, .opened 0, .sub 0, .mainRet,
     .acc .src (.val 1), .fed .src 0 (.val 1), .got 0 (.val 1), .ret 0, .rel .src,
     .open, .created 1, .opened 1, .sub 1, .mainRet,
     .acc .src (.val 2), .fed .src 0 (.val 2), .got 0 (.val 2), .ret 0, .fed .src 1 (.val 2), .got 1 (.val 2), .ret 1, .rel .src,
     .fire 0, .fed (.cls 0) 0 .done, .got 0 .done, .ret 0, .fireEnd 0,
     .acc .src (.val 3), .fed .src 1 (.val 3), .got 1 (.val 3), .ret 1, .rel .src,
     .acc .src .done, .fed .src 1 .done, .got 1 .done, .ret 1, .ended .done, .mainRet, .dead, .rel .src] := by decide

set_option maxRecDepth 100000 in
example : apart 0 (exec goodRun).log = true ∧ apart 1 (exec goodRun).log = true ∧
    gots 0 (exec goodRun).log = [.val 1, .val 2, .done] ∧ gots 1 (exec goodRun).log = [.val 2, .val 3, .done] ∧
    (exec goodRun).ub = false := by decide

/-- Two threads want the mutex at once: the closing's error waits for the source's value. -/
example : (exec (([.opn, .run .opn, .run .opn, .run .opn, .src (.val 1), .cErr 0 5, .run .src, .run (.cls 0), .run .src, .run .src] ++
      List.replicate 5 (.run (.cls 0)) : List (Lbl Nat Nat)))).log =
    [.open, .created 0, .opened 0, .mainRet, .acc .src (.val 1), .fed .src 0 (.val 1), .rel .src,
     .acc (.cls 0) (.err 5), .fed (.cls 0) 0 (.err 5), .ended (.err 5), .mainRet, .dead, .rel (.cls 0)] := by decide

end Rpp.Win.Toggle
