import Verif.Window.WindowProofs
import Verif.Window.HubLife

/-!
# `window`: properties (C19, C71)

`exec (winOper α ε count) ls` is the state after any schedule `ls` of: notifications of the source,
instructions of the operator, and subscriptions and disposals by the environment between any two of them.
`accepted s.log` are the source's notifications so far, `acts s.log` what was done with the windows and the
main observer, `feds k s.log` what window number `k` was given, `received o s.log` what observer `o` was
told.  `s.prog = []`: the operator is between two notifications.
-/

namespace Rpp.Win
variable {α ε : Type}

theorem clean_iff {ι : Type} (l : List (Ev ι α ε)) : clean l = true ↔ .gone ∉ l := by
  induction l with
  | nil => simp [clean]
  | cons a l ih => cases a <;> simp_all [clean]

/-- The source's notifications: at most the last one is terminal. -/
theorem accs_shape (count : Nat) (ls : List (Lbl (Item α ε))) :
    (∀ a ∈ accs (exec (winOper α ε count) ls).log, a.1.term = false) ∨
      ∃ bs t, accs (exec (winOper α ε count) ls).log = bs ++ [t] ∧ (∀ a ∈ bs, a.1.term = false) ∧ t.1.term = true := by
  have h := invT (winOper_ok count) ls (O := winOper α ε count)
  cases ho : (exec (winOper α ε count) ls).over
  · exact .inl (runOk_all (fun _ _ _ => rfl) (h.t0 ho))
  · obtain ⟨bs, t, h1, h2, h3⟩ := h.t1 ho
    exact .inr ⟨bs, t, h1, runOk_all (fun _ _ _ => rfl) h2, h3⟩

theorem accepted_shape (count : Nat) (ls : List (Lbl (Item α ε))) :
    (∀ a ∈ accepted (exec (winOper α ε count) ls).log, a.term = false) ∨
      ∃ bs t, accepted (exec (winOper α ε count) ls).log = bs ++ [t] ∧ (∀ a ∈ bs, a.term = false) ∧ t.term = true := by
  rw [accepted_eq]
  rcases accs_shape count ls with h | ⟨bs, t, h, h1, h2⟩
  · left
    intro a ha
    obtain ⟨p, hp, rfl⟩ := List.mem_map.mp ha
    exact h p hp
  · right
    refine ⟨bs.map (·.1), t.1, by rw [h]; simp, ?_, h2⟩
    intro a ha
    obtain ⟨p, hp, rfl⟩ := List.mem_map.mp ha
    exact h1 p hp

theorem one_le (count : Nat) : 1 ≤ max 1 count := by omega

/-- **C19.** As long as the main observer stays, everything `window` does is what `winSpec` says, in that
order: the `i`-th value (from 0) goes to window `i / n`, which is opened just before if it is its first
value and completed just after if it is its last; the end of the source ends the window that is open, if
one is, and then the main observer. -/
theorem C19_actions (count : Nat) (ls : List (Lbl (Item α ε)))
    (hg : .gone ∉ (exec (winOper α ε count) ls).log) (hp : (exec (winOper α ε count) ls).prog = []) :
    acts (exec (winOper α ε count) ls).log = winSpec (max 1 count) 0 (accepted (exec (winOper α ε count) ls).log) := by
  have hP := invP (winOper_ok count) ls (O := winOper α ε count)
  rw [accepted_eq, ← (win_plan count _ (accs_shape count ls)).1]
  rcases (hP.p1 ((clean_iff _).mpr hg)).2 with ⟨_, h⟩ | ⟨_, _, _, h⟩
  · rw [hp] at h; simpa [sim] using h
  · exact h

/-- **C19.** While a notification is being handled, what was done is the beginning of it. -/
theorem C19_actions_prefix (count : Nat) (ls : List (Lbl (Item α ε)))
    (hg : .gone ∉ (exec (winOper α ε count) ls).log) :
    acts (exec (winOper α ε count) ls).log <+: winSpec (max 1 count) 0 (accepted (exec (winOper α ε count) ls).log) := by
  have hP := invP (winOper_ok count) ls (O := winOper α ε count)
  rw [accepted_eq, ← (win_plan count _ (accs_shape count ls)).1]
  rcases (hP.p1 ((clean_iff _).mpr hg)).2 with ⟨_, h⟩ | ⟨_, _, _, h⟩
  · exact ⟨_, h⟩
  · rw [h]; exact List.prefix_refl _

/-- **C19.** The windows handed to the main observer: one per `n` values, the last possibly incomplete. -/
theorem C19_opens (count : Nat) (ls : List (Lbl (Item α ε)))
    (hg : .gone ∉ (exec (winOper α ε count) ls).log) (hp : (exec (winOper α ε count) ls).prog = []) :
    openeds (exec (winOper α ε count) ls).log =
      List.range (((vals (accepted (exec (winOper α ε count) ls).log)).length + max 1 count - 1) / max 1 count) := by
  rw [openeds_acts, C19_actions count ls hg hp]
  exact (winSpec_gets _ (one_le count) _ (accepted_shape count ls)).2.1

/-- **C19.** Window `k` gets the values number `k * n` to `k * n + n - 1`, then its completion if it is
full, else the end of the source.  This also holds when the main observer has left, as long as anybody
listens to any window (`dead = false`). -/
theorem C19_window_gets (count : Nat) (ls : List (Lbl (Item α ε)))
    (hg : .gone ∉ (exec (winOper α ε count) ls).log ∨ (exec (winOper α ε count) ls).dead = false)
    (hp : (exec (winOper α ε count) ls).prog = []) (k : Nat) :
    feds k (exec (winOper α ε count) ls).log = windowGets (max 1 count) (accepted (exec (winOper α ε count) ls).log) k := by
  rw [← (winSpec_gets _ (one_le count) _ (accepted_shape count ls)).1 k, feds_acts]
  rcases hg with hg | hd
  · rw [C19_actions count ls hg hp]
  · have hP := (invP (winOper_ok count) ls (O := winOper α ε count)).p2 hd
    rw [hp] at hP
    simp only [sim, List.append_nil] at hP
    rw [accepted_eq, ← (win_plan count _ (accs_shape count ls)).1, fedsA_fedPart, fedsA_fedPart, hP.1]

/-- **C19.** At any moment, and whoever has left, a window was given the beginning of that. -/
theorem C19_window_prefix (count : Nat) (ls : List (Lbl (Item α ε))) (k : Nat) :
    feds k (exec (winOper α ε count) ls).log <+:
      windowGets (max 1 count) (accepted (exec (winOper α ε count) ls).log) k := by
  rw [← (winSpec_gets _ (one_le count) _ (accepted_shape count ls)).1 k, feds_acts,
    accepted_eq, ← (win_plan count _ (accs_shape count ls)).1]
  exact fedsA_fed_prefix (invP (winOper_ok count) ls (O := winOper α ε count)).p3

/-- **C19.** Every value goes to exactly one window: the values of the windows, one window after the other,
are the values of the source. -/
theorem C19_each_value_once (n : Nat) (hn : 1 ≤ n) (as : List (Item α ε)) :
    (List.range (((vals as).length + n - 1) / n)).flatMap (fun k => vals (windowGets n as k)) = vals as := by
  have hv : ∀ k, vals (windowGets n as k) = ((vals as).drop (k * n)).take n := by
    intro k
    simp only [windowGets, vals_append, vals_map]
    have : ∀ o : Option (Item α ε), o = fin as → vals o.toList = [] := by
      intro o ho
      subst ho
      generalize as = bs
      induction bs with
      | nil => rfl
      | cons a bs ih => cases a <;> simp [fin, vals, ih]
    split
    · simp [vals]
    · split
      · rw [this _ rfl]; simp
      · simp [vals]
  simp only [hv]
  apply windows_values n hn
  have h1 := Nat.div_add_mod ((vals as).length + n - 1) n
  have h2 := Nat.mod_lt ((vals as).length + n - 1) (show n > 0 by omega)
  rw [Nat.mul_comm] at h1
  omega

/-- **C19.** The main observer is told the end of the source, and nothing else. -/
theorem C19_main_end (count : Nat) (ls : List (Lbl (Item α ε)))
    (hg : .gone ∉ (exec (winOper α ε count) ls).log) (hp : (exec (winOper α ε count) ls).prog = []) :
    endeds (exec (winOper α ε count) ls).log = (fin (accepted (exec (winOper α ε count) ls).log)).toList := by
  rw [endeds_acts, C19_actions count ls hg hp]
  exact (winSpec_gets _ (one_le count) _ (accepted_shape count ls)).2.2

/-- **C19.** An observer of a window is told what the window is given after it joined, in order: at any
moment a beginning of it, and all of it when the operator is between two notifications, unless it
unsubscribed. -/
theorem C19_observer (count : Nat) (ls : List (Lbl (Item α ε))) (o w : Nat)
    (hs : .sub o w ∈ (exec (winOper α ε count) ls).log) :
    received o (exec (winOper α ε count) ls).log <+: due o (exec (winOper α ε count) ls).log ∧
      ((exec (winOper α ε count) ls).prog = [] → .unsub o ∉ (exec (winOper α ε count) ls).log →
        received o (exec (winOper α ε count) ls).log = due o (exec (winOper α ε count) ls).log) :=
  (invD (winOper_ok count) ls (O := winOper α ε count)).observer hs

/-- **C19.** An observer who comes when the window has ended is told the end, or nothing if the window does
not exist any more. -/
theorem C19_late (count : Nat) (ls : List (Lbl (Item α ε))) (o w : Nat)
    (hs : .late o w ∈ (exec (winOper α ε count) ls).log) :
    received o (exec (winOper α ε count) ls).log = [] ∨
      ∃ x, received o (exec (winOper α ε count) ls).log = [x] ∧ x.term = true ∧ .fed w x ∈ (exec (winOper α ε count) ls).log :=
  lateOk (winOper_ok count) ls hs

/-- **C19.** The empty `std::optional` is never dereferenced. -/
theorem C19_no_ub (count : Nat) (ls : List (Lbl (Item α ε))) : (exec (winOper α ε count) ls).op.ub = false := by
  rw [← (invP (winOper_ok count) ls (O := winOper α ε count)).p0]
  exact (win_plan count _ (accs_shape count ls)).2

/-- **C19.** Left alone, the operator finishes what it is doing. -/
theorem C19_finishes (count : Nat) (ls : List (Lbl (Item α ε))) :
    ∃ k, (exec (winOper α ε count) (ls ++ List.replicate k .run)).prog = [] := by
  obtain ⟨k, h⟩ := finishes (winOper α ε count) (exec (winOper α ε count) ls)
  exact ⟨k, by simpa [exec, List.foldl_append] using h⟩

/-- **C71.** The source's subscription is disposed exactly when nobody listens any more: neither the main
observer nor any observer of a window. -/
theorem C71_window (count : Nat) (ls : List (Lbl (Item α ε))) :
    (exec (winOper α ε count) ls).dead = true ↔
      mainHere (exec (winOper α ε count) ls).log = false ∧ ∀ o, listens o (exec (winOper α ε count) ls).log = false :=
  dead_iff (winOper_ok count) ls

/-! ## The hypotheses can be met -/

/-- Windows of two.  Three values and a completion; observer 0 joins window 0 as it is opened (between the
callback and the value), observer 1 joins it after its first value, observer 2 joins window 1 and
unsubscribes, observer 3 comes too late for window 0. -/
def winRun : List (Lbl (Item Nat Nat)) :=
  [.notify (.val 10), .run, .run, .sub 0 0, .run, .run, .sub 1 0,
   .notify (.val 11), .run, .run, .run, .run, .run, .run, .run,
   .notify (.val 12), .run, .run, .sub 2 1, .run, .run, .unsub 2, .sub 3 0,
   .notify .done, .run, .run, .destroy]

example : (exec (winOper Nat Nat 2) winRun).log =
    [.acc (.val 10) false, .opened 0, .sub 0 0, .fed 0 (.val 10), .got 0 (.val 10), .sub 1 0,
     .acc (.val 11) false, .fed 0 (.val 11), .got 0 (.val 11), .got 1 (.val 11), .fed 0 .done, .got 0 .done, .got 1 .done,
     .acc (.val 12) false, .opened 1, .sub 2 1, .fed 1 (.val 12), .got 2 (.val 12), .unsub 2, .late 3 0,
     .acc .done false, .fed 1 .done, .ended .done] := by decide

example : (exec (winOper Nat Nat 2) winRun).prog = [] ∧ (exec (winOper Nat Nat 2) winRun).dead = true ∧
    Ev.gone ∉ (exec (winOper Nat Nat 2) winRun).log := by decide

example : windowGets 2 [.val 10, .val 11, .val 12, .err 7] 0 = ([.val 10, .val 11, .done] : List (Item Nat Nat)) ∧
    windowGets 2 [.val 10, .val 11, .val 12, .err 7] 1 = ([.val 12, .err 7] : List (Item Nat Nat)) ∧
    windowGets 2 [.val 10, .val 11, .val 12, .err 7] 2 = ([] : List (Item Nat Nat)) := by decide

/-- The main observer leaves, an observer of window 0 stays: the source stays subscribed, window 1 is filled
although nobody can see it. -/
example : (exec (winOper Nat Nat 1) [.notify (.val 5), .run, .run, .sub 0 0, .leave]).dead = false ∧
    Ev.gone ∈ (exec (winOper Nat Nat 1) [.notify (.val 5), .run, .run, .sub 0 0, .leave]).log := by decide

/-- The last one leaves. -/
example : (exec (winOper Nat Nat 3) [.notify (.val 5), .run, .run, .sub 0 0, .run, .run, .leave, .unsub 0]).dead = true := by
  decide

/-- An observer who comes after the last value of a window is told nothing at all, not even the completion:
the window's state is only owned by the operator, and gone. -/
example : received 3 (exec (winOper Nat Nat 2) winRun).log = [] ∧ Ev.late 3 0 ∈ (exec (winOper Nat Nat 2) winRun).log := by
  decide

end Rpp.Win
