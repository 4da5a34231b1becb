import Verif.Resub.StackFlat

/-!
# C92, C93: exceptions thrown by subscribing, and the depth of the stack
-/

namespace Rpp.Stack

variable {kind : Kind}

theorem exec_snoc (ls l) : exec kind (ls ++ [l]) = step kind (exec kind ls) l := by simp [exec]

theorem exec_inv (ls) : Inv kind (exec kind ls) := by
  induction ls using Sched.snoc_ind with
  | h0 =>
    constructor
    · intro _; trivial
    · intro p hp; cases hp
    · simp [exec, Over]
    · intro h; cases h
    · intro h; exact absurd rfl h
    · intro pre k r x post h; simp [exec] at h
    · intro x h; cases h
    · simp [exec]
    · intro f hf; cases hf
  | h1 ls l ih => rw [exec_snoc]; exact ih.step l

/-! ## C92 -/

/-- Every exception thrown while an observable is being subscribed reaches the subscriber. -/
theorem C92_reaches (hk : kind ≠ .concat) (ls : List Lbl) : AllReach kind (exec kind ls).log := by
  intro pre k r x post h
  obtain ⟨e, p, h1, h2 | ⟨_, h2, _⟩⟩ := (exec_inv (kind := kind) ls).reach pre k r x post h
  · exact ⟨e, p, h1, h2⟩
  · exact absurd h2 hk

/-- The process lives. -/
theorem C92_lives (hk : kind ≠ .concat) (ls : List Lbl) : Lives (exec kind ls).log := by
  intro x h
  exact hk ((exec_inv (kind := kind) ls).lives x h).1

/-- However many exceptions there are, the subscriber is told once at most that it is over. -/
theorem C92_once (ls : List Lbl) : ((exec kind ls).log.filterMap Ev.ends).length ≤ 1 := (exec_inv ls).once

/-- concat: all exceptions reach the subscriber as long as no observable has had to wait for another one. If one did, the exception thrown by subscribing a later one may end the process; those of the observable of observables never do. -/
theorem C92_concat_partial (ls : List Lbl) :
    (Ev.waits ∉ (exec .concat ls).log → AllReach .concat (exec .concat ls).log ∧ Lives (exec .concat ls).log) ∧
    (∀ pre k r x post, (exec .concat ls).log = pre ++ .threw k r x :: post →
      ∃ e post', post = e :: post' ∧ (Reaches .concat r x pre e ∨ (e = .died x ∧ r = .inner ∧ .waits ∈ pre))) := by
  have hi := exec_inv (kind := .concat) ls
  refine ⟨fun hw => ⟨?_, ?_⟩, ?_⟩
  · intro pre k r x post h
    obtain ⟨e, p, h1, h2 | ⟨_, _, _, h2⟩⟩ := hi.reach pre k r x post h
    · exact ⟨e, p, h1, h2⟩
    · exact absurd (by rw [h]; simp [h2]) hw
  · intro x h
    exact hw (hi.lives x h).2
  · intro pre k r x post h
    obtain ⟨e, p, h1, h2 | ⟨h2, _, h3, h4⟩⟩ := hi.reach pre k r x post h
    · exact ⟨e, p, h1, .inl h2⟩
    · exact ⟨e, p, h1, .inr ⟨h2, h3, h4⟩⟩

/-- concat ends the process: of two observables the second waits for the first; when the first completes (from a scheduler, say), the second is subscribed inside `on_completed`, which is noexcept, without a try block (concat.hpp 55-71, 151-160). -/
theorem C92_concat_refutes : ∃ ls : List Lbl, ¬ Lives (exec .concat ls).log := by
  refine ⟨[.start, .emit 0 .outer .next, .ret, .tick, .tick, .emit 0 .outer .next, .emit 0 .outer .completed, .ret, .emit 1 .inner .completed, .tick, .throw 7], ?_⟩
  intro h
  exact absurd (by decide) (h 7)

-- what the others do in that case
example : (exec (.cat (some 2)) [.start, .tick, .ret, .tick, .emit 0 .src .completed, .tick, .throw 7]).log =
    [.made 0 .src, .made 1 .src, .threw 1 .src 7, .told (some 7)] := by decide

example : (exec .merge [.start, .emit 0 .outer .next, .throw 7]).log =
    [.made 0 .outer, .made 1 .inner, .threw 1 .inner 7, .told (some 7)] := by decide

example : (exec (.retry (some 3)) [.start, .tick, .emit 0 .src (.error 1), .throw 7]).log =
    [.made 0 .src, .threw 0 .src 7, .told (some 7)] := by decide

example : (exec .resume [.start, .throw 7]).log = [.made 0 .src, .threw 0 .src 7, .out 7] := by decide

example : (exec .resume [.start, .emit 0 .src (.error 1), .throw 7]).log =
    [.made 0 .src, .made 1 .fall, .threw 1 .fall 7, .told (some 7)] := by decide

-- an exception after the end is dropped
example : (exec .retryWhen [.start, .tick, .emit 0 .src .completed, .throw 7]).log =
    [.made 0 .src, .told none, .threw 0 .src 7, .dropped 7] := by decide

-- concat without waiting
example : (exec .concat [.start, .emit 0 .outer .next, .throw 7]).log =
    [.made 0 .outer, .made 1 .inner, .threw 1 .inner 7, .told (some 7)] ∧
    Ev.waits ∉ (exec .concat [.start, .emit 0 .outer .next, .throw 7]).log := by decide

/-! ## C93 -/

theorem exec_flatC (hk : Plainly kind) (ls) : FlatC (exec kind ls) := by
  induction ls using Sched.snoc_ind with
  | h0 => exact ⟨by simp [exec], (fun h => by cases h), .idle (.inl rfl)⟩
  | h1 ls l ih => rw [exec_snoc]; exact ih.step (exec_inv ls) (exec_fresh ls) hk l

theorem exec_flatR (ls) : FlatR (exec .resume ls) := by
  induction ls using Sched.snoc_ind with
  | h0 => exact ⟨by simp [exec], (fun h => by cases h), .idle (.inl rfl)⟩
  | h1 ls l ih => rw [exec_snoc]; exact ih.step (exec_inv ls) (exec_fresh ls) l

theorem exec_flatK (ls) : FlatK (exec .concat ls) := by
  induction ls using Sched.snoc_ind with
  | h0 => exact ⟨by simp [exec, St.inn], (fun h => by cases h), fun _ => rfl, .idle (.inl rfl)⟩
  | h1 ls l ih => rw [exec_snoc]; exact ih.step (exec_inv ls) (exec_fresh ls) l

theorem Own.init {ls l} (h : Own kind (ls ++ [l])) : Own kind ls := by
  intro pre k r n post e
  exact h pre k r n (post ++ [l]) (by rw [e]; simp)

theorem exec_flatW (ls) (h : Own .retryWhen ls) : FlatW (exec .retryWhen ls) := by
  induction ls using Sched.snoc_ind with
  | h0 => exact ⟨by simp [exec], (fun h => by cases h), (fun p hp => by cases hp), .idle .nil⟩
  | h1 ls l ih =>
    rw [exec_snoc]
    refine (ih h.init).step (exec_inv ls) (exec_fresh ls) l ?_
    intro k r n e
    subst e
    exact h ls k r n [] rfl

/-- The operators which subscribe to one observable after another. -/
def Kind.sequential : Kind → Bool
  | .merge | .switch => false
  | _ => true

/-- How deep the stack may be: the program's own code included, but only what is mentioned in `Frame`. -/
def Kind.depth : Kind → Nat
  | .retryWhen => 9
  | .resume | .concat => 4
  | _ => 3

/-- However many attempts or observables there have been, and whether they ended inside `subscribe` or later: there are never more than nine frames on the stack (four or three for most operators), never two loops, and never two attempts being subscribed inside each other. (retry_when: if sources and notifiers, while being subscribed, notify their own observers only.) -/
theorem C93_depth (hk : kind.sequential) (ls : List Lbl) (hown : kind = .retryWhen → Own kind ls) :
    (exec kind ls).stack.length ≤ kind.depth ∧ (exec kind ls).stack.countP Frame.isLoop ≤ 1 ∧ (exec kind ls).stack.countP Frame.isAttempt ≤ 1 := by
  have plain : Plainly kind → (exec kind ls).stack.length ≤ 3 ∧ (exec kind ls).stack.countP Frame.isLoop ≤ 1 ∧ (exec kind ls).stack.countP Frame.isAttempt ≤ 1 := by
    intro hp
    rcases (exec_flatC hp ls).shape with (h1 | h1) | ⟨T, (rfl | rfl), h1, h2⟩ | ⟨T, (rfl | rfl), h1, h2⟩ | ⟨j, T, (rfl | rfl), h1, h2⟩ <;>
      rw [h1] <;> simp [Kind.depth, List.countP_cons, Frame.isLoop, Frame.isAttempt]
  cases kind with
  | cat n => exact plain trivial
  | retry n => exact plain trivial
  | retryWhen =>
    rcases (exec_flatW ls (hown rfl)).shape with h1 | ⟨h1, hj⟩ | ⟨T, hT, h1, h2⟩ | ⟨T, hT, h1, h2⟩ | ⟨j, T, hT, h1, h2⟩ | ⟨j, A, T, hT, hA, h1, h2, h3⟩
    · generalize (exec .retryWhen ls).stack = S at h1 ⊢
      cases h1 <;> simp [Kind.depth, List.countP_cons, Frame.isLoop, Frame.isAttempt]
    · generalize (exec .retryWhen ls).stack = S at h1 ⊢
      cases h1 <;> simp [Kind.depth, List.countP_cons, Frame.isLoop, Frame.isAttempt]
    · rw [h1]; cases hT <;> simp [Kind.depth, List.countP_cons, Frame.isLoop, Frame.isAttempt]
    · rw [h1]; cases hT <;> simp [Kind.depth, List.countP_cons, Frame.isLoop, Frame.isAttempt]
    · rw [h1]; cases hT <;> simp [Kind.depth, List.countP_cons, Frame.isLoop, Frame.isAttempt]
    · rw [h1]; cases hT <;> cases hA <;> simp [Kind.depth, List.countP_cons, Frame.isLoop, Frame.isAttempt]
  | resume =>
    rcases (exec_flatR ls).shape with h1 | ⟨T, hT, h1, h2⟩ | ⟨T, hT, h1, h2⟩ | ⟨j, T, hT, h1, h2⟩
    · rcases h1 with h1 | ⟨k, h1⟩ <;> rw [h1] <;> simp [Kind.depth, List.countP_cons, Frame.isLoop, Frame.isAttempt]
    all_goals rcases hT with rfl | ⟨k, rfl⟩ <;> rw [h1] <;> simp [Kind.depth, List.countP_cons, Frame.isLoop, Frame.isAttempt]
  | merge => cases hk
  | switch => cases hk
  | concat =>
    rcases (exec_flatK ls).shape with h1 | ⟨S, T, hS, hT, h1⟩ | ⟨S, T, hS, hT, h1, h2⟩ | ⟨S, T, hS, hT, h1, h2⟩ | ⟨j, S, T, hS, hT, h1, h2⟩
    · rcases h1 with h1 | ⟨k, h1⟩ <;> rw [h1] <;> simp [Kind.depth, List.countP_cons, Frame.isLoop, Frame.isAttempt]
    all_goals rcases hT with rfl | ⟨k, rfl⟩ <;> rcases hS with rfl | rfl <;> rw [h1] <;> simp [Kind.depth, List.countP_cons, Frame.isLoop, Frame.isAttempt]

/-- Attempts without end, each failing while being subscribed: two frames. -/
theorem C93_attempts (n : Nat) : ∃ ls : List Lbl,
    (exec (.retry none) ls).subs = n + 1 ∧ (exec (.retry none) ls).stack = [.body n .src, .loop true] := by
  have : ∃ ls : List Lbl, (exec (.retry none) ls).subs = n + 1 ∧ (exec (.retry none) ls).stack = [.body n .src, .loop true] ∧
      (exec (.retry none) ls).live = [(n, .src)] ∧ (exec (.retry none) ls).flag = true ∧ (exec (.retry none) ls).left = none ∧
      (exec (.retry none) ls).over = false ∧ (exec (.retry none) ls).dead = false := by
    induction n with
    | zero => exact ⟨[.start, .tick], by decide⟩
    | succ n ih =>
      obtain ⟨ls, h1, h2, h3, h4, h5, h6, h7⟩ := ih
      refine ⟨ls ++ [.emit n .src (.error 0), .ret, .tick], ?_⟩
      have e : exec (.retry none) (ls ++ [.emit n .src (.error 0), .ret, .tick]) =
          step (.retry none) (step (.retry none) (step (.retry none) (exec (.retry none) ls) (.emit n .src (.error 0))) .ret) .tick := by
        simp [exec]
      rw [e]
      generalize exec (.retry none) ls = s at *
      simp [step, h1, h2, h3, h4, h5, h6, h7, St.notify, St.again, St.endOf, St.turn, St.subscribe, St.push, St.say, Kind.isCat]
  obtain ⟨ls, h1, h2, _⟩ := this
  exact ⟨ls, h1, h2⟩

/-- To check `Own` for a given run. -/
def ownAt (kind : Kind) (ls : List Lbl) (i : Nat) : Bool :=
  match ls[i]?, (exec kind (ls.take i)).stack with
  | some (.emit k _ _), .body k' _ :: _ => k' == k
  | _, _ => true

theorem own_of {ls} (h : ∀ i, i < ls.length → ownAt kind ls i = true) : Own kind ls := by
  intro pre k r n post e k' r' fs hs
  have := h pre.length (by rw [e]; simp)
  have h1 : ls[pre.length]? = some (.emit k r n) := by rw [e]; simp
  have h2 : ls.take pre.length = pre := by rw [e]; simp
  simpa [ownAt, h1, h2, hs] using this

-- retry_when at its deepest: the notifier answers at once, the source fails again at once, the notifier's code is running
example : Own .retryWhen [.start, .tick, .ret, .tick, .emit 0 .src (.error 1), .emit 1 .notif .next, .tick, .emit 2 .src (.error 1)] ∧
    (exec .retryWhen [.start, .tick, .ret, .tick, .emit 0 .src (.error 1), .emit 1 .notif .next, .tick, .emit 2 .src (.error 1)]).stack.length = 9 := by
  exact ⟨own_of (by decide), by decide⟩

-- the condition on retry_when is needed: the code of a notifier which lets the source fail after having asked for it again goes deeper every time
example : (exec .retryWhen [.start, .tick, .ret, .tick, .emit 0 .src (.error 1), .emit 1 .notif .next, .tick, .ret, .tick, .tick,
    .emit 2 .src (.error 1), .emit 3 .notif .next, .tick, .ret, .tick, .tick, .emit 4 .src (.error 1)]).stack.length = 9 ∧
  ((exec .retryWhen [.start, .tick, .ret, .tick, .emit 0 .src (.error 1), .emit 1 .notif .next, .tick, .ret, .tick, .tick,
    .emit 2 .src (.error 1), .emit 3 .notif .next, .tick, .ret, .tick, .tick, .emit 4 .src (.error 1), .emit 5 .notif .next]).stack.length = 11) := by decide

end Rpp.Stack
