import Verif.Combine.Flag
import Verif.Combine.SerialProps

/-!
# C97: the disposed flag of a subscriber is not raced on
-/

namespace Rpp.Flag

open Rpp.Locks Rpp.Capacity

/-- A chain of passing operators under a shared source has the atomic flag. -/
theorem shared_atomic (o : Obsv) (h : ∀ k ∈ (path o).1, k = .pass) (hs : (path o).2 = .shared) : atomic o = true := by
  induction o with
  | fwd op o ih => cases op <;> first | (exact ih (fun k hk => h k (List.mem_cons_of_mem _ hk)) hs) | (exact ih h hs)
  | «defer» o ih => exact ih h hs
  | blocking o ih => exact ih h hs
  | «finally» o ih => exact ih h hs
  | debounce o ih => exact absurd (h .locks (List.mem_cons_self ..)) (by decide)
  | own op o ih =>
    cases op <;> first | (exact absurd (h .locks (List.mem_cons_self ..)) (by decide)) | (cases hs)
  | dflt op o ih => rfl
  | _ => first | rfl | (cases hs)

/-- The observer above which only passing operators are, up to one that is called by one thread at a time. -/
theorem down_serial {o : Obsv} {net : Net} {progs : List (List Target)} (w : Wired o net progs) :
    ∀ d, d ≤ (path o).1.length → (∀ c, c < d → (path o).1[c]? = some .pass) → Serial net progs (.obj d) → Serial net progs (.obj 0)
  | 0, _, _, h => h
  | d + 1, hl, hp, h => by
    have hd := hp d (Nat.lt_succ_self d)
    refine down_serial w d (Nat.le_of_succ_le hl) (fun c hc => hp c (Nat.lt_succ_of_lt hc)) (.after (d + 1) ⟨?_, ?_, ?_⟩ h)
    · intro j e k y hy hn
      obtain ⟨h1, h2⟩ := w.fn d j e k y hy hn (by omega)
      refine ⟨h1, ?_⟩
      rw [hd] at h2
      rcases h2 with ⟨-, h⟩ | ⟨h, -⟩ | h
      · exact h
      · cases h
      · cases h
    · intro u k y hy hn; have := w.user d u k y hy hn; omega
    · intro p hp' y hy hn
      obtain ⟨r, hr⟩ := List.mem_iff_getElem?.1 hp'
      rcases w.prog d r p hr y hy hn with ⟨h1, -⟩ | ⟨c, rfl, h1⟩ | h1
      · omega
      · rw [hp c (by omega)] at h1; rcases h1 with h1 | h1 <;> cases h1
      · omega

/-- The first operator that is not a passing one, or the source. -/
theorem first_kind (l : List Kind) : (∀ k ∈ l, k = .pass) ∨
    ∃ (d : Nat) (k : Kind), l[d]? = some k ∧ k ≠ .pass ∧ l.find? (· != .pass) = some k ∧ ∀ c, c < d → l[c]? = some Kind.pass := by
  induction l with
  | nil => exact .inl (fun k hk => by cases hk)
  | cons x l ih =>
    by_cases hx : x = .pass
    · subst hx
      rcases ih with h | ⟨d, k, h1, h2, h3, h4⟩
      · exact .inl (fun k hk => by rcases List.mem_cons.1 hk with rfl | hk; · rfl
                                   · exact h k hk)
      · refine .inr ⟨d + 1, k, by simpa using h1, h2, by simpa [List.find?_cons] using h3, fun c hc => ?_⟩
        cases c with
        | zero => rfl
        | succ c => simpa using h4 c (Nat.lt_of_succ_lt_succ hc)
    · refine .inr ⟨0, x, rfl, hx, ?_, fun c hc => by omega⟩
      simp [hx]

/-- Not behind a delay, a subscriber's observer is run by one thread at a time, or its flag is atomic. -/
theorem serial_or_atomic {o : Obsv} {net : Net} {progs : List (List Target)} (w : Wired o net progs) (h : behindDelay o = false) :
    Serial net progs (.obj 0) ∨ atomic o = true := by
  rcases first_kind (path o).1 with hall | ⟨d, k, h1, h2, h3, h4⟩
  · cases hs : (path o).2 with
    | shared => exact .inr (shared_atomic o hall hs)
    | alone =>
      refine .inl (down_serial w (path o).1.length (Nat.le_refl _) (fun c hc => ?_) (.thread 0 ⟨?_, ?_, ?_⟩))
      · rw [List.getElem?_eq_getElem hc]; exact congrArg some (hall _ (List.getElem_mem hc))
      · intro j e k y hy hn
        obtain ⟨-, h2⟩ := w.fn _ j e k y hy hn (Nat.le_refl _)
        rw [List.getElem?_eq_none (Nat.le_refl _)] at h2
        rcases h2 with ⟨h, -⟩ | ⟨h, -⟩ | h <;> cases h
      · intro u k y hy hn; have := w.user _ u k y hy hn; omega
      · intro r p hr y hy hn
        rcases w.prog _ r p hr y hy hn with ⟨-, h1⟩ | ⟨c, hc, h1⟩ | h1
        · rcases h1 with h1 | h1
          · exact h1
          · rw [hs] at h1; cases h1
        · have hlt : c < (path o).1.length := by omega
          rw [List.getElem?_eq_getElem hlt, hall _ (List.getElem_mem hlt)] at h1
          rcases h1 with h1 | h1 <;> cases h1
        · omega
  · have hd : d < (path o).1.length := (List.getElem?_eq_some_iff.1 h1).1
    have hk : k = .locks := by
      cases k with
      | pass => exact absurd rfl h2
      | locks => rfl
      | hand => rw [behindDelay, h3] at h; cases h
    subst hk
    refine .inl (down_serial w d (Nat.le_of_lt hd) h4 (.guarded (d + 1) 0 ⟨?_, ?_, ?_⟩))
    · intro j e k y hy hn
      obtain ⟨h5, h6⟩ := w.fn d j e k y hy hn (by omega)
      refine ⟨h5, ?_⟩
      rw [h1] at h6
      rcases h6 with ⟨h, -⟩ | ⟨-, h⟩ | h
      · cases h
      · exact h
      · cases h
    · intro u k y hy hn; have := w.user d u k y hy hn; omega
    · intro p hp' y hy hn
      obtain ⟨r, hr⟩ := List.mem_iff_getElem?.1 hp'
      rcases w.prog d r p hr y hy hn with ⟨h5, -⟩ | ⟨c, rfl, h5⟩ | h5
      · omega
      · rw [h4 c (by omega)] at h5; rcases h5 with h5 | h5 <;> cases h5
      · omega

theorem Tests.runs {s : St} {t : Nat} (h : Tests s t) : Runs s (.obj 0) t := by
  obtain ⟨e, fs, h, he⟩ := h
  exact ⟨_, by rw [h]; exact List.mem_cons_self .., by simp [Frame.node, he]⟩

theorem Sets.runs {s : St} {t : Nat} (h : Sets s t) : Runs s (.obj 0) t := by
  obtain ⟨fs, h⟩ := h
  exact ⟨_, by rw [h]; exact List.mem_cons_self .., rfl⟩

/-- C97, in part: in a chain of operators whose sources run in any threads there is no data race on the subscriber's flag, unless the
nearest operator above the subscriber that does not just pass calls on is delay or observe_on and the flag is not atomic. Missing: that
case, see `C97_refutes`. -/
theorem C97_partial (o : Obsv) (h : behindDelay o = false ∨ atomic o = true) (net : Net) (progs : List (List Target))
    (w : Wired o net progs) (sched : List Nat) : ¬ Race o (run net progs sched) := by
  rintro ⟨ha, t, u, hne, ht, hu⟩
  have hs : Serial net progs (.obj 0) := by
    rcases h with h | h
    · rcases serial_or_atomic w h with h | h
      · exact h
      · rw [ha] at h; cases h
    · rw [ha] at h; cases h
  exact hne (serial (Inv2.run sched) hs t u ht.runs (by rcases hu with hu | hu <;> exact hu.runs))

/-! ## The race -/

/-- `from(…) | observe_on(scheduler) | take(1)`; models no code of its own. -/
def delayed : Obsv := .fwd .take (.fwd .delayOp .from)

/-- Its network. Object `2` is observe_on: the worker's thread calls `take`'s observer (`calls 3`: `is_disposed`, `on_next`,
`on_completed`), the source's `is_disposed` asks take's (`calls 1`), which asks the subscriber's; object `3` is the worker's queue.
Models no code of its own. -/
def delayedNet : Net where
  next := fun i e k =>
    match i, e with
    | 2, .delayPut => some (.fn 3 .put)
    | 2, .delayDrain _ => some (.fn 1 (.calls 3))
    | 2, .calls _ => some (.fn 1 (.calls 1))
    | 1, .calls 1 => some (.fn 0 (.calls 0))
    | 1, .calls 3 => some (.fn 0 (.calls (if k ≤ 8 then 0 else if k ≤ 9 then 1 else 2)))
    | 0, .calls _ => if k ≤ 12 then some (.user 0) else none
    | _, _ => none
  user := fun _ _ => []

/-- The source's thread: `is_disposed`, `on_next`, twice (from.hpp's loop); the worker's. Models no code of its own. -/
def delayedProgs : List (List Target) :=
  [[.fn 2 (.calls 1), .fn 2 .delayPut, .fn 2 (.calls 1), .fn 2 .delayPut], [.fn 2 (.delayDrain 1)]]

theorem delayed_wired : Wired delayed delayedNet delayedProgs := by
  refine ⟨?_, ?_, ?_⟩
  · intro d j e k y hy hn _
    simp only [delayedNet] at hy
    split at hy
    · cases hy; cases hn
    · cases hy; cases hn; exact ⟨rfl, .inr (.inr rfl)⟩
    · cases hy; cases hn; exact ⟨rfl, .inr (.inr rfl)⟩
    · cases hy; cases hn; exact ⟨rfl, .inl ⟨rfl, rfl⟩⟩
    · cases hy; cases hn; exact ⟨rfl, .inl ⟨rfl, rfl⟩⟩
    · split at hy
      · cases hy; cases hn
      · cases hy
    · cases hy
  · intro d u k y hy; cases hy
  · intro d r p hp y hy hn
    match r, hp with
    | 0, hp =>
      cases hp
      simp only [List.mem_cons, List.not_mem_nil, or_false] at hy
      rcases hy with rfl | rfl | rfl | rfl <;> cases hn <;> exact .inl ⟨rfl, .inl rfl⟩
    | 1, hp =>
      cases hp
      simp only [List.mem_cons, List.not_mem_nil, or_false] at hy
      subst hy; cases hn; exact .inr (.inl ⟨1, rfl, .inr rfl⟩)

/-- The source has emitted its first value and goes on to the next; the worker delivers the first, and take completes. -/
def delayedSched : List Nat := List.replicate 15 0 ++ List.replicate 13 1 ++ [0, 0]

/-- C97 fails for `from(1, 2) | observe_on(new_thread) | take(1)`: the source's thread asks whether the subscriber is disposed while the
worker's marks it disposed, and the flag is a plain `bool`. -/
theorem C97_refutes : ∃ o net progs sched, Wired o net progs ∧ Race o (run net progs sched) :=
  ⟨delayed, delayedNet, delayedProgs, delayedSched, delayed_wired, rfl, 1, 0, by decide, ⟨_, rfl⟩, .inl ⟨.calls 0, _, rfl, rfl⟩⟩

/-! ## The conditions can be met -/

/-- `interval | merge_with(…) | map`: not atomic, and not behind a delay; the network is `chainNet`'s with the subscriber's observer in
between. -/
def merged : Obsv := .fwd .map (.own .mergeWith .interval)

/-- Object `2` is merge, `1` map, `0` the subscriber's observer; models no code of its own. -/
def mergedNet : Net where
  next := fun i e k =>
    match i, e with
    | 2, .next .merge => some (.fn 1 (.calls 1))
    | 2, .guarded _ => some (.fn 1 (.calls 2))
    | 1, .calls n => some (.fn 0 (.calls n))
    | 0, .calls _ => if k ≤ 3 then some (.user 0) else none
    | _, _ => none
  user := fun _ _ => []

/-- The two sources, each in a thread of its own; models no code. -/
def mergedProgs : List (List Target) := [[.fn 2 (.guarded 1)], [.fn 2 (.next .merge)]]

theorem merged_wired : Wired merged mergedNet mergedProgs := by
  refine ⟨?_, ?_, ?_⟩
  · intro d j e k y hy hn _
    simp only [mergedNet] at hy
    split at hy
    · cases hy; cases hn; exact ⟨rfl, .inr (.inl ⟨rfl, rfl⟩)⟩
    · cases hy; cases hn; exact ⟨rfl, .inr (.inl ⟨rfl, C96_operators _ (.inr (.inl ⟨_, rfl⟩))⟩)⟩
    · cases hy; cases hn; exact ⟨rfl, .inl ⟨rfl, rfl⟩⟩
    · split at hy
      · cases hy; cases hn
      · cases hy
    · cases hy
  · intro d u k y hy; cases hy
  · intro d r p hp y hy hn
    match r, hp with
    | 0, hp =>
      cases hp
      simp only [List.mem_cons, List.not_mem_nil, or_false] at hy
      subst hy; cases hn; exact .inl ⟨rfl, .inl rfl⟩
    | 1, hp =>
      cases hp
      simp only [List.mem_cons, List.not_mem_nil, or_false] at hy
      subst hy; cases hn; exact .inr (.inl ⟨1, rfl, .inl rfl⟩)

example : behindDelay merged = false ∧ atomic merged = false := ⟨rfl, rfl⟩

/-- The first source's thread is about to set the flag; the second waits in merge. -/
example : Sets (run mergedNet mergedProgs [0, 0, 0, 0, 0, 0, 1, 1]) 0 ∧ Waits (run mergedNet mergedProgs [0, 0, 0, 0, 0, 0, 1, 1]) 1 0 :=
  ⟨⟨_, rfl⟩, ⟨_, _, _, _, _, _, rfl, rfl⟩⟩

/-- Whose observers any thread may call: those of `create`, of subjects, and what `on_error_resume_next` subscribes. -/
example : (path .create).2 = .shared ∧ (path .subject).2 = .shared ∧ (path (.dflt .onErrorResumeNext .from)).2 = .shared ∧
    (path .from).2 = .alone := ⟨rfl, rfl, rfl, rfl⟩

/-- Behind a delay the flag is atomic if it is above it, for example for a subject. -/
example : behindDelay (.fwd .take (.fwd .delayOp .subject)) = true ∧ atomic (.fwd .take (.fwd .delayOp .subject)) = true := ⟨rfl, rfl⟩

end Rpp.Flag
