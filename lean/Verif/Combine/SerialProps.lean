import Verif.Combine.SerialProofs
import Verif.Combine.LocksProps

/-!
# C96: a subscriber's callbacks do not overlap

C96: the sources of a network run in any threads.  An observer (an operator's or a subscriber's) is never run by two threads at the
same time, if on the way to it all values pass an operator with several sources (merge, zip, combine_latest, with_latest_from,
take_until, switch_on_next, concat, timeout, window_toggle, debounce) or a serialized subject, and from there on a chain of
operators; or if they come from one thread in the first place.
-/

namespace Rpp.Locks

open Rpp.Emit (Instr Port)

/-- An observer that is serial by the rules of `Serial` is run by one thread at a time. -/
theorem C96_serial (net : Net) (progs : List (List Target)) (x : Node) (hx : Serial net progs x) (sched : List Nat) (t u : Nat)
    (ht : Runs (run net progs sched) x t) (hu : Runs (run net progs sched) x u) : t = u :=
  serial (Inv2.run sched) hx t u ht hu

theorem lockedBy_downs (m : Nat) (c : List Instr) : ∀ n, lockedBy m (List.replicate n .down ++ c) true = lockedBy m c true
  | 0 => rfl
  | n + 1 => by
    simp only [List.replicate_succ, List.cons_append, lockedBy, Bool.true_and]
    exact lockedBy_downs m c n

theorem lockedBy_maps (m : Nat) (c : List Instr) (f : Nat → Instr) (hf : ∀ i, f i = .lock (i + 1) ∨ f i = .unlock (i + 1)) (hm : m = 0) :
    ∀ (l : List Nat) (h : Bool), lockedBy m (l.map f ++ c) h = lockedBy m c h
  | [], _ => rfl
  | i :: l, h => by
    subst hm
    rcases hf i with e | e <;> simp only [List.map_cons, List.cons_append, e, lockedBy] <;> simp [lockedBy_maps 0 c f hf rfl l]

/-- The operators with several sources notify under their mutex `0`, whichever source the notification comes from. -/
theorem C96_operators (e : Entry) (he : (∃ p, e = .next p ∧ p ≠ .plain ∧ (∀ n, p ≠ .subject n) ∧ (∀ n, p ≠ .serializedSubject n)) ∨
    (∃ n, e = .guarded n) ∨ e = .takeUntil ∨ e = .debounceFire ∨ e = .debounceEnd) : e.lockedBy 0 = true := by
  rcases he with ⟨p, rfl, h1, h2, h3⟩ | ⟨n, rfl⟩ | rfl | rfl | rfl
  · cases p with
    | plain => exact absurd rfl h1
    | subject n => exact absurd rfl (h2 n)
    | serializedSubject n => exact absurd rfl (h3 n)
    | zip d => cases d <;> rfl
    | combineLatest d => cases d <;> rfl
    | latestMain n d =>
      simp only [Entry.lockedBy, Entry.code, Port.code, List.append_assoc]
      rw [lockedBy_maps 0 _ _ (fun i => .inl rfl) rfl, lockedBy_maps 0 _ _ (fun i => .inr rfl) rfl]
      cases d <;> rfl
    | latestOther i => simp [Entry.lockedBy, Entry.code, Port.code, lockedBy]
    | windowToggle n => simp [Entry.lockedBy, Entry.code, Port.code, lockedBy, lockedBy_downs]
    | _ => rfl
  · simp [Entry.lockedBy, Entry.code, lockedBy, lockedBy_downs]
  · rfl
  · rfl
  · rfl

/-- A serialized subject notifies under its mutex `1`. -/
theorem C96_subjects (e : Entry) (he : (∃ n, e = .next (.serializedSubject n)) ∨ ∃ n, e = .subjectEnd true n 0) : e.lockedBy 1 = true := by
  rcases he with ⟨n, rfl⟩ | ⟨n, rfl⟩
  · simp [Entry.lockedBy, Entry.code, Port.code, lockedBy, lockedBy_downs]
  · simp [Entry.lockedBy, Entry.code, lockedBy, lockedBy_downs]

/-! ## Examples -/

/-- Two sources in two threads, merged, and then a chain of `map` and a subscriber: object `2` is merge, `3` is map; models no
code of its own. -/
def chainNet : Net where
  next := fun i e _ =>
    match i, e with
    | 2, .next .merge | 2, .guarded _ => some (.fn 3 (.calls 1))
    | 3, .calls _ => some (.user 0)
    | _, _ => none
  user := fun _ _ => []

/-- Their threads: a value and the end of the first source, a value of the second; models no code. -/
def chainProgs : List (List Target) := [[.fn 2 (.next .merge), .fn 2 (.guarded 1)], [.fn 2 (.next .merge)]]

theorem chain_serial : Serial chainNet chainProgs (.sub 0) := by
  refine .after 3 ⟨?_, ?_, ?_⟩ (.guarded 2 0 ⟨?_, ?_, ?_⟩)
  · intro j e k y h hy
    simp only [chainNet] at h
    split at h
    · cases h; cases hy
    · cases h; cases hy
    · exact ⟨rfl, rfl⟩
    · cases h
  · intro u k y h; cases h
  · intro p hp y hy
    simp only [chainProgs, List.mem_cons, List.not_mem_nil, or_false] at hp
    rcases hp with rfl | rfl <;> simp only [List.mem_cons, List.not_mem_nil, or_false] at hy
    · rcases hy with rfl | rfl <;> decide
    · subst hy; decide
  · intro j e k y h hy
    simp only [chainNet] at h
    split at h
    · exact ⟨rfl, rfl⟩
    · exact ⟨rfl, C96_operators _ (.inr (.inl ⟨_, rfl⟩))⟩
    · cases h; cases hy
    · cases h
  · intro u k y h; cases h
  · intro p hp y hy
    simp only [chainProgs, List.mem_cons, List.not_mem_nil, or_false] at hp
    rcases hp with rfl | rfl <;> simp only [List.mem_cons, List.not_mem_nil, or_false] at hy
    · rcases hy with rfl | rfl <;> decide
    · subst hy; decide

/-- The subscriber runs in thread `0`; thread `1` is in merge, too, and waits. -/
example : Runs (run chainNet chainProgs [0, 0, 0, 0, 1, 1]) (.sub 0) 0 ∧ Runs (run chainNet chainProgs [0, 0, 0, 0, 1, 1]) (.obj 2) 1 ∧
    Runs (run chainNet chainProgs [0, 0, 0, 0, 1, 1]) (.obj 2) 0 ∧ Waits (run chainNet chainProgs [0, 0, 0, 0, 1, 1]) 1 0 :=
  ⟨⟨_, List.mem_cons_self .., rfl⟩, ⟨_, List.mem_cons_self .., rfl⟩, ⟨.fn 2 (.next .merge) [.unlock 0] [0], by decide, rfl⟩,
    ⟨2, _, 0, _, _, _, rfl, rfl⟩⟩

/-- … and later the subscriber runs in thread `1`. -/
example : Runs (run chainNet chainProgs (List.replicate 8 0 ++ [1, 1, 1, 1])) (.sub 0) 1 := ⟨_, List.mem_cons_self .., rfl⟩

/-- A publish_subject with a subscriber; models no code of its own. -/
def plainNet : Net where
  next := fun i _ _ => if i = 0 then some (.user 0) else none
  user := fun _ _ => []

/-- Two threads emitting into a subject that is not serialized are both in its subscriber's callback: the rules of `Serial` do not
apply to it. -/
example : Runs (run plainNet [[.fn 0 (.next (.subject 1))], [.fn 0 (.next (.subject 1))]] [0, 0, 0, 0, 1, 1, 1, 1]) (.sub 0) 0 ∧
    Runs (run plainNet [[.fn 0 (.next (.subject 1))], [.fn 0 (.next (.subject 1))]] [0, 0, 0, 0, 1, 1, 1, 1]) (.sub 0) 1 :=
  ⟨⟨_, List.mem_cons_self .., rfl⟩, ⟨_, List.mem_cons_self .., rfl⟩⟩

/-- With a serialized subject the second one waits. -/
example : Runs (run plainNet [[.fn 0 (.next (.serializedSubject 1))], [.fn 0 (.next (.serializedSubject 1))]] [0, 0, 0, 0, 0, 1, 1, 1, 1])
      (.sub 0) 0 ∧
    Waits (run plainNet [[.fn 0 (.next (.serializedSubject 1))], [.fn 0 (.next (.serializedSubject 1))]] [0, 0, 0, 0, 0, 1, 1, 1, 1]) 1 0 :=
  ⟨⟨_, List.mem_cons_self .., rfl⟩, ⟨0, _, 1, _, _, _, rfl, rfl⟩⟩

end Rpp.Locks
