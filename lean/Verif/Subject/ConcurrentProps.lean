import Verif.Subject.SerializedProofs

/-!
# C45, C46, C47: subjects under concurrent and re-entrant use

The theorems speak about the history `(exec C ls).log` of an arbitrary list `ls` of steps.  "Before" is
written with explicit splittings `log = pre ++ ev :: post`.
-/

namespace Rpp.Subj.Conc
open Rpp.Subj

variable {α ε σ : Type} [DecidableEq α] [DecidableEq ε]

/-! ## C47 -/

/-- C47: an emission (call `i`, value `w`) calls an observer only with its own value, only if the observer was
registered when the emission looked at the list, at most once, and not after the observer was disposed.
Missing for the full C47: see `C47_iterators_refutes`. -/
theorem C47_only_subscribed_partial (C : Cfg α σ) (ls : List (Lbl α ε)) (pre post : List (Ev α ε)) (i k : Nat) (v w : α)
    (hem : .emit i w ∈ pre) (hlog : (exec C ls).log = pre ++ .beg i k (.next v) :: post) :
    v = w ∧ (∃ a b l, pre = a ++ .snap i v l :: b ∧ .reg k ∈ a) ∧ Ev.gone k ∉ pre ∧ ∀ c, Ev.beg i k c ∉ pre := by
  have hi' := inv C ls
  have huniq : ∀ {x y : List (Ev α ε)} {u}, (exec C ls).log = x ++ .emit i u :: y → ∀ ev ∈ x, ev.call ≠ some i :=
    fun h => hi'.legal _ _ _ h
  obtain ⟨h1, h2⟩ := hi'.legal _ _ _ hlog
  rcases h2 with ⟨rfl, h2, d, n, vs, h3, h4⟩ | ⟨l, h2, h3, h4⟩
  · -- a subscription is not an emission
    exfalso
    obtain ⟨a, b, rfl⟩ := List.append_of_mem h3
    have h5 := (hi'.legal a (.read i d n vs) (b ++ .beg i i (.next v) :: post) (by simp [hlog])).2
    simp only [List.mem_append, List.mem_cons] at hem
    rcases hem with hem | hem | hem
    · exact h5 _ hem rfl
    · simp at hem
    · obtain ⟨x, y, rfl⟩ := List.append_of_mem hem
      exact huniq (x := a ++ .read i d n vs :: x) (y := y ++ .beg i i (.next v) :: post) (u := w) (by simp [hlog])
        (.read i d n vs) (by simp) rfl
  · obtain ⟨a, b, rfl⟩ := List.append_of_mem h2
    have h5 := hi'.legal a (.snap i v l) (b ++ .beg i k (.next v) :: post) (by simp [hlog])
    obtain ⟨⟨n, h6⟩, -, h7, -⟩ := h5
    have hv : .emit i v ∈ a := by
      obtain ⟨x, y, rfl⟩ := List.append_of_mem h6
      have := (hi'.legal x (.stored i v n) (y ++ .snap i v l :: b ++ .beg i k (.next v) :: post) (by simp [hlog])).1
      simp [this]
    refine ⟨?_, ⟨a, b, l, rfl, mem_regs.1 (h7.subset h3)⟩, h1, h4⟩
    obtain ⟨x, y, rfl⟩ := List.append_of_mem hv
    have h8 := huniq (x := x) (y := y ++ .snap i v l :: b ++ .beg i k (.next v) :: post) (u := v) (by simp [hlog])
    simp only [List.append_assoc, List.cons_append, List.mem_append, List.mem_cons] at hem
    rcases hem with hem | hem | hem
    · exact absurd rfl (h8 _ hem)
    · simpa using hem.symm
    · exfalso
      obtain ⟨x', y', hxy⟩ := List.append_of_mem (show Ev.emit i w ∈ y ++ .snap i v l :: b by simpa using hem)
      refine huniq (x := x ++ .emit i v :: x') (y := y' ++ .beg i k (.next v) :: post) (u := w) ?_ (.emit i v) (by simp) rfl
      rw [hlog]
      have : y ++ .snap i v l :: (b ++ .beg i k (.next v) :: post) = x' ++ .emit i w :: (y' ++ .beg i k (.next v) :: post) := by
        rw [show y ++ .snap i v l :: (b ++ .beg i k (.next v) :: post) = (y ++ .snap i v l :: b) ++ .beg i k (.next v) :: post by simp, hxy]
        simp
      simp [this]

/-- C47: when an emission returns, every observer that was registered when the emission looked at the list has
been called with the value or has been disposed. -/
theorem C47_all_subscribed_partial (C : Cfg α σ) (ls : List (Lbl α ε)) (a b post : List (Ev α ε)) (i k : Nat) (v : α)
    (l : List Nat) (hlog : (exec C ls).log = a ++ .snap i v l :: b ++ .done i :: post) (hk : .reg k ∈ a) :
    .beg i k (.next v) ∈ b ∨ .gone k ∈ a ++ b := by
  have hi := inv C ls
  have h1 := hi.legal a (.snap i v l) (b ++ .done i :: post) (by simp [hlog])
  have h2 := hi.legal (a ++ .snap i v l :: b) (.done i) post hlog
  rcases h1.2.2.2.1 k hk with h3 | h3
  · rcases h2 v l (by simp) k h3 with h4 | h4
    · left
      simp only [List.mem_append, List.mem_cons] at h4
      rcases h4 with h4 | h4 | h4
      · exact absurd h4 (h1.2.2.2.2 _ _)
      · simp at h4
      · exact h4
    · right
      simp only [List.mem_append, List.mem_cons] at h4 ⊢
      simpa using h4
  · right; simp [h3]

/-- C47: an emission visits the observers in the order of their registration. -/
theorem C47_order (C : Cfg α σ) (ls : List (Lbl α ε)) (pre post : List (Ev α ε)) (i : Nat) (v : α)
    (l : List Nat) (hlog : (exec C ls).log = pre ++ .snap i v l :: post) : l.Sublist (regs pre) ∧ l.Nodup := by
  have hi := inv C ls
  have h1 := hi.legal _ _ _ hlog
  refine ⟨h1.2.2.1, ?_⟩
  have h2 := hi.uniq
  rw [hlog, show regs (pre ++ .snap i v l :: post) = regs pre ++ regs post by simp [regs]] at h2
  exact h1.2.2.1.nodup (List.nodup_append.1 h2).1

/-- A publish subject; serialized or not. -/
abbrev pub (b : Bool) : Cfg Nat Unit := ⟨b, publish⟩

/-- Steps of call `i`. -/
def runs {α ε : Type} (i n : Nat) : List (Lbl α ε) := List.replicate n (.run i 0)

/-- Non-vacuity: observers 1 and 2; the callback of 1 disposes 2 and subscribes 3. Observer 1 gets the value,
2 and 3 do not; observer 3 gets the next value. -/
example : (exec (ε := Unit) (pub false) ([.sub 1] ++ runs 1 3 ++ [.sub 2] ++ runs 2 3 ++
      [.next 10 7] ++ runs 10 4 ++ [.gone 2, .clean 2, .sub 3] ++ runs 3 3 ++ [.ret 10 .ok] ++ runs 10 2 ++
      [.next 11 8] ++ runs 11 4 ++ [.ret 11 .ok] ++ runs 11 1 ++ [.ret 11 .ok] ++ runs 11 1)).log =
    [.read 1 false 0 [], .reg 1, .read 2 false 0 [], .reg 2, .emit 10 7, .stored 10 7 0, .snap 10 7 [1, 2],
     .beg 10 1 (.next 7), .gone 2, .read 3 false 0 [], .reg 3, .fin 10 1, .done 10,
     .emit 11 8, .stored 11 8 0, .snap 11 8 [1, 3], .beg 11 1 (.next 8), .fin 11 1, .beg 11 3 (.next 8), .fin 11 3,
     .done 11] := by decide

/-- C47, the part that fails: `on_subscribe` appends to the deque (subject_state.hpp 96) that a running
`on_next` walks with iterators taken before (124-130); `emplace_back` invalidates them (C++ standard, deque
modifiers). So a subscription made by a callback is undefined behaviour. -/
theorem C47_iterators_refutes : ∃ ls : List (Lbl Nat Unit), .ub 2 ∈ (exec (pub false) ls).log ∧
    (exec (pub false) ls).calls 10 = .work (.nxt 7 [1] 0) [] (.inCb 1 (.next 7)) :=
  ⟨[.sub 1] ++ runs 1 3 ++ [.next 10 7] ++ runs 10 4 ++ [.sub 2] ++ runs 2 3, by decide, by decide⟩

/-! ## C46 -/

/-- C46: callbacks of one observer never overlap, and callbacks made by `on_next`, `on_error` and
`on_completed` of a serialized subject never overlap at all. Missing for the full C46: see
`C46_late_refutes`. -/
theorem C46_no_overlap_partial (C : Cfg α σ) (hC : C.serialized = true) (ls : List (Lbl α ε)) (pre post : List (Ev α ε))
    (i k : Nat) (c : Sig α ε) (hlog : (exec C ls).log = pre ++ .beg i k c :: post) :
    (∀ j, ¬ Open pre j k) ∧ (Emission pre i → ∀ j m, Emission pre j → ¬ Open pre j m) :=
  have h := (sinv hC ls).legal _ _ _ hlog
  ⟨h.1, h.2.2⟩

/-- C46: no callback of an observer follows its terminal callback. -/
theorem C46_nothing_after_terminal (C : Cfg α σ) (hC : C.serialized = true) (ls : List (Lbl α ε))
    (pre post : List (Ev α ε)) (i k : Nat) (c : Sig α ε) (hlog : (exec C ls).log = pre ++ .beg i k c :: post) :
    ∀ j t, Ev.beg j k (.term t) ∉ pre :=
  ((sinv hC ls).legal _ _ _ hlog).2.1

/-- Non-vacuity: two threads emit at the same time; the second waits. -/
example : (exec (ε := Unit) (pub true) ([.sub 1] ++ runs 1 3 ++
      [.next 10 7, .finish 11 .completed] ++ runs 10 4 ++ runs 11 3 ++ [.ret 10 .ok] ++ runs 10 1 ++ runs 11 3)).log =
    [.read 1 false 0 [], .reg 1, .emit 10 7, .finish 11 .completed, .stored 10 7 0, .snap 10 7 [1],
     .beg 10 1 (.next 7), .fin 10 1, .done 10, .beg 11 1 (.term .completed)] := by decide

/-- C46, the part that fails: an observer that subscribes after the end is told so without the serialized
mutex (subject_state.hpp 101-108), while callbacks of other observers may be running. -/
theorem C46_late_refutes : ∃ ls : List (Lbl Nat Unit),
    Open (exec (pub true) ls).log 10 1 ∧ Open (exec (pub true) ls).log 2 2 := by
  refine ⟨[.sub 1] ++ runs 1 3 ++ [.finish 10 .completed] ++ runs 10 3 ++ [.sub 2] ++ runs 2 4,
    ⟨[.read 1 false 0 [], .reg 1, .finish 10 .completed], .term .completed,
      [.read 2 false 0 [], .beg 2 2 (.term .completed)], by decide, by decide⟩,
    ⟨[.read 1 false 0 [], .reg 1, .finish 10 .completed, .beg 10 1 (.term .completed), .read 2 false 0 []],
      .term .completed, [], by decide, by decide⟩⟩

/-- C46, the same for the value a behavior subject repeats to a new observer (behavior_subject.hpp 84-95). -/
theorem C46_replay_refutes : ∃ ls : List (Lbl Nat Unit),
    Open (exec ⟨true, behavior 0⟩ ls).log 10 1 ∧ Open (exec ⟨true, behavior 0⟩ ls).log 2 2 := by
  refine ⟨[.sub 1] ++ runs 1 2 ++ [.ret 1 .ok] ++ runs 1 2 ++ [.next 10 5] ++ runs 10 4 ++ [.sub 2] ++ runs 2 2,
    ⟨[.read 1 false 0 [0], .beg 1 1 (.next 0), .fin 1 1, .reg 1, .emit 10 5, .stored 10 5 0, .snap 10 5 [1]], .next 5,
      [.read 2 false 0 [5], .beg 2 2 (.next 5)], by decide, by decide⟩,
    ⟨[.read 1 false 0 [0], .beg 1 1 (.next 0), .fin 1 1, .reg 1, .emit 10 5, .stored 10 5 0, .snap 10 5 [1],
      .beg 10 1 (.next 5), .read 2 false 0 [5]], .next 5, [], by decide, by decide⟩⟩

/-! ## C45 -/

/-- The values stored so far, in order. -/
def storedVals (log : List (Ev α ε)) : List α := log.filterMap fun | .stored _ v _ => some v | _ => none

theorem snoc_induction {β : Type} {P : List β → Prop} (h0 : P []) (h1 : ∀ l a, P l → P (l ++ [a])) (l : List β) : P l := by
  rw [← List.reverse_reverse l]
  generalize l.reverse = m
  induction m with
  | nil => exact h0
  | cons a m ih => rw [List.reverse_cons]; exact h1 _ _ ih

theorem storeOf_replay (log : List (Ev α ε)) :
    storeOf (replay none none) log = (storedVals log).map fun v => ((0 : Int), v) := by
  induction log using snoc_induction with
  | h0 => rfl
  | h1 l a ih =>
    rw [storeOf_snoc, ih]
    cases a <;> simp [replay, storedVals, List.filterMap_append, List.filterMap_cons]

theorem storeOf_behavior (v0 : α) (log : List (Ev α ε)) :
    storeOf (behavior v0) log = (storedVals log).getLastD v0 := by
  induction log using snoc_induction with
  | h0 => rfl
  | h1 l a ih =>
    rw [storeOf_snoc, ih]
    cases a <;> simp [behavior, storedVals, List.filterMap_append, List.filterMap_cons]

/-- C45: a subscription to an unlimited replay subject reads exactly the values stored so far, in order. -/
theorem C45_replay_reads (b : Bool) (ls : List (Lbl α ε)) (pre post : List (Ev α ε)) (k : Nat) (d : Bool) (n : Int)
    (vs : List α) (hlog : (exec ⟨b, replay none none⟩ ls).log = pre ++ .read k d n vs :: post) : vs = storedVals pre := by
  have h := (inv ⟨b, replay none none⟩ ls).legal _ _ _ hlog
  rw [h.1]
  dsimp only
  rw [storeOf_replay]
  simp [replay, Function.comp_def]

/-- C45: a subscription to a behavior subject that is not disposed reads the value stored last. -/
theorem C45_behavior_reads (b : Bool) (v0 : α) (ls : List (Lbl α ε)) (pre post : List (Ev α ε)) (k : Nat) (d : Bool)
    (n : Int) (vs : List α) (hlog : (exec ⟨b, behavior v0⟩ ls).log = pre ++ .read k d n vs :: post) :
    vs = if d then [] else [(storedVals pre).getLastD v0] := by
  have h := (inv ⟨b, behavior v0⟩ ls).legal _ _ _ hlog
  rw [h.1]
  dsimp only
  rw [storeOf_behavior]
  rfl

/-- C45: before an observer is registered it has been given every value that was read for it, in order,
unless it was disposed. -/
theorem C45_replayed (C : Cfg α σ) (ls : List (Lbl α ε)) (pre post : List (Ev α ε)) (k : Nat)
    (hlog : (exec C ls).log = pre ++ .reg k :: post) :
    ∃ d n vs, .read k d n vs ∈ pre ∧ (given k k pre = vs ∨ .gone k ∈ pre) :=
  ((inv C ls).legal _ _ _ hlog).2

/-- C45 for an unlimited replay subject, without the gap: if the value of a finished emission was stored before
the subscription read the store, or the emission looked at the list of observers after the registration, then
the observer gets the value (or was disposed). Missing: the emissions that do neither, `C45_gap_refutes`. -/
theorem C45_no_loss_partial (b : Bool) (ls : List (Lbl α ε)) (i k : Nat) (v : α)
    (hreg : .reg k ∈ (exec ⟨b, replay none none⟩ ls).log)     (h : (∃ x y d n vs n', (exec ⟨b, replay none none⟩ ls).log = x ++ .read k d n vs :: y ∧ .stored i v n' ∈ x) ∨
      (∃ x y l, (exec ⟨b, replay none none⟩ ls).log = x ++ .snap i v l :: y ∧ .reg k ∈ x ∧ .done i ∈ y)) :
    .beg k k (.next v) ∈ (exec ⟨b, replay none none⟩ ls).log ∨ .beg i k (.next v) ∈ (exec ⟨b, replay none none⟩ ls).log ∨
      .gone k ∈ (exec ⟨b, replay none none⟩ ls).log := by
  rcases h with ⟨x, y, d, n, vs, n', h1, h2⟩ | ⟨x, y, l, h1, h2, h3⟩
  · have hv := C45_replay_reads b ls x y k d n vs h1
    obtain ⟨p, q, h4⟩ := List.append_of_mem hreg
    obtain ⟨d', n'', vs', h5, h6⟩ := C45_replayed _ ls p q k h4
    -- there is one read per subscription
    have hvs : vs' = vs := by
      obtain ⟨a, c, rfl⟩ := List.append_of_mem h5
      have hi := inv ⟨b, replay none none⟩ ls
      have e : a ++ .read k d' n'' vs' :: (c ++ .reg k :: q) = x ++ .read k d n vs :: y := by
        rw [← h1, h4]; simp
      rcases List.append_eq_append_iff.1 e with ⟨m, h7, h8⟩ | ⟨m, h7, h8⟩
      · rcases m with _ | ⟨z, m⟩
        · simp at h8; exact h8.1.2.2
        · simp at h8
          have := (hi.legal _ _ _ h1).2 (.read k d' n'' vs') (by rw [h7, h8.1]; simp)
          simp [Ev.call] at this
      · rcases m with _ | ⟨z, m⟩
        · simp at h8; exact h8.1.2.2.symm
        · simp at h8
          have := (hi.legal a (.read k d' n'' vs') (c ++ .reg k :: q) (by rw [h4]; simp)).2 (.read k d n vs)
            (by rw [h7, h8.1]; simp)
          simp [Ev.call] at this
    subst hvs
    have hmem : v ∈ vs' := by rw [hv]; exact List.mem_filterMap.2 ⟨_, h2, rfl⟩
    rcases h6 with h6 | h6
    · left
      rw [← h6] at hmem
      obtain ⟨ev, h8, h9⟩ := List.mem_filterMap.1 hmem
      rw [h4]
      cases ev with
      | beg j m c =>
        cases c with
        | next w =>
          simp at h9
          obtain ⟨⟨rfl, rfl⟩, rfl⟩ := h9
          simp [h8]
        | term t => simp at h9
      | _ => simp at h9
    · right; right; rw [h4]; simp [h6]
  · obtain ⟨y1, y2, rfl⟩ := List.append_of_mem h3
    rcases C47_all_subscribed_partial ⟨b, replay none none⟩ ls x y1 y2 i k v l (by simp [h1]) h2 with h4 | h4
    · right; left; rw [h1]; simp [h4]
    · right; right; rw [h1]
      simp only [List.mem_append] at h4
      rcases h4 with h4 | h4 <;> simp [h4]

/-- An example. -/
abbrev rep : Cfg Nat (List (Int × Nat)) := ⟨true, replay none none⟩

/-- Non-vacuity of both cases: value 7 was stored before, value 8 is emitted after. -/
example : (exec (ε := Unit) rep ([.next 10 7] ++ runs 10 2 ++ [.sub 1] ++ runs 1 2 ++ [.ret 1 .ok] ++ runs 1 2 ++
      [.next 11 8] ++ runs 11 4 ++ [.ret 11 .ok] ++ runs 11 1)).log =
    [.emit 10 7, .stored 10 7 0, .done 10, .read 1 false 0 [7], .beg 1 1 (.next 7), .fin 1 1, .reg 1,
     .emit 11 8, .stored 11 8 0, .snap 11 8 [1], .beg 11 1 (.next 8), .fin 11 1, .done 11] := by decide

/-- C45 is false: a value emitted after the subscription has read the store and before it has registered
(replay_subject.hpp 133-135) never reaches the observer, although everything has returned and the observer
is not disposed. -/
theorem C45_gap_refutes : ∃ ls : List (Lbl Nat Unit), (exec rep ls).log =
      [.read 1 false 0 [], .emit 10 7, .stored 10 7 0, .done 10, .reg 1] ∧
    (exec rep ls).calls 1 = .done ∧ (exec rep ls).calls 10 = .done :=
  ⟨[.sub 1] ++ runs 1 1 ++ [.next 10 7] ++ runs 10 2 ++ runs 1 2, by decide, by decide, by decide⟩

/-- The same gap in a behavior subject (behavior_subject.hpp 87-92), opened by the observer itself: its callback
for the repeated value emits a new value, which it never sees. -/
theorem C45_behavior_gap_refutes : ∃ ls : List (Lbl Nat Unit), (exec ⟨true, behavior 0⟩ ls).log =
    [.read 1 false 0 [0], .beg 1 1 (.next 0), .emit 10 7, .stored 10 7 0, .done 10, .fin 1 1, .reg 1] :=
  ⟨[.sub 1] ++ runs 1 2 ++ [.next 10 7] ++ runs 10 2 ++ [.ret 1 .ok] ++ runs 1 2, by decide⟩

/-- The opposite race delivers one emission twice. -/
theorem C45_twice_refutes : ∃ ls : List (Lbl Nat Unit), (exec rep ls).log =
    [.emit 10 7, .stored 10 7 0, .read 1 false 0 [7], .beg 1 1 (.next 7), .fin 1 1, .reg 1, .snap 10 7 [1],
     .beg 10 1 (.next 7), .fin 10 1, .done 10] :=
  ⟨[.next 10 7] ++ runs 10 1 ++ [.sub 1] ++ runs 1 2 ++ [.ret 1 .ok] ++ runs 1 2 ++ runs 10 3 ++ [.ret 10 .ok] ++ runs 10 1,
    by decide⟩

end Rpp.Subj.Conc
