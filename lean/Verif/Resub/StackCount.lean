import Verif.Resub.StackProps

/-!
# C93: how many attempts there are, and that the loop is not left for good
-/

namespace Rpp.Stack

variable {kind : Kind} {s : St}

/-- How many observables there are to subscribe to; `none`: no limit. retry(n) means the first attempt and n more. -/
def Kind.total : Kind → Option Nat
  | .cat n => n
  | .retry n => n.map (· + 1)
  | _ => none

/-- How many subscriptions to (a next) source a history contains. -/
def attempts (log : List Ev) : Nat := log.countP fun e => match e with | .made _ .src => true | _ => false

/-- What `left` means; models no code. -/
def Left (kind : Kind) (left : Option Nat) (subs : Nat) : Prop :=
  match kind.total with
  | none => left = none
  | some t => ∃ m, left = some m ∧ m + subs = t

/-- The end as the operator announces it by itself. -/
def Final (kind : Kind) (s : St) : Prop :=
  match kind with
  | .cat _ => .told none ∈ s.log → s.left = some 0
  | .retry _ => ∀ x, .told (some x) ∈ s.log → s.left = some 0 ∨ ∃ k, .threw k .src x ∈ s.log
  | _ => True

/-- Invariant of the proofs; models no code. -/
structure Cnt (kind : Kind) (s : St) : Prop where
  subs : s.subs = attempts s.log
  fresh : s.started = false → s.subs = 0
  left : s.started = true → Left kind s.left s.subs
  room : s.over = false → kind.isCat = false → s.started = true → s.live = [] → s.left ≠ some 0
  lead : s.over = false → s.flag = true → (∃ T, s.stack = .loop true :: T) ∨ ∃ k T, s.stack = .body k .src :: .loop true :: T
  fin : Final kind s

theorem attempts_snoc (log e) : attempts (log ++ [e]) = attempts log + attempts [e] := by simp [attempts, List.countP_append]

theorem Cnt.tell (h : Cnt kind s) (x : Option Nat) (hx : s.over = false → match kind, x with
    | .cat _, none => s.left = some 0
    | .retry _, some x => s.left = some 0 ∨ ∃ k, .threw k .src x ∈ s.log
    | _, _ => True) : Cnt kind (s.tell x) := by
  unfold St.tell
  split
  · exact h
  · rename_i ho
    have ho : s.over = false := by simpa using ho
    have hx := hx ho
    refine ⟨by simpa [St.say, attempts_snoc, attempts] using h.subs, h.fresh, h.left, by simp [St.say], by simp [St.say], ?_⟩
    have hf := h.fin
    cases kind <;> simp only [Final, St.say] at hf ⊢
    · intro hm
      cases x with
      | none => exact hx
      | some y => exact hf (by simpa using hm)
    · intro y hm
      rw [List.mem_append] at hm
      rcases hm with hm | hm
      · rcases hf y hm with h1 | ⟨k, h1⟩
        · exact .inl h1
        · exact .inr ⟨k, by simp [h1]⟩
      · simp only [List.mem_singleton, Ev.told.injEq] at hm
        subst hm
        rcases hx with h1 | ⟨k, h1⟩
        · exact .inl h1
        · exact .inr ⟨k, by simp [h1]⟩

/-- Only the stack, the flag and the live subscriptions change. -/
theorem Cnt.move (h : Cnt kind s) {fs fl lv} (hroom : s.over = false → kind.isCat = false → s.started = true → lv = [] → s.left ≠ some 0)
    (hlead : s.over = false → fl = true → (∃ T, fs = .loop true :: T) ∨ ∃ k T, fs = .body k .src :: .loop true :: T) :
    Cnt kind { s with stack := fs, flag := fl, live := lv } :=
  ⟨h.subs, h.fresh, h.left, hroom, hlead, h.fin⟩

theorem Cnt.turn (h : Cnt kind s) (hi : Inv kind s) (hk : Plainly kind) (hst : s.started = true) {b T} (hs : s.stack = .loop b :: T)
    (hT : T = [] ∨ T = [.term]) (hl : s.live = []) (hfl : s.over = false → s.flag = true → False) : Cnt kind (s.turn kind) := by
  have h0 : Cnt kind { s with stack := T } :=
    ⟨h.subs, h.fresh, h.left, h.room, fun ho hf => (hfl ho hf).elim, h.fin⟩
  unfold St.turn
  simp only [hs, List.tail_cons]
  split
  · exact h0
  · rename_i ho
    have ho : s.over = false := by simpa using ho
    split
    · rename_i hc
      simp only [Bool.and_eq_true, beq_iff_eq] at hc
      refine h0.tell none (fun _ => ?_)
      cases kind <;> simp_all [Kind.isCat]
    · rename_i hc
      have hne : s.left ≠ some 0 := by
        cases hcat : kind.isCat with
        | true => intro h; simp [hcat, h] at hc
        | false => exact h.room ho hcat hst hl
      have hov : ¬ Over s.log := fun hh => by rw [hi.over.2 hh] at ho; cases ho
      refine ⟨?_, ?_, ?_, ?_, ?_, ?_⟩
      · simp only [St.subscribe, St.push, St.say, attempts_snoc, h.subs]
        rfl
      · intro hh
        have hh : s.started = false := hh
        rw [hst] at hh; cases hh
      · intro _
        have := h.left hst
        simp only [Left, St.subscribe, St.push, St.say] at this ⊢
        cases ht : kind.total with
        | none => rw [ht] at this; simp only at this ⊢; rw [this]; rfl
        | some t =>
          rw [ht] at this
          obtain ⟨m, h1, h2⟩ := this
          refine ⟨m - 1, by simp [h1], ?_⟩
          have : m ≠ 0 := fun hm => hne (by rw [h1, hm])
          omega
      · intro _ _ _ hlv
        simp [St.subscribe, St.push, St.say] at hlv
      · intro _ _
        exact .inr ⟨_, _, rfl⟩
      · cases kind <;> simp only [Final, St.subscribe, St.push, St.say] at *
        · intro hm; exact absurd (.inl ⟨none, by simpa using hm⟩) hov
        · intro x hm; exact absurd (.inl ⟨some x, by simpa using hm⟩) hov

theorem Cnt.again (h : Cnt kind s) (hf : FlatC s) (hne : kind.isCat = false → s.left ≠ some 0)
    (hb : ∀ f fs, s.stack = f :: fs → ∃ k r, f = .body k r) {k r} (hm : (k, r) ∈ s.live) : Cnt kind ((s.endOf k r).again .term) := by
  unfold St.again
  split
  · exact h.move (fun _ hc _ _ => hne hc) (fun _ hf => by cases hf)
  · rename_i hfl
    exact h.move (fs := [.loop false, .term] ++ s.stack) (fl := s.flag) (fun _ hc _ _ => hne hc) (fun _ hf => absurd hf hfl)

theorem Cnt.step (h : Cnt kind s) (hf : FlatC s) (hi : Inv kind s) (hfr : s.started = false → s.live = [] ∧ s.stack = []) (hk : Plainly kind) (l) :
    Cnt kind (step kind s l) := by
  have hu : ∀ k r, (k, r) ∈ s.live → r = .src := by
    intro k r hm
    have := hi.uses _ hm
    cases kind <;> simp only [Plainly] at hk <;> cases r <;> simp_all [Uses]
  have hstd : ∀ f fs, s.stack = f :: fs → s.started = true := by
    intro f fs hs
    cases hst : s.started with
    | true => rfl
    | false => have := (hfr hst).2; rw [hs] at this; cases this
  unfold Stack.step
  split
  · exact h
  have emit : (∀ f fs, s.stack = f :: fs → ∃ k r, f = .body k r) → ∀ k r n, Cnt kind (if (k, r) ∈ s.live then s.notify kind k r n else s) := by
    intro hb k r n
    split
    · rename_i hm
      have hr := hu _ _ hm
      subst hr
      cases kind <;> simp only [Plainly] at hk <;> cases n <;> simp only [St.notify]
      · exact h
      · exact h.tell _ (fun _ => trivial)
      · exact h.again hf (by simp [Kind.isCat]) hb hm
      · exact h
      · split
        · rename_i hz; exact h.tell _ (fun _ => .inl hz)
        · rename_i hz; exact h.again hf (fun _ => hz) hb hm
      · exact h.tell _ (fun _ => trivial)
    · exact h
  have disp : Cnt kind (if s.over then s else { s with over := true, live := [] }.say .disposed) := by
    split
    · exact h
    · refine ⟨by simpa [St.say, attempts_snoc, attempts] using h.subs, h.fresh, h.left, by simp [St.say], by simp [St.say], ?_⟩
      have := h.fin
      cases kind <;> simp only [Final, St.say] at this ⊢
      · intro hm; exact this (by simpa using hm)
      · intro x hm
        rcases this x (by simpa using hm) with h1 | ⟨k, h1⟩
        · exact .inl h1
        · exact .inr ⟨k, by simp [h1]⟩
  have shrink : ∀ f fs, s.stack = f :: fs → (∀ k r, f = .body k r → ∃ T, fs = .loop true :: T) → (f = .loop true → s.flag = false) →
      Cnt kind { s with stack := fs } := by
    intro f fs hs h1 h2
    refine ⟨h.subs, h.fresh, h.left, h.room, fun ho hfl => ?_, h.fin⟩
    rcases h.lead ho hfl with ⟨T, h3⟩ | ⟨k, T, h3⟩
    · rw [hs] at h3; injection h3 with h3 h4
      rw [h2 h3] at hfl; cases hfl
    · rw [hs] at h3; injection h3 with h3 h4
      exact .inl ⟨T, h4⟩
  split
  · rename_i hs
    split
    · exact h
    · rename_i hn
      have hst : s.started = false := by simp_all
      have h0 := h.fresh hst
      have lo : ∀ l, Left kind l 0 → (kind.isCat = false → l ≠ some 0) → Cnt kind ({ s with started := true, left := l }.push [.loop false]) := by
        intro l hl1 hl2
        refine ⟨h.subs, (fun hh => by cases hh), fun _ => ?_, fun _ hc _ _ => hl2 hc, fun ho hfl => ?_, ?_⟩
        · show Left kind l s.subs
          rw [h0]; exact hl1
        · rcases h.lead ho hfl with ⟨T, h3⟩ | ⟨k, T, h3⟩ <;> rw [hs] at h3 <;> cases h3
        · have hov : ¬ Over s.log := fun hh => by have := hi.over.2 hh; simp_all
          cases kind <;> simp only [Final, St.push]
          · intro hm; exact absurd (.inl ⟨none, hm⟩) hov
          · intro x hm; exact absurd (.inl ⟨some x, hm⟩) hov
      cases kind <;> simp only [Plainly] at hk
      · rename_i n
        refine lo n ?_ (by simp [Kind.isCat])
        cases n <;> simp [Left, Kind.total]
      · rename_i n
        refine lo (n.map (· + 1)) ?_ ?_
        · cases n <;> simp [Left, Kind.total]
        · cases n <;> simp
  · rename_i hs; exact emit (by simp [hs]) _ _ _
  · rename_i hs; exact emit (by rw [hs]; intro f fs h; cases h; exact ⟨_, _, rfl⟩) _ _ _
  · exact disp
  · exact disp
  · rename_i k r fs hs
    rcases hf.shape with h1 | ⟨T, hT, h1, h2⟩ | ⟨T, hT, h1, h2⟩ | ⟨j, T, hT, h1, h2⟩
    · simp [hs] at h1
    · simp [hs] at h1
    · simp [hs] at h1
    · rw [hs] at h1; injection h1 with h1 h3
      exact shrink _ _ hs (fun _ _ _ => ⟨T, h3⟩) (by simp)
  · rename_i x k r fs hs
    rcases hf.shape with h1 | ⟨T, hT, h1, h2⟩ | ⟨T, hT, h1, h2⟩ | ⟨j, T, hT, h1, h2⟩
    · simp [hs] at h1
    · simp [hs] at h1
    · simp [hs] at h1
    · rw [hs] at h1; injection h1 with h1 h3; subst h3; injection h1 with ha hb; subst ha hb
      have fin' : Final kind (s.say (.threw k .src x)) := by
        have := h.fin
        cases kind <;> simp only [Final, St.say] at this ⊢
        · intro hm; exact this (by simpa using hm)
        · intro y hm
          rcases this y (by simpa using hm) with h1 | ⟨k, h1⟩
          · exact .inl h1
          · exact .inr ⟨k, by simp [h1]⟩
      have sb : s.subs = attempts (s.log ++ [.threw k .src x]) := by rw [attempts_snoc]; exact h.subs
      simp only [St.unwind]
      split
      · rename_i ho
        have ho : s.over = true := ho
        refine ⟨?_, h.fresh, h.left, fun hh => ?_, fun hh => ?_, ?_⟩
        · show s.subs = attempts ((s.log ++ [.threw k .src x]) ++ [.dropped x])
          rw [attempts_snoc]; exact sb
        · have hh : s.over = false := hh
          rw [ho] at hh; cases hh
        · have hh : s.over = false := hh
          rw [ho] at hh; cases hh
        · cases kind <;> simp only [Final, St.say] at fin' ⊢
          · intro hm; exact fin' (by simpa using hm)
          · intro y hm
            rcases fin' y (by simpa using hm) with h1 | ⟨k, h1⟩
            · exact .inl h1
            · exact .inr ⟨k, List.mem_append_left _ h1⟩
      · rename_i ho
        have ho : s.over = false := by simpa [St.say] using ho
        -- the flag may stay set, but it is over
        unfold St.tell
        rw [if_neg (by simp [St.say, ho])]
        refine ⟨?_, h.fresh, h.left, by simp [St.say], by simp [St.say], ?_⟩
        · show s.subs = attempts ((s.log ++ [.threw k .src x]) ++ [.told (some x)])
          rw [attempts_snoc]; exact sb
        · cases kind <;> simp only [Final, St.say] at fin' ⊢
          · intro hm; exact fin' (by simpa using hm)
          · intro y hm
            rw [List.mem_append] at hm
            rcases hm with hm | hm
            · rcases fin' y hm with h1 | ⟨k, h1⟩
              · exact .inl h1
              · exact .inr ⟨k, List.mem_append_left _ h1⟩
            · simp only [List.mem_singleton, Ev.told.injEq, Option.some.injEq] at hm
              subst hm
              exact .inr ⟨k, by simp⟩
  · rename_i fs hs
    rcases hf.shape with h1 | ⟨T, hT, h1, h2⟩ | ⟨T, hT, h1, h2⟩ | ⟨j, T, hT, h1, h2⟩
    · simp [hs] at h1
    · rw [hs] at h1; injection h1 with h1 h3; subst h3
      refine h.turn hi hk (hstd _ _ hs) hs hT h2 (fun ho hfl => ?_)
      rcases h.lead ho hfl with ⟨T, h3⟩ | ⟨k, T, h3⟩ <;> rw [hs] at h3 <;> cases h3
    · simp [hs] at h1
    · simp [hs] at h1
  · rename_i fs hs
    rcases hf.shape with h1 | ⟨T, hT, h1, h2⟩ | ⟨T, hT, h1, h2⟩ | ⟨j, T, hT, h1, h2⟩
    · simp [hs] at h1
    · simp [hs] at h1
    · rw [hs] at h1; injection h1 with h1 h3; subst h3
      split
      · exact h.move (fs := fs) (fl := false) (lv := s.live) h.room (fun _ hh => by cases hh)
      · rename_i hfl
        refine h.turn hi hk (hstd _ _ hs) hs hT ?_ (fun _ hh => hfl hh)
        by_cases hl : s.live = []
        · exact hl
        · exact absurd (h2 hl) hfl
    · simp [hs] at h1
  · rename_i fs hs
    rcases hf.shape with h1 | ⟨T, hT, h1, h2⟩ | ⟨T, hT, h1, h2⟩ | ⟨j, T, hT, h1, h2⟩ <;> simp [hs] at h1
  · rename_i fs hs
    rcases hf.shape with h1 | ⟨T, hT, h1, h2⟩ | ⟨T, hT, h1, h2⟩ | ⟨j, T, hT, h1, h2⟩ <;> simp [hs] at h1
  · rename_i fs hs
    rcases hf.shape with h1 | ⟨T, hT, h1, h2⟩ | ⟨T, hT, h1, h2⟩ | ⟨j, T, hT, h1, h2⟩ <;> simp [hs] at h1
  · rename_i fs hs
    rcases hf.shape with h1 | ⟨T, hT, h1, h2⟩ | ⟨T, hT, h1, h2⟩ | ⟨j, T, hT, h1, h2⟩ <;> simp [hs] at h1
  · rename_i fs hs
    exact shrink _ _ hs (by simp) (by simp)
  · exact h

theorem exec_cnt (hk : Plainly kind) (ls) : Cnt kind (exec kind ls) := by
  induction ls using Sched.snoc_ind with
  | h0 =>
    refine ⟨rfl, fun _ => rfl, (fun h => by cases h), (fun _ _ h => by cases h), (fun _ h => by cases h), ?_⟩
    cases kind <;> simp [Final, exec]
  | h1 ls l ih =>
    rw [exec_snoc]
    exact ih.step (exec_flatC hk ls) (exec_inv ls) (exec_fresh ls) hk l

theorem exec_quiet (ls) : (exec kind ls).started = false → ∀ x, .told x ∉ (exec kind ls).log := by
  induction ls using Sched.snoc_ind with
  | h0 => intro _ x; simp [exec]
  | h1 ls l ih =>
    intro hs x
    rw [exec_snoc] at hs ⊢
    cases hs0 : (exec kind ls).started with
    | true => rw [step_started l hs0] at hs; cases hs
    | false =>
      obtain ⟨h1, h2⟩ := exec_fresh ls hs0
      have ih := ih hs0 x
      revert hs
      generalize exec kind ls = s at *
      unfold Stack.step
      split
      · intro _; exact ih
      · cases l <;> simp only [h2, h1]
        all_goals try split
        all_goals simp_all [St.say]
        all_goals try (cases kind <;> simp [St.push, St.subscribe, St.say])

/-- C93: source concat (repeat, start_with) never subscribes to more observables than there are, and completes only after all of them. -/
theorem C93_concat_counts (n : Nat) (ls : List Lbl) :
    attempts (exec (.cat (some n)) ls).log ≤ n ∧ (.told none ∈ (exec (.cat (some n)) ls).log → attempts (exec (.cat (some n)) ls).log = n) := by
  have h := exec_cnt (kind := .cat (some n)) trivial ls
  have hi := exec_inv (kind := .cat (some n)) ls
  rw [← h.subs]
  cases hs : (exec (.cat (some n)) ls).started with
  | false =>
    rw [h.fresh hs]
    exact ⟨Nat.zero_le _, fun hm => absurd hm (exec_quiet ls hs none)⟩
  | true =>
    obtain ⟨m, h1, h2⟩ := h.left hs
    refine ⟨by omega, fun hm => ?_⟩
    have := h.fin hm
    rw [h1] at this
    injection this with this
    omega

/-- C93: retry(n) makes at most n + 1 attempts, and passes an error on only after that many (or if an attempt's code threw it). -/
theorem C93_retry_counts (n : Nat) (ls : List Lbl) :
    attempts (exec (.retry (some n)) ls).log ≤ n + 1 ∧ ∀ x, .told (some x) ∈ (exec (.retry (some n)) ls).log →
      attempts (exec (.retry (some n)) ls).log = n + 1 ∨ ∃ k, .threw k .src x ∈ (exec (.retry (some n)) ls).log := by
  have h := exec_cnt (kind := .retry (some n)) trivial ls
  rw [← h.subs]
  cases hs : (exec (.retry (some n)) ls).started with
  | false =>
    rw [h.fresh hs]
    exact ⟨Nat.zero_le _, fun x hm => absurd hm (exec_quiet ls hs (some x))⟩
  | true =>
    obtain ⟨m, h1, h2⟩ := h.left hs
    have h2 : m + (exec (.retry (some n)) ls).subs = n + 1 := h2
    refine ⟨by omega, fun x hm => ?_⟩
    rcases h.fin x hm with h3 | h3
    · rw [h1] at h3
      injection h3 with h3
      exact .inl (by omega)
    · exact .inr h3

/-- C93: the loop is not left for good: when an attempt ends later (from an empty stack), the next one is subscribed at once, unless it was the last one. -/
theorem C93_goes_on (hk : Plainly kind) (ls : List Lbl) (k : Nat) (x : Nat) (hd : (exec kind ls).dead = false)
    (hm : (k, .src) ∈ (exec kind ls).live) (hs : (exec kind ls).stack = []) (hl : kind.total ≠ some (attempts (exec kind ls).log)) :
    attempts (exec kind (ls ++ [.emit k .src (if kind.isCat then .completed else .error x), .tick])).log = attempts (exec kind ls).log + 1 := by
  have h := exec_cnt hk ls
  have hi := exec_inv (kind := kind) ls
  have ho := hi.notOver hm
  have hone := erase_one (exec_flatC hk ls).one hm
  have hst : (exec kind ls).started = true := by
    cases hst : (exec kind ls).started with
    | true => rfl
    | false => have := (exec_fresh ls hst).1; rw [this] at hm; simp at hm
  have hfl : (exec kind ls).flag = false := by
    cases hf : (exec kind ls).flag with
    | false => rfl
    | true => rcases h.lead ho hf with ⟨T, h3⟩ | ⟨k, T, h3⟩ <;> rw [hs] at h3 <;> cases h3
  have hz : (exec kind ls).left ≠ some 0 := by
    intro hz
    have := h.left hst
    rw [Left] at this
    cases ht : kind.total with
    | none => rw [ht] at this; rw [this] at hz; cases hz
    | some t =>
      rw [ht] at this
      obtain ⟨m, h1, h2⟩ := this
      rw [hz] at h1; injection h1 with h1
      exact hl (by rw [ht, ← h.subs]; congr 1; omega)
  have e : exec kind (ls ++ [.emit k .src (if kind.isCat then .completed else .error x), .tick]) =
      step kind (step kind (exec kind ls) (.emit k .src (if kind.isCat then .completed else .error x))) .tick := by simp [exec]
  rw [e]
  generalize exec kind ls = s at *
  cases kind <;> simp only [Plainly] at hk <;>
    simp [step, hd, hs, hm, Kind.isCat, St.notify, St.again, St.endOf, hfl, St.push, St.turn, ho, hz, St.subscribe, St.say, attempts_snoc] <;> rfl

-- Non-vacuity: two sources, the second one ends later; retry(1) with two failures
example : attempts (exec (.cat (some 2)) [.start, .tick, .emit 0 .src .completed, .ret, .tick, .ret, .tick, .emit 1 .src .completed, .tick, .tick]).log = 2 ∧
    Ev.told none ∈ (exec (.cat (some 2)) [.start, .tick, .emit 0 .src .completed, .ret, .tick, .ret, .tick, .emit 1 .src .completed, .tick, .tick]).log := by decide
example : attempts (exec (.retry (some 1)) [.start, .tick, .ret, .tick, .emit 0 .src (.error 5), .tick, .emit 1 .src (.error 6)]).log = 2 ∧
    Ev.told (some 6) ∈ (exec (.retry (some 1)) [.start, .tick, .ret, .tick, .emit 0 .src (.error 5), .tick, .emit 1 .src (.error 6)]).log := by decide
example : (exec (.retry (some 1)) [.start, .tick, .ret, .tick]).stack = [] ∧ (0, Role.src) ∈ (exec (.retry (some 1)) [.start, .tick, .ret, .tick]).live ∧
    (Kind.retry (some 1)).total ≠ some (attempts (exec (.retry (some 1)) [.start, .tick, .ret, .tick]).log) := by decide

end Rpp.Stack
