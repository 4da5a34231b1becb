import Verif.Resub.StackProofs
import Verif.Scheduler.CurrentThreadProofs

/-!
# Lemmas for C93: the shapes of the stack
-/

namespace Rpp.Stack

variable {kind : Kind} {s : St}

theorem tell_stack (x) : (s.tell x).stack = s.stack := by unfold St.tell St.say; split <;> rfl

theorem tell_live (x) : (s.tell x).live = s.live ∨ (s.tell x).live = [] := by unfold St.tell St.say; split <;> simp

theorem tell_over (x) : (s.tell x).over = true := by unfold St.tell St.say; split <;> simp_all

theorem tell_flag (x) : (s.tell x).flag = s.flag := by unfold St.tell St.say; split <;> rfl

theorem unwind_started (x fs) : (s.unwind x fs).started = s.started := by
  induction fs with
  | nil => rfl
  | cons f fs ih =>
    cases f <;> simp only [St.unwind] <;> first | exact ih | (split <;> simp [St.say, St.tell] <;> split <;> rfl) | rfl

theorem step_started (l) (h : s.started = true) : (step kind s l).started = true := by
  have ht : ∀ (s : St) x, (s.tell x).started = s.started := by intro s x; unfold St.tell St.say; split <;> rfl
  have hl : ∀ (s : St), s.last.started = s.started := by intro s; unfold St.last; split; exact ht _ _; rfl
  have ha : ∀ (s : St) f, (s.again f).started = s.started := by intro s f; unfold St.again; split <;> rfl
  have hn : ∀ k r n, (s.notify kind k r n).started = s.started := by
    intro k r n
    cases n <;> simp only [St.notify] <;> split <;> (try split) <;> simp [ht, hl, ha, St.endOf, St.push, St.subscribe, St.say]
  have hu : ∀ (s : St) r, (s.subscribe r).started = s.started := fun _ _ => rfl
  have hT : (s.turn kind).started = s.started := by
    unfold St.turn; simp only; split
    · rfl
    · split
      · rw [ht]
      · rw [hu]; rfl
  have hP : s.pumpTurn.started = s.started := by
    unfold St.pumpTurn; simp only; split
    · rfl
    · split
      · split
        · rw [ht]
        · rfl
      · rw [hu]; rfl
  unfold step
  split
  · exact h
  · split
    all_goals try split
    all_goals first | exact h | (rw [hn]; exact h) | (rw [hT]; exact h) | (rw [hP]; exact h) | (rw [unwind_started]; exact h) | skip
    all_goals cases kind <;> rfl

theorem exec_fresh (ls) : (exec kind ls).started = false → (exec kind ls).live = [] ∧ (exec kind ls).stack = [] := by
  induction ls using Sched.snoc_ind with
  | h0 => intro _; exact ⟨rfl, rfl⟩
  | h1 ls l ih =>
    intro h
    rw [exec, List.foldl_append] at h ⊢
    change (step kind (exec kind ls) l).started = false at h
    change (step kind (exec kind ls) l).live = [] ∧ (step kind (exec kind ls) l).stack = []
    generalize exec kind ls = s at h ih ⊢
    cases hs : s.started
    · obtain ⟨h1, h2⟩ := ih hs
      revert h
      unfold step
      split
      · intro _; exact ⟨h1, h2⟩
      · cases l <;> simp only [h2, h1]
        all_goals try split
        all_goals simp_all [St.say]
        all_goals try (cases kind <;> simp [St.push, St.subscribe, St.say])
    · rw [step_started l hs] at h; cases h

/-- sources/concat, repeat, retry. -/
inductive ShapeC (s : St) : Prop where
  | idle (h : s.stack = [] ∨ s.stack = [.term])
  | head (T) (hT : T = [] ∨ T = [.term]) (h : s.stack = .loop false :: T) (hl : s.live = [])
  | back (T) (hT : T = [] ∨ T = [.term]) (h : s.stack = .loop true :: T) (hl : s.live ≠ [] → s.flag = true)
  | code (k T) (hT : T = [] ∨ T = [.term]) (h : s.stack = .body k .src :: .loop true :: T) (hl : s.live ≠ [] → s.flag = true)

/-- Used in the proofs; models no code. -/
structure FlatC (s : St) : Prop where
  one : s.live.length ≤ 1
  over : s.over = true → s.live = []
  shape : ShapeC s

theorem FlatC.tell (h : FlatC s) (x) : FlatC (s.tell x) := by
  have hlive : (s.tell x).live = [] := by
    unfold St.tell St.say; split
    · rename_i ho; exact h.over ho
    · rfl
  refine ⟨by simp [hlive], fun _ => hlive, ?_⟩
  rcases h.shape with h1 | ⟨T, hT, h1, h2⟩ | ⟨T, hT, h1, h2⟩ | ⟨j, T, hT, h1, h2⟩
  · exact .idle (by rw [tell_stack]; exact h1)
  · exact .head T hT (by rw [tell_stack]; exact h1) hlive
  · exact .back T hT (by rw [tell_stack]; exact h1) (by simp [hlive])
  · exact .code j T hT (by rw [tell_stack]; exact h1) (by simp [hlive])

theorem FlatC.turn (h : FlatC s) {b T} (hT : T = [] ∨ T = [.term]) (hs : s.stack = .loop b :: T) (hl : s.live = []) : FlatC (s.turn kind) := by
  unfold St.turn
  simp only [hs, List.tail_cons]
  split
  · exact ⟨by simp [hl], fun _ => hl, .idle hT⟩
  · rename_i ho
    split
    · exact FlatC.tell (s := { s with stack := T }) ⟨h.one, h.over, .idle hT⟩ none
    · refine ⟨?_, ?_, .code _ T hT rfl ?_⟩
      · simp [St.subscribe, St.push, St.say, hl]
      · simp [St.subscribe, St.push, St.say, ho]
      · simp [St.subscribe, St.push, St.say]

theorem erase_one {l : List (Nat × Role)} {p} (h : l.length ≤ 1) (hp : p ∈ l) : l.erase p = [] := by
  match l with
  | [] => simp
  | [q] => simp_all
  | _ :: _ :: _ => simp at h

theorem FlatC.again (h : FlatC s) (hk : ∀ f fs, s.stack = f :: fs → ∃ k r, f = .body k r) {k r} (hm : (k, r) ∈ s.live) : FlatC ((s.endOf k r).again .term) := by
  have he := erase_one h.one hm
  have hne : s.live ≠ [] := by intro h; simp [h] at hm
  unfold St.again St.endOf
  simp only
  split
  · rename_i hf
    refine ⟨by simp [he], fun _ => he, ?_⟩
    rcases h.shape with h1 | ⟨T, hT, h1, h2⟩ | ⟨T, hT, h1, h2⟩ | ⟨j, T, hT, h1, h2⟩
    · exact .idle h1
    · exact absurd h2 hne
    · obtain ⟨_, _, h3⟩ := hk _ _ h1; cases h3
    · exact .code j T hT h1 (by simp [he])
  · rename_i hf
    refine ⟨by simp [he, St.push], fun _ => he, ?_⟩
    rcases h.shape with h1 | ⟨T, hT, h1, h2⟩ | ⟨T, hT, h1, h2⟩ | ⟨j, T, hT, h1, h2⟩
    · rcases h1 with h1 | h1
      · exact .head [.term] (.inr rfl) (by simp [St.push, h1]) he
      · obtain ⟨_, _, h3⟩ := hk _ _ h1; cases h3
    · exact absurd h2 hne
    · obtain ⟨_, _, h3⟩ := hk _ _ h1; cases h3
    · exact absurd (h2 hne) hf

/-- The operators whose attempts are handed to one loop. -/
def Plainly : Kind → Prop
  | .cat _ | .retry _ => True
  | _ => False

theorem FlatC.notify (h : FlatC s) (hk : Plainly kind) (hb : ∀ f fs, s.stack = f :: fs → ∃ k r, f = .body k r) {k r} (hr : r = .src) (hm : (k, r) ∈ s.live) (n) :
    FlatC (s.notify kind k r n) := by
  subst hr
  cases kind <;> simp only [Plainly] at hk <;> cases n <;> simp only [St.notify]
  · exact h
  · exact h.tell _
  · exact h.again hb hm
  · exact h
  · split
    · exact h.tell _
    · exact h.again hb hm
  · exact h.tell _

theorem FlatC.step (h : FlatC s) (hi : Inv kind s) (hf : s.started = false → s.live = [] ∧ s.stack = []) (hk : Plainly kind) (l) : FlatC (step kind s l) := by
  have hu : ∀ k r, (k, r) ∈ s.live → r = .src := by
    intro k r hm
    have := hi.uses _ hm
    cases kind <;> simp only [Plainly] at hk <;> cases r <;> simp_all [Uses]
  unfold Stack.step
  split
  · exact h
  have emit : (∀ f fs, s.stack = f :: fs → ∃ k r, f = .body k r) → ∀ k r n, FlatC (if (k, r) ∈ s.live then s.notify kind k r n else s) := by
    intro hb k r n
    split
    · rename_i hm; exact h.notify hk hb (hu _ _ hm) hm n
    · exact h
  have disp : (∀ f fs, s.stack = f :: fs → ∃ k r, f = .body k r) → FlatC (if s.over then s else { s with over := true, live := [] }.say .disposed) := by
    intro hb
    split
    · exact h
    · refine ⟨by simp [St.say], fun _ => rfl, ?_⟩
      rcases h.shape with h1 | ⟨T, hT, h1, h2⟩ | ⟨T, hT, h1, h2⟩ | ⟨j, T, hT, h1, h2⟩
      · exact .idle h1
      · exact .head T hT h1 rfl
      · exact .back T hT h1 (by simp [St.say])
      · exact .code j T hT h1 (by simp [St.say])
  split
  · rename_i hs
    split
    · exact h
    · rename_i hn
      have hl : s.live = [] := (hf (by simp_all)).1
      have lo : ∀ l, FlatC ({ s with started := true, left := l }.push [.loop false]) := fun l =>
        ⟨h.one, h.over, .head [] (.inl rfl) (by simp [St.push, hs]) hl⟩
      cases kind <;> simp only [Plainly] at hk <;> exact lo _
  · rename_i hs; exact emit (by simp [hs]) _ _ _
  · rename_i hs; exact emit (by rw [hs]; intro f fs h; cases h; exact ⟨_, _, rfl⟩) _ _ _
  · rename_i hs; exact disp (by simp [hs])
  · rename_i hs; exact disp (by rw [hs]; intro f fs h; cases h; exact ⟨_, _, rfl⟩)
  · rename_i k r fs hs
    rcases h.shape with h1 | ⟨T, hT, h1, h2⟩ | ⟨T, hT, h1, h2⟩ | ⟨j, T, hT, h1, h2⟩
    · simp [hs] at h1
    · simp [hs] at h1
    · simp [hs] at h1
    · rw [hs] at h1; injection h1 with h1 h3; subst h3
      exact ⟨h.one, h.over, .back T hT rfl h2⟩
  · rename_i x k r fs hs
    rcases h.shape with h1 | ⟨T, hT, h1, h2⟩ | ⟨T, hT, h1, h2⟩ | ⟨j, T, hT, h1, h2⟩
    · simp [hs] at h1
    · simp [hs] at h1
    · simp [hs] at h1
    · rw [hs] at h1; injection h1 with h1 h3; subst h3
      simp only [St.unwind]
      split
      · exact ⟨h.one, h.over, .idle hT⟩
      · exact FlatC.tell (s := { s.say (.threw k r x) with stack := T }) ⟨h.one, h.over, .idle hT⟩ _
  · rename_i fs hs
    rcases h.shape with h1 | ⟨T, hT, h1, h2⟩ | ⟨T, hT, h1, h2⟩ | ⟨j, T, hT, h1, h2⟩
    · simp [hs] at h1
    · rw [hs] at h1; injection h1 with h1 h3; subst h3
      exact h.turn hT hs h2
    · simp [hs] at h1
    · simp [hs] at h1
  · rename_i fs hs
    rcases h.shape with h1 | ⟨T, hT, h1, h2⟩ | ⟨T, hT, h1, h2⟩ | ⟨j, T, hT, h1, h2⟩
    · simp [hs] at h1
    · simp [hs] at h1
    · rw [hs] at h1; injection h1 with h1 h3; subst h3
      split
      · exact ⟨h.one, h.over, .idle hT⟩
      · rename_i hfl
        refine h.turn hT hs ?_
        by_cases hl : s.live = []
        · exact hl
        · exact absurd (h2 hl) hfl
    · simp [hs] at h1
  · rename_i fs hs
    rcases h.shape with h1 | ⟨T, hT, h1, h2⟩ | ⟨T, hT, h1, h2⟩ | ⟨j, T, hT, h1, h2⟩ <;> simp [hs] at h1
  · rename_i fs hs
    rcases h.shape with h1 | ⟨T, hT, h1, h2⟩ | ⟨T, hT, h1, h2⟩ | ⟨j, T, hT, h1, h2⟩ <;> simp [hs] at h1
  · rename_i fs hs
    rcases h.shape with h1 | ⟨T, hT, h1, h2⟩ | ⟨T, hT, h1, h2⟩ | ⟨j, T, hT, h1, h2⟩ <;> simp [hs] at h1
  · rename_i fs hs
    rcases h.shape with h1 | ⟨T, hT, h1, h2⟩ | ⟨T, hT, h1, h2⟩ | ⟨j, T, hT, h1, h2⟩ <;> simp [hs] at h1
  · rename_i fs hs
    rcases h.shape with h1 | ⟨T, hT, h1, h2⟩ | ⟨T, hT, h1, h2⟩ | ⟨j, T, hT, h1, h2⟩
    · refine ⟨h.one, h.over, .idle (.inl ?_)⟩
      simpa [hs] using h1
    · simp [hs] at h1
    · simp [hs] at h1
    · simp [hs] at h1
  · exact h

/-! ## on_error_resume_next -/

/-- What lies at the bottom. -/
def Base (r : Role) (T : List Frame) : Prop := T = [] ∨ ∃ k, T = [.body k r]

/-- Used in the proofs; models no code. -/
inductive ShapeR (s : St) : Prop where
  | idle (hT : Base .src s.stack)
  | term (T) (hT : Base .src T) (h : s.stack = .term :: T) (hl : ∀ k, (k, .src) ∉ s.live)
  | guard (T) (hT : Base .src T) (h : s.stack = .guard :: .term :: T) (hl : ∀ k, (k, .src) ∉ s.live)
  | code (j T) (hT : Base .src T) (h : s.stack = .body j .fall :: .guard :: .term :: T) (hl : ∀ k, (k, .src) ∉ s.live)

/-- Used in the proofs; models no code. -/
structure FlatR (s : St) : Prop where
  one : s.live.length ≤ 1
  over : s.over = true → s.live = []
  shape : ShapeR s

theorem FlatR.tell (h : FlatR s) (x) : FlatR (s.tell x) := by
  have hlive : (s.tell x).live = [] := by
    unfold St.tell St.say; split
    · rename_i ho; exact h.over ho
    · rfl
  refine ⟨by simp [hlive], fun _ => hlive, ?_⟩
  rcases h.shape with h1 | ⟨T, hT, h1, h2⟩ | ⟨T, hT, h1, h2⟩ | ⟨j, T, hT, h1, h2⟩
  · exact .idle (by rw [tell_stack]; exact h1)
  · exact .term T hT (by rw [tell_stack]; exact h1) (by simp [hlive])
  · exact .guard T hT (by rw [tell_stack]; exact h1) (by simp [hlive])
  · exact .code j T hT (by rw [tell_stack]; exact h1) (by simp [hlive])

theorem FlatR.notify (h : FlatR s) (hi : Inv .resume s) {k r} (hm : (k, r) ∈ s.live) (n) :
    FlatR (s.notify .resume k r n) := by
  have he := erase_one h.one hm
  have ho := hi.notOver hm
  have hu := hi.uses _ hm
  cases n <;> cases r <;> simp only [Uses] at hu <;> simp only [St.notify]
  · exact h
  · exact h
  · refine ⟨?_, ?_, ?_⟩
    · simp [St.subscribe, St.push, St.say, St.endOf, he]
    · intro ho'; simp [St.subscribe, St.push, St.say, St.endOf, ho] at ho'
    · refine .code s.subs s.stack ?_ rfl ?_
      · rcases h.shape with h1 | ⟨T, hT, h1, h2⟩ | ⟨T, hT, h1, h2⟩ | ⟨j, T, hT, h1, h2⟩
        · exact h1
        · exact absurd hm (h2 k)
        · exact absurd hm (h2 k)
        · exact absurd hm (h2 k)
      · simp [St.subscribe, St.push, St.say, St.endOf, he]
  · exact h.tell _
  · exact h.tell _
  · exact h.tell _

theorem FlatR.step (h : FlatR s) (hi : Inv .resume s) (hf : s.started = false → s.live = [] ∧ s.stack = []) (l) : FlatR (step .resume s l) := by
  unfold Stack.step
  split
  · exact h
  have emit : ∀ k r n, FlatR (if (k, r) ∈ s.live then s.notify .resume k r n else s) := by
    intro k r n
    split
    · rename_i hm; exact h.notify hi hm n
    · exact h
  have disp : FlatR (if s.over then s else { s with over := true, live := [] }.say .disposed) := by
    split
    · exact h
    · refine ⟨by simp [St.say], fun _ => rfl, ?_⟩
      rcases h.shape with h1 | ⟨T, hT, h1, h2⟩ | ⟨T, hT, h1, h2⟩ | ⟨j, T, hT, h1, h2⟩
      · exact .idle h1
      · exact .term T hT h1 (by simp [St.say])
      · exact .guard T hT h1 (by simp [St.say])
      · exact .code j T hT h1 (by simp [St.say])
  split
  · rename_i hs
    split
    · exact h
    · rename_i hn
      have hl : s.live = [] := (hf (by simp_all)).1
      refine ⟨by simp [St.subscribe, St.say, hl], ?_, .idle (.inr ⟨s.subs, by simp [St.subscribe, St.say, hs]⟩)⟩
      intro ho; simp_all [St.subscribe, St.say]
  · exact emit _ _ _
  · exact emit _ _ _
  · exact disp
  · exact disp
  · rename_i k r fs hs
    refine ⟨h.one, h.over, ?_⟩
    rcases h.shape with h1 | ⟨T, hT, h1, h2⟩ | ⟨T, hT, h1, h2⟩ | ⟨j, T, hT, h1, h2⟩
    · rw [hs] at h1
      rcases h1 with h1 | ⟨k, h1⟩
      · cases h1
      · injection h1 with _ h1; exact .idle (.inl h1)
    · simp [hs] at h1
    · simp [hs] at h1
    · rw [hs] at h1; injection h1 with h1 h3; subst h3
      exact .guard T hT rfl h2
  · rename_i x k r fs hs
    rcases h.shape with h1 | ⟨T, hT, h1, h2⟩ | ⟨T, hT, h1, h2⟩ | ⟨j, T, hT, h1, h2⟩
    · rw [hs] at h1
      rcases h1 with h1 | ⟨k, h1⟩
      · cases h1
      · injection h1 with _ h1; subst h1
        exact ⟨h.one, h.over, .idle (.inl rfl)⟩
    · simp [hs] at h1
    · simp [hs] at h1
    · rw [hs] at h1; injection h1 with h1 h3; subst h3
      simp only [St.unwind]
      split
      · exact ⟨h.one, h.over, .term T hT rfl h2⟩
      · exact FlatR.tell (s := { s.say (.threw k r x) with stack := .term :: T }) ⟨h.one, h.over, .term T hT rfl h2⟩ _
  case _ | _ | _ | _ =>
    rename_i fs hs
    rcases h.shape with h1 | ⟨T, hT, h1, h2⟩ | ⟨T, hT, h1, h2⟩ | ⟨j, T, hT, h1, h2⟩ <;> simp [hs, Base] at h1
  · rename_i fs hs
    refine ⟨h.one, h.over, ?_⟩
    rcases h.shape with h1 | ⟨T, hT, h1, h2⟩ | ⟨T, hT, h1, h2⟩ | ⟨j, T, hT, h1, h2⟩
    · simp [hs, Base] at h1
    · simp [hs] at h1
    · rw [hs] at h1; injection h1 with h1 h3; subst h3
      exact .term T hT rfl h2
    · simp [hs] at h1
  · rename_i fs hs
    rcases h.shape with h1 | ⟨T, hT, h1, h2⟩ | ⟨T, hT, h1, h2⟩ | ⟨j, T, hT, h1, h2⟩ <;> simp [hs, Base] at h1
  · rename_i fs hs
    refine ⟨h.one, h.over, ?_⟩
    rcases h.shape with h1 | ⟨T, hT, h1, h2⟩ | ⟨T, hT, h1, h2⟩ | ⟨j, T, hT, h1, h2⟩
    · simp [hs, Base] at h1
    · rw [hs] at h1; injection h1 with h1 h3; subst h3
      exact .idle hT
    · simp [hs] at h1
    · simp [hs] at h1
  · exact h

/-! ## concat -/

/-- The inner subscription which has not ended. -/
def St.inn (s : St) : List (Nat × Role) := s.live.filter (fun p => p.2 == Role.inner)

/-- Used in the proofs; models no code. -/
def Scope (S : Frame) : Prop := S = .next ∨ S = .term

/-- The drain is inside `subscribe`. -/
def St.Inside (s : St) : Prop := s.over = true ∨ s.stage = .draining ∨ (s.stage = .ended ∧ s.inn = [])

/-- Used in the proofs; models no code. -/
inductive ShapeK (s : St) : Prop where
  | idle (hT : Base .outer s.stack)
  | scope (S T) (hS : Scope S) (hT : Base .outer T) (h : s.stack = S :: T)
  | head (S T) (hS : Scope S) (hT : Base .outer T) (h : s.stack = .pump false :: S :: T) (hl : s.inn = [])
  | back (S T) (hS : Scope S) (hT : Base .outer T) (h : s.stack = .pump true :: S :: T) (hl : s.Inside)
  | code (j S T) (hS : Scope S) (hT : Base .outer T) (h : s.stack = .body j .inner :: .pump true :: S :: T) (hl : s.Inside)

/-- Used in the proofs; models no code. -/
structure FlatK (s : St) : Prop where
  one : s.inn.length ≤ 1
  over : s.over = true → s.live = []
  none : s.stage = .none → s.inn = []
  shape : ShapeK s

/-- Nothing but the live subscriptions, the log and the end changes, and the former only shrink. -/
theorem FlatK.less (h : FlatK s) {s' : St} (hst : s'.stack = s.stack) (hsg : s'.stage = s.stage) (hsub : s'.live.Sublist s.live)
    (hov : s.over = true → s'.over = true) (hov' : s'.over = true → s'.live = []) : FlatK s' := by
  have hin : s'.inn.Sublist s.inn := hsub.filter _
  have hnil : s.inn = [] → s'.inn = [] := by intro h; rw [h] at hin; exact List.sublist_nil.mp hin
  have hins : s.Inside → s'.Inside := by
    rintro (h | h | ⟨h, h'⟩)
    · exact .inl (hov h)
    · exact .inr (.inl (by rw [hsg, h]))
    · exact .inr (.inr ⟨by rw [hsg, h], hnil h'⟩)
  refine ⟨Nat.le_trans hin.length_le h.one, hov', by rw [hsg]; exact fun hn => hnil (h.none hn), ?_⟩
  rcases h.shape with h1 | ⟨S, T, hS, hT, h1⟩ | ⟨S, T, hS, hT, h1, h2⟩ | ⟨S, T, hS, hT, h1, h2⟩ | ⟨j, S, T, hS, hT, h1, h2⟩
  · exact .idle (by rw [hst]; exact h1)
  · exact .scope S T hS hT (by rw [hst]; exact h1)
  · exact .head S T hS hT (by rw [hst]; exact h1) (hnil h2)
  · exact .back S T hS hT (by rw [hst]; exact h1) (hins h2)
  · exact .code j S T hS hT (by rw [hst]; exact h1) (hins h2)

theorem FlatK.tell (h : FlatK s) (x) : FlatK (s.tell x) := by
  have hlive : (s.tell x).live = [] := by
    unfold St.tell St.say; split
    · rename_i ho; exact h.over ho
    · rfl
  refine h.less (tell_stack x) ?_ (by rw [hlive]; exact List.nil_sublist _) (fun _ => tell_over x) (fun _ => hlive)
  unfold St.tell St.say; split <;> rfl

theorem FlatK.endOf (h : FlatK s) (k r) : FlatK (s.endOf k r) :=
  h.less rfl rfl List.erase_sublist id (fun ho => by simp [St.endOf, h.over ho])

theorem inn_erase {k} (h : s.inn.length ≤ 1) (hm : (k, Role.inner) ∈ s.live) : (s.endOf k .inner).inn = [] := by
  have : (s.endOf k .inner).inn = s.inn.erase (k, .inner) := by
    simp only [St.inn, St.endOf]
    rw [List.erase_filter]
  rw [this]
  refine erase_one h ?_
  simp [St.inn, hm]

theorem FlatK.notify (h : FlatK s) (hi : Inv .concat s) (hb : ∀ f fs, s.stack = f :: fs → ∃ k r, f = .body k r) {k r} (hm : (k, r) ∈ s.live) (n) :
    FlatK (s.notify .concat k r n) := by
  have ho := hi.notOver hm
  have hu := hi.uses _ hm
  have base : s.stage ≠ .draining → s.inn ≠ [] ∨ s.stage = .none → Base .outer s.stack := by
    intro h1 h0
    rcases h.shape with h2 | ⟨S, T, hS, hT, h2⟩ | ⟨S, T, hS, hT, h2, h3⟩ | ⟨S, T, hS, hT, h2, h3⟩ | ⟨j, S, T, hS, hT, h2, h3⟩
    · exact h2
    · obtain ⟨_, _, h4⟩ := hb _ _ h2; rcases hS with rfl | rfl <;> cases h4
    · obtain ⟨_, _, h4⟩ := hb _ _ h2; cases h4
    · obtain ⟨_, _, h4⟩ := hb _ _ h2; cases h4
    · rcases h3 with h3 | h3 | ⟨h3, h4⟩
      · simp [ho] at h3
      · exact absurd h3 h1
      · rcases h0 with h0 | h0
        · exact absurd h4 h0
        · rw [h3] at h0; cases h0
  cases n <;> cases r <;> simp only [Uses] at hu <;> simp only [St.notify]
  · split
    · rename_i hn
      refine ⟨?_, ?_, ?_, .code s.subs .next s.stack (.inl rfl) (base (by simp [hn]) (.inr hn)) rfl (.inr (.inl rfl))⟩
      · have := h.none hn
        simp only [St.inn] at this
        simp [St.inn, St.subscribe, St.push, St.say, this]
      · intro ho'; simp [St.subscribe, St.push, St.say, ho] at ho'
      · intro hn'; cases hn'
    · exact h.less rfl rfl (List.Sublist.refl _) id h.over
  · exact h
  · exact h.tell _
  · exact h.tell _
  · split
    · unfold St.last
      split
      · exact (h.endOf _ _).tell _
      · exact h.endOf _ _
    · exact h.endOf _ _
  · have he := inn_erase h.one hm
    split
    · rename_i hn
      have h' := h.endOf k .inner
      refine ⟨h'.one, h'.over, (by intro hn'; cases hn'), ?_⟩
      rcases h.shape with h1 | ⟨S, T, hS, hT, h1⟩ | ⟨S, T, hS, hT, h1, h2⟩ | ⟨S, T, hS, hT, h1, h2⟩ | ⟨j, S, T, hS, hT, h1, h2⟩
      · exact .idle h1
      · exact .scope S T hS hT h1
      · exact .head S T hS hT h1 he
      · exact .back S T hS hT h1 (.inr (.inr ⟨rfl, he⟩))
      · exact .code j S T hS hT h1 (.inr (.inr ⟨rfl, he⟩))
    · rename_i hn
      have h' := h.endOf k .inner
      refine ⟨h'.one, h'.over, h'.none, .head .term s.stack (.inr rfl) (base hn (.inl ?_)) rfl he⟩
      intro hin
      have : (k, Role.inner) ∈ s.inn := by simp [St.inn, hm]
      rw [hin] at this; cases this

theorem FlatK.pumpTurn (h : FlatK s) {b S T} (hS : Scope S) (hT : Base .outer T) (hs : s.stack = .pump b :: S :: T) (hl : s.over = false → s.inn = []) :
    FlatK s.pumpTurn := by
  unfold St.pumpTurn
  simp only [hs, List.tail_cons]
  split
  · exact ⟨h.one, h.over, h.none, .scope S T hS hT rfl⟩
  · rename_i ho
    have hin := hl (by simpa using ho)
    split
    · have h2 : FlatK { s with stack := S :: T, stage := .none } := ⟨h.one, h.over, fun _ => hin, .scope S T hS hT rfl⟩
      split
      · exact h2.tell Option.none
      · exact h2
    · refine ⟨?_, ?_, ?_, .code s.subs S T hS hT rfl (.inr (.inl rfl))⟩
      · simp only [St.inn] at hin
        simp [St.inn, St.subscribe, St.push, St.say, hin]
      · intro ho'; exact absurd ho' (by simpa [St.subscribe, St.push, St.say] using ho)
      · intro hn; cases hn

theorem FlatK.step (h : FlatK s) (hi : Inv .concat s) (hf : s.started = false → s.live = [] ∧ s.stack = []) (l) : FlatK (step .concat s l) := by
  unfold Stack.step
  split
  · exact h
  have emit : (∀ f fs, s.stack = f :: fs → ∃ k r, f = .body k r) → ∀ k r n, FlatK (if (k, r) ∈ s.live then s.notify .concat k r n else s) := by
    intro hb k r n
    split
    · rename_i hm; exact h.notify hi hb hm n
    · exact h
  have disp : FlatK (if s.over then s else { s with over := true, live := [] }.say .disposed) := by
    split
    · exact h
    · exact h.less rfl rfl (List.nil_sublist _) (fun _ => rfl) (fun _ => rfl)
  split
  · rename_i hs
    split
    · exact h
    · rename_i hn
      have hl : s.live = [] := (hf (by simp_all)).1
      refine ⟨by simp [St.inn, St.subscribe, St.say, hl], ?_, ?_, .idle (.inr ⟨s.subs, by simp [St.subscribe, St.say, hs]⟩)⟩
      · intro ho; simp_all [St.subscribe, St.say]
      · intro _; simp [St.inn, St.subscribe, St.say, hl]
  · rename_i hs; exact emit (by simp [hs]) _ _ _
  · rename_i hs; exact emit (by rw [hs]; intro f fs h; cases h; exact ⟨_, _, rfl⟩) _ _ _
  · exact disp
  · exact disp
  · rename_i k r fs hs
    refine ⟨h.one, h.over, h.none, ?_⟩
    rcases h.shape with h1 | ⟨S, T, hS, hT, h1⟩ | ⟨S, T, hS, hT, h1, h2⟩ | ⟨S, T, hS, hT, h1, h2⟩ | ⟨j, S, T, hS, hT, h1, h2⟩
    · rw [hs] at h1
      rcases h1 with h1 | ⟨k, h1⟩
      · cases h1
      · injection h1 with _ h1; exact .idle (.inl h1)
    · rw [hs] at h1; injection h1 with h1 h3; rcases hS with rfl | rfl <;> cases h1
    · simp [hs] at h1
    · simp [hs] at h1
    · rw [hs] at h1; injection h1 with h1 h3; subst h3
      exact .back S T hS hT rfl h2
  · rename_i x k r fs hs
    rcases h.shape with h1 | ⟨S, T, hS, hT, h1⟩ | ⟨S, T, hS, hT, h1, h2⟩ | ⟨S, T, hS, hT, h1, h2⟩ | ⟨j, S, T, hS, hT, h1, h2⟩
    · rw [hs] at h1
      rcases h1 with h1 | ⟨k, h1⟩
      · cases h1
      · injection h1 with _ h1; subst h1
        exact ⟨h.one, h.over, h.none, .idle (.inl rfl)⟩
    · rw [hs] at h1; injection h1 with h1 h3; rcases hS with rfl | rfl <;> cases h1
    · simp [hs] at h1
    · simp [hs] at h1
    · rw [hs] at h1; injection h1 with h1 h3; subst h3
      rcases hS with rfl | rfl
      · simp only [St.unwind]
        split
        · exact ⟨h.one, h.over, h.none, .idle hT⟩
        · exact FlatK.tell (s := { s.say (.threw k r x) with stack := T }) ⟨h.one, h.over, h.none, .idle hT⟩ _
      · exact ⟨h.one, h.over, h.none, .code k .term T (.inr rfl) hT (by injection h1 with a b; subst b; exact hs) h2⟩
  case _ | _ =>
    rename_i fs hs
    rcases h.shape with h1 | ⟨S, T, hS, hT, h1⟩ | ⟨S, T, hS, hT, h1, h2⟩ | ⟨S, T, hS, hT, h1, h2⟩ | ⟨j, S, T, hS, hT, h1, h2⟩
    · simp [hs, Base] at h1
    · rw [hs] at h1; injection h1 with h1 h3; rcases hS with rfl | rfl <;> cases h1
    · simp [hs] at h1
    · simp [hs] at h1
    · simp [hs] at h1
  · rename_i fs hs
    rcases h.shape with h1 | ⟨S, T, hS, hT, h1⟩ | ⟨S, T, hS, hT, h1, h2⟩ | ⟨S, T, hS, hT, h1, h2⟩ | ⟨j, S, T, hS, hT, h1, h2⟩
    · simp [hs, Base] at h1
    · rw [hs] at h1; injection h1 with h1 h3; rcases hS with rfl | rfl <;> cases h1
    · exact h.pumpTurn hS hT h1 (fun _ => h2)
    · simp [hs] at h1
    · simp [hs] at h1
  · rename_i fs hs
    rcases h.shape with h1 | ⟨S, T, hS, hT, h1⟩ | ⟨S, T, hS, hT, h1, h2⟩ | ⟨S, T, hS, hT, h1, h2⟩ | ⟨j, S, T, hS, hT, h1, h2⟩
    · simp [hs, Base] at h1
    · rw [hs] at h1; injection h1 with h1 h3; rcases hS with rfl | rfl <;> cases h1
    · simp [hs] at h1
    · split
      · rw [hs] at h1; injection h1 with h1 h3; subst h3
        exact ⟨h.one, h.over, (by intro hn; cases hn), .scope S T hS hT rfl⟩
      · rename_i hn
        refine h.pumpTurn hS hT h1 ?_
        intro ho
        rcases h2 with h2 | h2 | ⟨_, h2⟩
        · rw [ho] at h2; cases h2
        · exact absurd h2 hn
        · exact h2
    · simp [hs] at h1
  · rename_i fs hs
    rcases h.shape with h1 | ⟨S, T, hS, hT, h1⟩ | ⟨S, T, hS, hT, h1, h2⟩ | ⟨S, T, hS, hT, h1, h2⟩ | ⟨j, S, T, hS, hT, h1, h2⟩
    · simp [hs, Base] at h1
    · rw [hs] at h1; injection h1 with h1 h3; rcases hS with rfl | rfl <;> cases h1
    · simp [hs] at h1
    · simp [hs] at h1
    · simp [hs] at h1
  case _ | _ =>
    rename_i fs hs
    refine ⟨h.one, h.over, h.none, ?_⟩
    rcases h.shape with h1 | ⟨S, T, hS, hT, h1⟩ | ⟨S, T, hS, hT, h1, h2⟩ | ⟨S, T, hS, hT, h1, h2⟩ | ⟨j, S, T, hS, hT, h1, h2⟩
    · simp [hs, Base] at h1
    · rw [hs] at h1; injection h1 with h1 h3; subst h3; exact .idle hT
    · simp [hs] at h1
    · simp [hs] at h1
    · simp [hs] at h1
  · exact h

/-! ## retry_when -/

/-- What the loop runs in: the call of `subscribe()`, or a notification from a notifier, made from nowhere or by its own code. -/
inductive Under9 (s : St) : List Frame → Prop where
  | nil : Under9 s []
  | next : Under9 s [.next]
  | code (k) (h : ∀ r, (k, r) ∉ s.live) (hk : k < s.subs) : Under9 s [.next, .body k .notif, .guard, .term]

/-- The stack of a notifier's code, as far as it is left. -/
inductive Asking : List Frame → Prop where
  | term : Asking [.term]
  | guard : Asking [.guard, .term]
  | code (j) : Asking [.body j .notif, .guard, .term]

/-- Used in the proofs; models no code. -/
inductive ShapeW (s : St) : Prop where
  | idle (h : Under9 s s.stack)
  | ask (h : Asking s.stack) (hj : ∀ j, .body j .notif ∈ s.stack → (j, .src) ∉ s.live ∧ j < s.subs)
  | head (T) (hT : Under9 s T) (h : s.stack = .loop false :: T) (hl : s.live = [])
  | back (T) (hT : Under9 s T) (h : s.stack = .loop true :: T) (hl : s.live ≠ [] → s.flag = true)
  | code (k T) (hT : Under9 s T) (h : s.stack = .body k .src :: .loop true :: T) (hl : s.live ≠ [] → s.flag = true)
  | deep (k A T) (hT : Under9 s T) (hA : Asking A) (h : s.stack = A ++ .body k .src :: .loop true :: T) (hl : s.live ≠ [] → s.flag = true)
      (hn : ∀ j, (j, .src) ∉ s.live)

/-- Used in the proofs; models no code. -/
structure FlatW (s : St) : Prop where
  one : s.live.length ≤ 1
  over : s.over = true → s.live = []
  ids : ∀ p ∈ s.live, p.1 < s.subs
  shape : ShapeW s

theorem Under9.mono {s' : St} {T} (h : Under9 s T) (hl : ∀ k, (∀ r, (k, r) ∉ s.live) → k < s.subs → ∀ r, (k, r) ∉ s'.live) (hs : s.subs ≤ s'.subs) : Under9 s' T := by
  cases h with
  | nil => exact .nil
  | next => exact .next
  | code k h1 h2 => exact .code k (hl k h1 h2) (by omega)

/-- All subscriptions end. -/
theorem FlatW.gone (h : FlatW s) {s' : St} (hst : s'.stack = s.stack) (hl : s'.live = []) (hsub : s'.subs = s.subs) : FlatW s' := by
  have hu : ∀ T, Under9 s T → Under9 s' T := fun T hT => hT.mono (by simp [hl]) (by simp [hsub])
  refine ⟨by simp [hl], fun _ => hl, by simp [hl], ?_⟩
  rcases h.shape with h1 | ⟨h1, hj⟩ | ⟨T, hT, h1, h2⟩ | ⟨T, hT, h1, h2⟩ | ⟨j, T, hT, h1, h2⟩ | ⟨j, A, T, hT, hA, h1, h2, h3⟩
  · exact .idle (by rw [hst]; exact hu _ h1)
  · exact .ask (by rw [hst]; exact h1) (by rw [hst, hsub, hl]; intro j hm; exact ⟨by simp, (hj j hm).2⟩)
  · exact .head T (hu _ hT) (by rw [hst]; exact h1) hl
  · exact .back T (hu _ hT) (by rw [hst]; exact h1) (by simp [hl])
  · exact .code j T (hu _ hT) (by rw [hst]; exact h1) (by simp [hl])
  · exact .deep j A T (hu _ hT) hA (by rw [hst]; exact h1) (by simp [hl]) (by simp [hl])

theorem FlatW.tell (h : FlatW s) (x) : FlatW (s.tell x) := by
  refine h.gone (tell_stack x) ?_ ?_
  · unfold St.tell St.say; split
    · rename_i ho; exact h.over ho
    · rfl
  · unfold St.tell St.say; split <;> rfl

theorem FlatW.turn (h : FlatW s) {b T} (hT : Under9 s T) (hs : s.stack = .loop b :: T) (hl : s.live = []) : FlatW (s.turn .retryWhen) := by
  unfold St.turn
  simp only [hs, List.tail_cons]
  have h2 : FlatW { s with stack := T } := ⟨h.one, h.over, h.ids, .idle (hT.mono (fun _ h _ => h) (Nat.le_refl _))⟩
  split
  · exact h2
  · rename_i ho
    split
    · exact h2.tell none
    · refine ⟨?_, ?_, ?_, .code _ T (hT.mono ?_ ?_) rfl ?_⟩
      · simp [St.subscribe, St.push, St.say, hl]
      · simp [St.subscribe, St.push, St.say, ho]
      · simp [St.subscribe, St.push, St.say, hl]
      · simp [St.subscribe, St.push, St.say, hl]; omega
      · simp [St.subscribe, St.push, St.say]
      · simp [St.subscribe, St.push, St.say]

/-- A notification, when the program's code on top of the stack only notifies its own observer. -/
theorem FlatW.notify (h : FlatW s) (hi : Inv .retryWhen s) {k r} (hm : (k, r) ∈ s.live)
    (hb : s.stack = [] ∨ ∃ r' fs, s.stack = .body k r' :: fs) (n) : FlatW (s.notify .retryWhen k r n) := by
  have he := erase_one h.one hm
  have hne : s.live ≠ [] := by intro h; simp [h] at hm
  have ho := hi.notOver hm
  have hu := hi.uses _ hm
  have hk := h.ids _ hm
  have h0 : FlatW { s.endOf k r with flag := false } := h.gone rfl he rfl
  have only : ∀ p ∈ s.live, p = (k, r) := by
    intro p hp
    have h1 := h.one
    match hs : s.live, h1 with
    | [], _ => rw [hs] at hp; cases hp
    | [q], _ =>
      rw [hs] at hp hm
      simp only [List.mem_singleton] at hp hm
      rw [hp, hm]
  cases n <;> cases r <;> simp only [Uses] at hu <;> simp only [St.notify]
  · exact h
  · unfold St.again
    split
    · exact h0
    · rename_i hf
      refine ⟨by simp [St.push, St.endOf, he], fun _ => he, by simp [St.push, St.endOf, he], .head (.next :: s.stack) ?_ rfl he⟩
      rcases h.shape with h1 | ⟨h1, hj⟩ | ⟨T, hT, h1, h2⟩ | ⟨T, hT, h1, h2⟩ | ⟨j, T, hT, h1, h2⟩ | ⟨j, A, T, hT, hA, h1, h2, h3⟩
      · cases hs : s.stack with
        | nil => exact .next
        | cons f fs =>
          rw [hs] at h1 hb
          rcases hb with hb | ⟨r', fs', hb⟩
          · cases hb
          · injection hb with hb; subst hb; cases h1
      · rcases hb with hb | ⟨r', fs', hb⟩
        · rw [hb]; exact .next
        · rw [hb] at h1 ⊢
          cases h1
          exact .code k (by simp [St.push, St.endOf, he]) hk
      · exact absurd h2 hne
      · rw [h1] at hb; rcases hb with hb | ⟨_, _, hb⟩ <;> cases hb
      · exact absurd (h2 hne) (by simpa [St.endOf] using hf)
      · exact absurd (h2 hne) (by simpa [St.endOf] using hf)
  · refine ⟨?_, ?_, ?_, ?_⟩
    · simp [St.subscribe, St.push, St.say, St.endOf, he]
    · intro ho'; simp [St.subscribe, St.push, St.say, St.endOf, ho] at ho'
    · simp [St.subscribe, St.push, St.say, St.endOf, he]
    · rcases h.shape with h1 | ⟨h1, hj⟩ | ⟨T, hT, h1, h2⟩ | ⟨T, hT, h1, h2⟩ | ⟨j, T, hT, h1, h2⟩ | ⟨j, A, T, hT, hA, h1, h2, h3⟩
      · rcases hb with hb | ⟨r', fs', hb⟩
        · refine .ask ?_ ?_
          · simp only [St.subscribe, St.push, St.say, St.endOf, hb]
            exact .code _
          · simp [St.subscribe, St.push, St.say, St.endOf, hb, he]
        · rw [hb] at h1; cases h1
      · rcases hb with hb | ⟨r', fs', hb⟩
        · rw [hb] at h1; cases h1
        · rw [hb] at h1 hj
          cases h1
          exact absurd hm (hj k (by simp)).1
      · exact absurd h2 hne
      · rw [h1] at hb; rcases hb with hb | ⟨_, _, hb⟩ <;> cases hb
      · refine .deep j [.body s.subs .notif, .guard, .term] T (hT.mono ?_ ?_) (.code _) ?_ ?_ ?_
        · intro i _ hi; simp [St.subscribe, St.push, St.say, St.endOf, he]; omega
        · simp [St.subscribe, St.push, St.say, St.endOf]
        · simp [St.subscribe, St.push, St.say, St.endOf, h1]
        · intro _; exact h2 hne
        · simp [St.subscribe, St.push, St.say, St.endOf, he]
      · exact absurd hm (h3 k)
  · exact h.tell _
  · exact h.tell _
  · exact h.tell _

theorem FlatW.step (h : FlatW s) (hi : Inv .retryWhen s) (hf : s.started = false → s.live = [] ∧ s.stack = []) (l)
    (hown : ∀ k r n, l = .emit k r n → ∀ k' r' fs, s.stack = .body k' r' :: fs → k' = k) : FlatW (step .retryWhen s l) := by
  unfold Stack.step
  split
  · exact h
  have same : ∀ fs, { s with stack := fs }.live = s.live ∧ { s with stack := fs }.subs = s.subs := fun _ => ⟨rfl, rfl⟩
  have hu : ∀ {T fs}, Under9 s T → Under9 { s with stack := fs } T := fun hT => hT.mono (fun _ h _ => h) (Nat.le_refl _)
  have disp : FlatW (if s.over then s else { s with over := true, live := [] }.say .disposed) := by
    split
    · exact h
    · exact h.gone rfl rfl rfl
  split
  · rename_i hs
    split
    · exact h
    · rename_i hn
      have hl : s.live = [] := (hf (by simp_all)).1
      exact ⟨h.one, h.over, h.ids, .head [] .nil (by simp [St.push, hs]) hl⟩
  · rename_i hs
    split
    · rename_i hm; exact h.notify hi hm (.inl hs) _
    · exact h
  · rename_i k r n k' r' fs hs
    split
    · rename_i hm
      have := hown _ _ _ rfl _ _ _ hs
      subst this
      exact h.notify hi hm (.inr ⟨_, _, hs⟩) _
    · exact h
  · exact disp
  · exact disp
  · rename_i k r fs hs
    refine ⟨h.one, h.over, h.ids, ?_⟩
    rcases h.shape with h1 | ⟨h1, hj⟩ | ⟨T, hT, h1, h2⟩ | ⟨T, hT, h1, h2⟩ | ⟨j, T, hT, h1, h2⟩ | ⟨j, A, T, hT, hA, h1, h2, h3⟩
    · rw [hs] at h1; cases h1
    · rw [hs] at h1; cases h1; exact .ask .guard (by simp)
    · simp [hs] at h1
    · simp [hs] at h1
    · rw [hs] at h1; injection h1 with h1 h3; subst h3
      exact .back T (hu hT) rfl h2
    · cases hA
      · simp [hs] at h1
      · simp [hs] at h1
      · rw [hs] at h1; injection h1 with h1 h4; subst h4
        exact .deep j _ T (hu hT) .guard rfl h2 h3
  · rename_i x k r fs hs
    rcases h.shape with h1 | ⟨h1, hj⟩ | ⟨T, hT, h1, h2⟩ | ⟨T, hT, h1, h2⟩ | ⟨j, T, hT, h1, h2⟩ | ⟨j, A, T, hT, hA, h1, h2, h3⟩
    · rw [hs] at h1; cases h1
    · rw [hs] at h1; cases h1
      simp only [St.unwind]
      have h2 : FlatW { s.say (.threw k .notif x) with stack := [.term] } := ⟨h.one, h.over, h.ids, .ask .term (by simp)⟩
      split
      · exact ⟨h2.one, h2.over, h2.ids, .ask .term (by simp [St.say])⟩
      · exact h2.tell _
    · simp [hs] at h1
    · simp [hs] at h1
    · rw [hs] at h1; injection h1 with h1 h3; subst h3
      simp only [St.unwind]
      have h2 : FlatW { s.say (.threw k r x) with stack := T } := ⟨h.one, h.over, h.ids, .idle (hT.mono (fun _ h _ => h) (Nat.le_refl _))⟩
      split
      · exact ⟨h2.one, h2.over, h2.ids, .idle (hT.mono (fun _ h _ => h) (Nat.le_refl _))⟩
      · exact h2.tell _
    · cases hA
      · simp [hs] at h1
      · simp [hs] at h1
      · rw [hs] at h1; injection h1 with h1 h4; subst h4
        change FlatW (St.unwind _ _ (.guard :: .term :: .body j .src :: .loop true :: T))
        simp only [St.unwind]
        have h2' : FlatW { s.say (.threw k r x) with stack := .term :: .body j .src :: .loop true :: T } :=
          ⟨h.one, h.over, h.ids, .deep j [.term] T (hT.mono (fun _ h _ => h) (Nat.le_refl _)) .term rfl h2 h3⟩
        split
        · exact ⟨h2'.one, h2'.over, h2'.ids, .deep j [.term] T (hT.mono (fun _ h _ => h) (Nat.le_refl _)) .term rfl h2 h3⟩
        · exact h2'.tell _
  · rename_i fs hs
    rcases h.shape with h1 | ⟨h1, hj⟩ | ⟨T, hT, h1, h2⟩ | ⟨T, hT, h1, h2⟩ | ⟨j, T, hT, h1, h2⟩ | ⟨j, A, T, hT, hA, h1, h2, h3⟩
    · rw [hs] at h1; cases h1
    · rw [hs] at h1; cases h1
    · exact h.turn hT h1 h2
    · simp [hs] at h1
    · simp [hs] at h1
    · cases hA <;> simp [hs] at h1
  · rename_i fs hs
    rcases h.shape with h1 | ⟨h1, hj⟩ | ⟨T, hT, h1, h2⟩ | ⟨T, hT, h1, h2⟩ | ⟨j, T, hT, h1, h2⟩ | ⟨j, A, T, hT, hA, h1, h2, h3⟩
    · rw [hs] at h1; cases h1
    · rw [hs] at h1; cases h1
    · simp [hs] at h1
    · split
      · rw [hs] at h1; injection h1 with h1 h3; subst h3
        exact ⟨h.one, h.over, h.ids, .idle (hT.mono (fun _ h _ => h) (Nat.le_refl _))⟩
      · rename_i hfl
        refine h.turn hT h1 ?_
        by_cases hl : s.live = []
        · exact hl
        · exact absurd (h2 hl) hfl
    · simp [hs] at h1
    · cases hA <;> simp [hs] at h1
  case _ | _ =>
    rename_i fs hs
    exact absurd (hi.fits _ (by rw [hs]; exact List.mem_cons_self)) (by simp [Fits])
  case _ | _ | _ =>
    rename_i fs hs
    refine ⟨h.one, h.over, h.ids, ?_⟩
    rcases h.shape with h1 | ⟨h1, hj⟩ | ⟨T, hT, h1, h2⟩ | ⟨T, hT, h1, h2⟩ | ⟨j, T, hT, h1, h2⟩ | ⟨j, A, T, hT, hA, h1, h2, h3⟩
    · rw [hs] at h1
      cases h1
      all_goals first | exact .idle .nil | (rename_i k hk1 hk2; exact .ask (.code k) (by intro j hj; simp at hj; subst hj; exact ⟨hk1 _, hk2⟩))
    · rw [hs] at h1
      cases h1
      all_goals first | exact .idle .nil | exact .ask .term (by simp)
    · simp [hs] at h1
    · simp [hs] at h1
    · simp [hs] at h1
    · cases hA <;> rw [hs] at h1 <;> injection h1 with h1 h4 <;> first | cases h1; done | skip
      all_goals subst h4
      all_goals first | exact .code j T (hu hT) rfl h2 | exact .deep j [.term] T (hu hT) .term rfl h2 h3
  · exact h

end Rpp.Stack
