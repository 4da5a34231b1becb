import Verif.Source.BlockingNested

/-!
# C113 — a thread that waits with `as_blocking` while it owns the queue of `current_thread` waits for ever
-/

namespace Rpp.BlkNest

/-! ## Helper lemmas -/

theorem owner_cons (f : Frame) (l : List Frame) : owner (f :: l) = (f.owner || owner l) := by
  simp [owner]

theorem owner_call (k : Nat) (ts : List (List Sub)) : (call k ts).owner = false := by
  cases ts <;> rfl

theorem good_call (k : Nat) (ts : List (List Sub)) (r : List Frame) :
    Good (call k ts :: r) ↔ (k ≠ 0 → owner r = true) ∧ Good r := by
  cases ts <;> rfl

theorem below_call (k n : Nat) (ts : List (List Sub)) : (call k ts).below n ↔ k < n := by
  cases ts <;> rfl

theorem call_eq (k : Nat) (ts : List (List Sub)) : ∃ t u, call k ts = .run k t u := by
  cases ts with
  | nil => exact ⟨_, _, rfl⟩
  | cons t ts => exact ⟨_, _, rfl⟩

theorem below_mono {n m : Nat} (h : n ≤ m) {f : Frame} (hf : f.below n) : f.below m := by
  cases f <;> simp only [Frame.below] at hf ⊢ <;> grind

theorem inv_init (user : Nat → List (List Sub)) (b : Bool) : Inv (init user b) := by
  constructor
  · obtain ⟨t, u, hc⟩ := call_eq 0 (user 0)
    cases b <;> simp [init, hc, owner, Frame.owner]
  · obtain ⟨t, u, hc⟩ := call_eq 0 (user 0)
    cases b <;> simp [init, hc, One, owner, Frame.owner]
  · intro _; rfl
  · simp [init]
  · intro f hf
    cases b <;> simp [init] at hf
    · subst hf; simp [init, below_call]
    · rcases hf with rfl | rfl
      · simp [init, below_call]
      · trivial
  · intro x hx; simp [init] at hx
  · intro x hx; simp [init] at hx
  · intro j h1 h2; simp [init] at h2; omega

theorem inv_step (user : Nat → List (List Sub)) (s : St) (h : Inv s) : Inv (step user s) := by
  obtain ⟨h1, ho1, h2, h3, h4, h5, h6, h7⟩ := h
  unfold step
  split
  · exact ⟨h1, ho1, h2, h3, h4, h5, h6, h7⟩
  · -- subscribe
    rename_i k a todo turns rest hs
    rw [hs] at h1 ho1 h4 h7
    simp only [owner_cons, Frame.owner, Bool.false_or] at h1
    constructor <;> dsimp only
    · rw [owner_cons, owner_cons, ← h1]
      simp only [Frame.owner, Bool.false_or]
      cases s.owned <;> cases a.own <;> rfl
    · obtain ⟨_, ho1⟩ := ho1
      refine ⟨?_, ?_, ho1⟩
      · simp only [Frame.owner, owner_cons, Bool.false_or, ← h1]; cases s.owned <;> simp
      · simp [Frame.owner]
    · intro hh; apply h2; revert hh; cases s.owned <;> simp
    · exact h3
    · intro f hf
      simp only [List.mem_cons] at hf h4
      rcases hf with rfl | rfl | hf
      · simp [Frame.below]
      · have := h4 (.run k (a :: todo) turns) (.inl rfl); exact this
      · exact h4 f (.inr hf)
    · exact h5
    · exact h6
    · intro j hj hn
      rcases h7 j hj hn with h | h | ⟨t, ts, h⟩
      · exact .inl h
      · exact .inr (.inl h)
      · refine .inr (.inr ?_)
        simp only [List.mem_cons, Frame.run.injEq] at h
        rcases h with ⟨rfl, _, _⟩ | h
        · exact ⟨todo, turns, by simp⟩
        · exact ⟨t, ts, by simp [h]⟩
  · -- end of a turn
    rename_i k t ts rest hs
    rw [hs] at h1 ho1 h4 h7
    simp only [owner_cons, Frame.owner, Bool.false_or] at h1
    split
    · constructor <;> dsimp only
      · rw [owner_cons, ← h1]; rfl
      · exact ⟨by simp [Frame.owner], ho1.2⟩
      · exact h2
      · exact h3
      · intro f hf
        simp only [List.mem_cons] at hf h4
        rcases hf with rfl | hf
        · have := h4 (.run k [] (t :: ts)) (.inl rfl); exact this
        · exact h4 f (.inr hf)
      · exact h5
      · exact h6
      · intro j hj hn
        rcases h7 j hj hn with h | h | ⟨t', ts', h⟩
        · exact .inl h
        · exact .inr (.inl h)
        · refine .inr (.inr ?_)
          simp only [List.mem_cons, Frame.run.injEq] at h
          rcases h with ⟨rfl, _, _⟩ | h
          · exact ⟨t, ts, by simp⟩
          · exact ⟨t', ts', by simp [h]⟩
    · rename_i hq
      constructor <;> dsimp only
      · exact h1
      · exact ho1.2
      · intro hh; exact absurd (by simp [h2 hh]) hq
      · exact h3
      · intro f hf; exact h4 f (by simp [hf])
      · intro x hx
        simp only [List.mem_append, List.mem_singleton] at hx
        rcases hx with hx | rfl
        · exact h5 x hx
        · exact h4 (.run k [] (t :: ts)) (by simp)
      · exact h6
      · intro j hj hn
        rcases h7 j hj hn with h | ⟨x, hx, rfl⟩ | ⟨t', ts', h⟩
        · exact .inl h
        · exact .inr (.inl ⟨x, by simp [hx], rfl⟩)
        · simp only [List.mem_cons, Frame.run.injEq] at h
          rcases h with ⟨rfl, _, _⟩ | h
          · exact .inr (.inl ⟨(j, t :: ts), by simp, rfl⟩)
          · exact .inr (.inr ⟨t', ts', h⟩)
  · -- end of a task
    rename_i k rest hs
    rw [hs] at h1 ho1 h4 h7
    simp only [owner_cons, Frame.owner, Bool.false_or] at h1
    constructor <;> dsimp only
    · exact h1
    · exact ho1.2
    · exact h2
    · exact h3
    · intro f hf; exact h4 f (by simp [hf])
    · exact h5
    · intro j hj
      simp only [List.mem_cons] at hj
      rcases hj with rfl | hj
      · exact h4 (.run j [] []) (by simp)
      · exact h6 j hj
    · intro j hj hn
      rcases h7 j hj hn with h | h | ⟨t', ts', h⟩
      · exact .inl (by simp [h])
      · exact .inr (.inl h)
      · simp only [List.mem_cons, Frame.run.injEq] at h
        rcases h with ⟨rfl, _, _⟩ | h
        · exact .inl (by simp)
        · exact .inr (.inr ⟨t', ts', h⟩)
  · -- the next source
    rename_i b srcs acc outer g rest hs
    rw [hs] at h1 ho1 h4 h7
    have h4' : ∀ f ∈ (if b then [Frame.wait [s.next]] else []) ++
        .subs srcs (s.next :: acc) outer g :: rest, f.below (s.next + 1) := by
      intro f hf
      simp only [List.mem_append, List.mem_cons] at hf
      rcases hf with hf | rfl | hf
      · cases b <;> simp at hf
        subst hf; simp [Frame.below]; exact h3
      · have := h4 (.subs (b :: srcs) acc outer g) (by simp)
        simp only [Frame.below] at this ⊢
        intro j hj
        simp only [List.mem_cons] at hj
        rcases hj with rfl | hj
        · omega
        · have := this j hj; omega
      · exact below_mono (by omega) (h4 f (by simp [hf]))
    have h1' : owner ((if b then [Frame.wait [s.next]] else []) ++
        .subs srcs (s.next :: acc) outer g :: rest) = s.owned := by
      rw [h1]; cases b <;> simp [owner_cons, Frame.owner]
    have ho1' : One ((if b then [Frame.wait [s.next]] else []) ++
        .subs srcs (s.next :: acc) outer g :: rest) := by
      cases b <;> simpa [One, Frame.owner] using ho1
    split
    · rename_i ho
      constructor <;> dsimp only
      · exact h1'.symm
      · exact ho1'
      · intro hh; simp [ho] at hh
      · omega
      · exact h4'
      · intro x hx
        simp only [List.mem_append, List.mem_singleton] at hx
        rcases hx with hx | rfl
        · have := h5 x hx; omega
        · dsimp only; omega
      · intro j hj; have := h6 j hj; omega
      · intro j hj hn
        by_cases e : j = s.next
        · exact .inr (.inl ⟨(s.next, user s.next), by simp, e.symm⟩)
        · rcases h7 j hj (by omega) with h | ⟨x, hx, rfl⟩ | ⟨t', ts', h⟩
          · exact .inl h
          · exact .inr (.inl ⟨x, by simp [hx], rfl⟩)
          · refine .inr (.inr ⟨t', ts', ?_⟩)
            simp at h
            simp [h]
    · rename_i ho
      constructor <;> dsimp only
      · simp [owner_cons, Frame.owner]
      · refine ⟨by simp [owner_call], ?_, ho1'⟩
        intro _; rw [h1']; simpa using ho
      · intro hh; simp at hh
      · omega
      · intro f hf
        rw [List.mem_cons, List.mem_cons] at hf
        rcases hf with rfl | rfl | hf
        · rw [below_call]; omega
        · trivial
        · exact h4' f hf
      · intro x hx; have := h5 x hx; omega
      · intro j hj; have := h6 j hj; omega
      · intro j hj hn
        by_cases e : j = s.next
        · obtain ⟨t, u, hc⟩ := call_eq s.next (user s.next)
          exact .inr (.inr ⟨t, u, by rw [e, hc]; simp⟩)
        · rcases h7 j hj (by omega) with h | ⟨x, hx, rfl⟩ | ⟨t', ts', h⟩
          · exact .inl h
          · exact .inr (.inl ⟨x, hx, rfl⟩)
          · refine .inr (.inr ⟨t', ts', ?_⟩)
            simp at h
            simp [h]
  · -- all sources are subscribed to
    rename_i acc outer g rest hs
    rw [hs] at h1 ho1 h4 h7
    constructor <;> dsimp only
    · rw [h1]; cases g <;> cases outer <;> simp [owner_cons, Frame.owner]
    · cases g <;> cases outer <;> simpa [One, Frame.owner, owner_cons] using ho1
    · exact h2
    · exact h3
    · intro f hf
      simp only [List.mem_append] at hf
      rcases hf with hf | hf | hf
      · cases g <;> simp at hf
        subst hf; trivial
      · cases outer <;> simp at hf
        subst hf
        exact h4 (.subs [] acc true g) (by simp)
      · exact h4 f (by simp [hf])
    · exact h5
    · exact h6
    · intro j hj hn
      rcases h7 j hj hn with h | h | ⟨t', ts', h⟩
      · exact .inl h
      · exact .inr (.inl h)
      · refine .inr (.inr ⟨t', ts', ?_⟩)
        simp at h
        simp [h]
  · -- drain_queue
    rename_i rest hs
    rw [hs] at h1 ho1 h4 h7
    simp only [owner_cons, Frame.owner, Bool.true_or] at h1
    split
    · rename_i hq
      obtain ⟨ho, ho1⟩ := ho1
      constructor <;> dsimp only
      · exact (ho rfl).symm
      · exact ho1
      · intro _; exact hq
      · exact h3
      · intro f hf; exact h4 f (by simp [hf])
      · exact h5
      · exact h6
      · intro j hj hn
        rcases h7 j hj hn with h | h | ⟨t', ts', h⟩
        · exact .inl h
        · exact .inr (.inl h)
        · exact .inr (.inr ⟨t', ts', by simpa using h⟩)
    · rename_i k ts q hq
      rw [hq] at h5 h7
      constructor <;> dsimp only
      · simp [owner_cons, Frame.owner, h1]
      · exact ⟨by simp [owner_call], ho1⟩
      · intro hh; simp [h1] at hh
      · exact h3
      · intro f hf
        rw [List.mem_cons] at hf
        rcases hf with rfl | hf
        · rw [below_call]; exact h5 (k, ts) (by simp)
        · exact h4 f hf
      · intro x hx; exact h5 x (by simp [hx])
      · exact h6
      · intro j hj hn
        rcases h7 j hj hn with h | ⟨x, hx, rfl⟩ | ⟨t', ts', h⟩
        · exact .inl h
        · simp only [List.mem_cons] at hx
          rcases hx with rfl | hx
          · obtain ⟨t, u, hc⟩ := call_eq k ts
            exact .inr (.inr ⟨t, u, by rw [hc]; simp⟩)
          · exact .inr (.inl ⟨x, hx, rfl⟩)
        · exact .inr (.inr ⟨t', ts', by simp at h; simp [h]⟩)
  · -- wait
    rename_i js rest hs
    split
    · rw [hs] at h1 ho1 h4 h7
      simp only [owner_cons, Frame.owner, Bool.false_or] at h1
      constructor <;> dsimp only
      · exact h1
      · exact ho1.2
      · exact h2
      · exact h3
      · intro f hf; exact h4 f (by simp [hf])
      · exact h5
      · exact h6
      · intro j hj hn
        rcases h7 j hj hn with h | h | ⟨t', ts', h⟩
        · exact .inl h
        · exact .inr (.inl h)
        · exact .inr (.inr ⟨t', ts', by simpa using h⟩)
    · exact ⟨h1, ho1, h2, h3, h4, h5, h6, h7⟩

theorem inv_at (user : Nat → List (List Sub)) (b : Bool) (n : Nat) : Inv (at_ user b n) := by
  induction n with
  | zero => exact inv_init user b
  | succ n ih => exact inv_step user _ ih

theorem good_step (user : Nat → List (List Sub)) (s : St) (h : Inv s) (hg : Good s.stack)
    (hb : ¬ BlocksOwned s) : Good (step user s).stack := by
  have h1 := h.own
  have h3 := h.pos
  unfold step
  split
  · exact hg
  · rename_i k a todo turns rest hs
    rw [hs] at hg h1
    simp only [owner_cons, Frame.owner, Bool.false_or] at h1
    have hb' : ¬ (((s.owned = true ∨ a.own = true) ∧ true ∈ a.srcs) ∨
      (s.owned = true ∧ a.outer = true ∧ a.srcs ≠ [])) :=
      fun hh => hb ⟨k, a, todo, turns, rest, hs, hh⟩
    refine ⟨?_, ?_, hg⟩
    · intro ht
      rw [owner_cons]
      simp only [Frame.owner, Bool.false_or, ← h1]
      have h1 : ¬ s.owned = true := fun hh => hb' (.inl ⟨.inl hh, ht⟩)
      have h2 : ¬ a.own = true := fun hh => hb' (.inl ⟨.inr hh, ht⟩)
      simp [h1, h2]
    · intro ho
      rw [owner_cons]
      simp only [Frame.owner, Bool.false_or, ← h1]
      by_cases e : s.owned = true
      · refine .inr ⟨?_, trivial⟩
        cases hc : a.srcs with
        | nil => rfl
        | cons x xs => exact absurd (.inr ⟨e, ho, by simp [hc]⟩) hb'
      · exact .inl (by simpa using e)
  · rename_i k t ts rest hs
    rw [hs] at hg
    split
    · exact hg
    · exact hg.2
  · rename_i k rest hs
    rw [hs] at hg
    exact hg.2
  · rename_i b srcs acc outer g rest hs
    rw [hs] at hg h1
    obtain ⟨g1, g2, g3⟩ := hg
    have hgood : Good ((if b then [Frame.wait [s.next]] else []) ++
        .subs srcs (s.next :: acc) outer g :: rest) := by
      have hsub : Good (.subs srcs (s.next :: acc) outer g :: rest) := by
        refine ⟨fun ht => g1 (by simp [ht]), fun ho => ?_, g3⟩
        rcases g2 ho with h | ⟨h, _⟩
        · exact .inl h
        · simp at h
      cases b with
      | false => exact hsub
      | true =>
        have := g1 (by simp)
        refine ⟨.inl ?_, hsub⟩
        show owner (.subs srcs (s.next :: acc) outer g :: rest) = false
        rw [owner_cons]; simp [Frame.owner, this.1, this.2]
    split
    · exact hgood
    · show Good (call _ _ :: .drain :: _)
      rw [good_call]
      exact ⟨fun _ => by simp [owner_cons, Frame.owner], hgood⟩
  · rename_i acc outer g rest hs
    rw [hs] at hg
    obtain ⟨g1, g2, g3⟩ := hg
    have : Good ((if outer then [Frame.wait acc] else []) ++ rest) := by
      cases outer with
      | false => exact g3
      | true =>
        refine ⟨?_, g3⟩
        rcases g2 rfl with h | ⟨_, h⟩
        · exact .inl h
        · exact .inr h
    cases g <;> exact this
  · rename_i rest hs
    rw [hs] at hg
    split
    · exact hg
    · show Good (call _ _ :: .drain :: _)
      rw [good_call]
      exact ⟨fun _ => by simp [owner_cons, Frame.owner], hg⟩
  · rename_i js rest hs
    split
    · rw [hs] at hg; exact hg.2
    · exact hg

theorem good_at (user : Nat → List (List Sub)) (b : Bool) (n : Nat)
    (hb : ∀ m, m < n → ¬ BlocksOwned (at_ user b m)) : Good (at_ user b n).stack := by
  induction n with
  | zero =>
    show Good (call 0 (user 0) :: _)
    rw [good_call]
    exact ⟨fun h => absurd rfl h, by cases b <;> simp [Good]⟩
  | succ n ih =>
    exact good_step user _ (inv_at user b n) (ih fun m hm => hb m (by omega)) (hb n (by omega))

/-- A frame of a running source needs an owner below it. -/
theorem good_run {l : List Frame} (h : Good l) (ho : owner l = false) {j : Nat} (hj : 0 < j)
    {t ts} (hm : Frame.run j t ts ∈ l) : False := by
  induction l with
  | nil => cases hm
  | cons f r ih =>
    rw [owner_cons] at ho
    simp only [Bool.or_eq_false_iff] at ho
    rw [List.mem_cons] at hm
    rcases hm with rfl | hm
    · have := h.1 (by omega); simp [this] at ho
    · refine ih ?_ ho.2 hm
      cases f with
      | run => exact h.2
      | drain => exact h
      | subs => exact h.2.2
      | wait => exact h.2

/-- A wait that does not get on. -/
def Stuck (s : St) : Prop := ∃ js rest j, s.stack = .wait js :: rest ∧ j ∈ js ∧ j ∉ s.ended

theorem stuck_of_still {user : Nat → List (List Sub)} {s : St} (h : step user s = s)
    (hn : s.stack ≠ []) : Stuck s := by
  have h' : (step user s).stack = s.stack := by rw [h]
  unfold step at h'
  split at h'
  · rename_i hs; exact absurd hs hn
  · rename_i hs; rw [hs] at h'
    have := congrArg List.length h'; simp at this
  · rename_i hs
    split at h' <;> rw [hs] at h'
    · simp only [List.cons.injEq, Frame.run.injEq] at h'
      have := congrArg List.length h'.1.2.2; simp at this
    · have := congrArg List.length h'; simp at this
  · rename_i hs; rw [hs] at h'
    have := congrArg List.length h'; simp at this
  · rename_i b _ _ _ _ _ hs
    split at h' <;> rw [hs] at h'
    · cases b
      · simp at h'
      · have := congrArg List.length h'; simp at this
    · have := congrArg List.length h'; simp at this; omega
  · rename_i outer g _ hs
    rw [hs] at h'
    cases g <;> cases outer <;> simp at h'
    all_goals have := congrArg List.length h'; simp at this
  · rename_i hs
    split at h' <;> rw [hs] at h'
    · have := congrArg List.length h'; simp at this
    · have := congrArg List.length h'; simp at this
  · rename_i js rest hs
    split at h'
    · rw [hs] at h'; have := congrArg List.length h'; simp at this
    · rename_i hq
      simp only [List.all_eq_true, List.contains_iff_mem, Classical.not_forall] at hq
      obtain ⟨j, hj, hje⟩ := hq
      exact ⟨js, rest, j, hs, hj, hje⟩

theorem stuck_step {user : Nat → List (List Sub)} {s : St} (h : Stuck s) : step user s = s := by
  obtain ⟨js, rest, j, hs, hj, hje⟩ := h
  have hq : ¬ (js.all (s.ended.contains ·)) = true := by
    simp only [List.all_eq_true, List.contains_iff_mem, Classical.not_forall]
    exact ⟨j, hj, hje⟩
  unfold step
  split <;> rename_i hs' <;> rw [hs] at hs' <;> simp at hs'
  obtain ⟨rfl, rfl⟩ := hs'
  rw [if_neg hq]

theorem stuck_hangs {user : Nat → List (List Sub)} {b : Bool} {n : Nat}
    (h : Stuck (at_ user b n)) : Hangs user b := by
  refine ⟨n, ?_, ?_⟩
  · obtain ⟨js, rest, j, hs, _⟩ := h; rw [hs]; simp
  · intro m hm
    induction hm with
    | refl => rfl
    | step _ ih => show step user (at_ user b _) = _; rw [ih, stuck_step h]

theorem subs_stuck (user : Nat → List (List Sub)) (b : Bool) (outer g : Bool) (rest : List Frame)
    (srcs : List Bool) : ∀ (n : Nat) (acc : List Nat), (at_ user b n).owned = true →
      (at_ user b n).stack = .subs srcs acc outer g :: rest →
      (true ∈ srcs ∨ (outer = true ∧ g = false ∧
        (srcs ≠ [] ∨ ∃ j ∈ acc, j ∉ (at_ user b n).ended))) → Hangs user b := by
  induction srcs with
  | nil =>
    intro n acc ho hs hc
    simp only [List.not_mem_nil, ne_eq, not_true_eq_false, false_or] at hc
    obtain ⟨rfl, rfl, j, hj, hje⟩ := hc
    apply stuck_hangs (n := n + 1)
    refine ⟨acc, rest, j, ?_, hj, ?_⟩
    · show (step user (at_ user b n)).stack = _
      simp [step, hs]
    · show j ∉ (step user (at_ user b n)).ended
      simpa [step, hs] using hje
  | cons c srcs ih =>
    intro n acc ho hs hc
    have hinv := inv_at user b n
    have hfresh : (at_ user b n).next ∉ (at_ user b n).ended := fun hh =>
      absurd (hinv.en _ hh) (by omega)
    have e1 : (at_ user b (n + 1)).stack = (if c then [.wait [(at_ user b n).next]] else []) ++
        .subs srcs ((at_ user b n).next :: acc) outer g :: rest := by
      show (step user (at_ user b n)).stack = _
      simp [step, hs, ho]
    have e2 : (at_ user b (n + 1)).ended = (at_ user b n).ended := by
      show (step user (at_ user b n)).ended = _
      simp [step, hs, ho]
    have e3 : (at_ user b (n + 1)).owned = true := by
      show (step user (at_ user b n)).owned = _
      simp [step, hs, ho]
    cases c with
    | true =>
      apply stuck_hangs (n := n + 1)
      exact ⟨[(at_ user b n).next], _, (at_ user b n).next, e1, by simp, by rw [e2]; exact hfresh⟩
    | false =>
      refine ih (n + 1) _ e3 e1 ?_
      rcases hc with hc | ⟨h1, h2, _⟩
      · exact .inl (by simpa using hc)
      · exact .inr ⟨h1, h2, .inr ⟨_, List.mem_cons_self, by rw [e2]; exact hfresh⟩⟩

/-- All code on the thread is code of its task, and task 0 is at the bottom of the stack. -/
structure Code (user : Nat → List (List Sub)) (s : St) : Prop where
  fr : ∀ k todo turns, .run k todo turns ∈ s.stack →
    (∀ a ∈ todo, ∃ t ∈ user k, a ∈ t) ∧ ∀ t ∈ turns, t ∈ user k
  qu : ∀ x ∈ s.queue, (∀ t ∈ x.2, t ∈ user x.1) ∧ x.1 ≠ 0
  bot : ∀ l r todo turns, s.stack = l ++ .run 0 todo turns :: r → r = []

theorem call_code {user : Nat → List (List Sub)} {k : Nat} {ts : List (List Sub)}
    (h : ∀ t ∈ ts, t ∈ user k) : ∀ k' todo turns, call k ts = .run k' todo turns →
      (∀ a ∈ todo, ∃ t ∈ user k', a ∈ t) ∧ ∀ t ∈ turns, t ∈ user k' := by
  intro k' todo turns he
  cases ts with
  | nil =>
    simp only [call, Frame.run.injEq] at he
    obtain ⟨rfl, rfl, rfl⟩ := he
    simp
  | cons t ts =>
    simp only [call, Frame.run.injEq] at he
    obtain ⟨rfl, rfl, rfl⟩ := he
    exact ⟨fun a ha => ⟨t, h t (by simp), ha⟩, fun t' ht' => h t' (by simp [ht'])⟩

/-- Putting frames of other tasks on top leaves task 0 at the bottom. -/
theorem bot_append {m q : List Frame}
    (hm : ∀ todo turns, Frame.run 0 todo turns ∉ m)
    (hq : ∀ l r todo turns, q = l ++ .run 0 todo turns :: r → r = []) :
    ∀ l r todo turns, m ++ q = l ++ .run 0 todo turns :: r → r = [] := by
  induction m with
  | nil => exact hq
  | cons f m ih =>
    intro l r todo turns he
    cases l with
    | nil =>
      simp only [List.cons_append, List.nil_append, List.cons.injEq] at he
      exact absurd (by simp [he.1]) (hm todo turns)
    | cons x l =>
      simp only [List.cons_append, List.cons.injEq] at he
      exact ih (fun a b hh => hm a b (by simp [hh])) l r todo turns he.2

theorem bot_tail {f : Frame} {q : List Frame}
    (hq : ∀ l r todo turns, f :: q = l ++ .run 0 todo turns :: r → r = []) :
    ∀ l r todo turns, q = l ++ .run 0 todo turns :: r → r = [] :=
  fun l r todo turns he => hq (f :: l) r todo turns (by simp [he])

theorem bot_swap {k : Nat} {t t' : List Sub} {ts ts' : List (List Sub)} {q : List Frame}
    (hq : ∀ l r todo turns, Frame.run k t ts :: q = l ++ .run 0 todo turns :: r → r = []) :
    ∀ l r todo turns, Frame.run k t' ts' :: q = l ++ .run 0 todo turns :: r → r = [] := by
  intro l r todo turns he
  cases l with
  | nil =>
    simp only [List.nil_append, List.cons.injEq, Frame.run.injEq] at he
    obtain ⟨⟨rfl, _, _⟩, rfl⟩ := he
    exact hq [] q t ts rfl
  | cons x l =>
    simp only [List.cons_append, List.cons.injEq] at he
    exact hq (Frame.run k t ts :: l) r todo turns (by simp [he.2])

theorem code_init (user : Nat → List (List Sub)) : Code user (init user false) := by
  constructor
  · intro k todo turns h
    simp only [init, Bool.false_eq_true, if_false, List.mem_singleton] at h
    exact call_code (fun t ht => ht) k todo turns h.symm
  · intro x hx; simp [init] at hx
  · intro l r todo turns h
    have := congrArg List.length h
    simp [init] at this
    cases r with
    | nil => rfl
    | cons => simp at this; omega

theorem code_step {user : Nat → List (List Sub)} {s : St} (hi : Inv s) (h : Code user s) :
    Code user (step user s) := by
  obtain ⟨h1, h2, h3⟩ := h
  unfold step
  split
  · exact ⟨h1, h2, h3⟩
  · rename_i k a todo turns rest hs
    rw [hs] at h1 h3
    refine ⟨?_, h2, ?_⟩
    · intro k' todo' turns' hm
      simp only [List.mem_cons, reduceCtorEq, false_or, Frame.run.injEq] at hm
      rcases hm with ⟨rfl, rfl, rfl⟩ | hm
      · have := h1 k' (a :: todo') turns' (by simp)
        exact ⟨fun b hb => this.1 b (by simp [hb]), this.2⟩
      · exact h1 k' todo' turns' (by simp [hm])
    · exact bot_append (m := [_]) (by simp) (bot_swap h3)
  · rename_i k t ts rest hs
    have hi1 := hi.own
    rw [hs] at h1 h3 hi1
    simp only [owner_cons, Frame.owner, Bool.false_or] at hi1
    have hk := h1 k [] (t :: ts) (by simp)
    split
    · refine ⟨?_, h2, bot_swap h3⟩
      intro k' todo' turns' hm
      simp only [List.mem_cons, Frame.run.injEq] at hm
      rcases hm with ⟨rfl, rfl, rfl⟩ | hm
      · exact ⟨fun b hb => ⟨todo', hk.2 todo' (by simp), hb⟩, fun t' ht' => hk.2 t' (by simp [ht'])⟩
      · exact h1 k' todo' turns' (by simp [hm])
    · rename_i hq
      refine ⟨fun k' a b hm => h1 k' a b (by simp [hm]), ?_, bot_tail h3⟩
      intro x hx
      simp only [List.mem_append, List.mem_singleton] at hx
      rcases hx with hx | rfl
      · exact h2 x hx
      · refine ⟨hk.2, ?_⟩
        rintro rfl
        have hr := h3 [] rest [] (t :: ts) rfl
        subst hr
        exact hq (by rw [hi.q (by simpa [owner] using hi1)]; rfl)
  · rename_i k rest hs
    rw [hs] at h1 h3
    exact ⟨fun k' a b hm => h1 k' a b (by simp [hm]), h2, bot_tail h3⟩
  · rename_i b srcs acc outer g rest hs
    rw [hs] at h1 h3
    have hpos := hi.pos
    have hfr : ∀ k todo turns, .run k todo turns ∈ (if b then [Frame.wait [s.next]] else []) ++
        .subs srcs (s.next :: acc) outer g :: rest →
        (∀ a ∈ todo, ∃ t ∈ user k, a ∈ t) ∧ ∀ t ∈ turns, t ∈ user k := by
      intro k todo turns hm
      refine h1 k todo turns ?_
      cases b <;> simpa using hm
    have hbot : ∀ l r todo turns, (if b then [Frame.wait [s.next]] else []) ++
        .subs srcs (s.next :: acc) outer g :: rest = l ++ .run 0 todo turns :: r → r = [] := by
      refine bot_append (by cases b <;> simp) ?_
      exact bot_append (m := [_]) (by simp) (bot_tail h3)
    split
    · refine ⟨hfr, ?_, hbot⟩
      intro x hx
      simp only [List.mem_append, List.mem_singleton] at hx
      rcases hx with hx | rfl
      · exact h2 x hx
      · exact ⟨fun t ht => ht, by dsimp only; omega⟩
    · refine ⟨?_, h2, ?_⟩
      · intro k todo turns hm
        rw [List.mem_cons, List.mem_cons] at hm
        rcases hm with hm | hm | hm
        · exact call_code (fun t ht => ht) k todo turns hm.symm
        · cases hm
        · exact hfr k todo turns hm
      · refine bot_append (m := [_, _]) ?_ hbot
        intro todo turns hm
        obtain ⟨t, u, hc⟩ := call_eq s.next (user s.next)
        rw [hc] at hm
        simp at hm
        omega
  · rename_i acc outer g rest hs
    rw [hs] at h1 h3
    refine ⟨?_, h2, ?_⟩
    · intro k todo turns hm
      refine h1 k todo turns ?_
      cases g <;> cases outer <;> simpa using hm
    · refine bot_append (by cases g <;> simp) ?_
      exact bot_append (by cases outer <;> simp) (bot_tail h3)
  · rename_i rest hs
    rw [hs] at h1 h3
    split
    · exact ⟨fun k' a b hm => h1 k' a b (by simp [hm]), h2, bot_tail h3⟩
    · rename_i k ts q hq
      rw [hq] at h2
      have hk := h2 (k, ts) (by simp)
      refine ⟨?_, fun x hx => h2 x (by simp [hx]), ?_⟩
      · intro k' todo turns hm
        rw [List.mem_cons] at hm
        rcases hm with hm | hm
        · exact call_code hk.1 k' todo turns hm.symm
        · exact h1 k' todo turns hm
      · refine bot_append (m := [_]) ?_ h3
        intro todo turns hm
        obtain ⟨t, u, hc⟩ := call_eq k ts
        rw [hc] at hm
        simp at hm
        exact hk.2 hm.1.symm
  · rename_i js rest hs
    split
    · rw [hs] at h1 h3
      exact ⟨fun k' a b hm => h1 k' a b (by simp [hm]), h2, bot_tail h3⟩
    · exact ⟨h1, h2, h3⟩

theorem code_at (user : Nat → List (List Sub)) (n : Nat) : Code user (at_ user false n) := by
  induction n with
  | zero => exact code_init user
  | succ n ih => exact code_step (inv_at user false n) ih

/-! ## C113 -/

/-- **C113.** Exactly when does a thread that uses `as_blocking` hang?  When, and only when, it gets
to a `subscribe` that waits while the queue of `current_thread` is owned — whatever the callbacks
do, and however long the thread ran before. -/
theorem C113_exact (user : Nat → List (List Sub)) (inTask : Bool) :
    Hangs user inTask ↔ ∃ n, BlocksOwned (at_ user inTask n) := by
  constructor
  · rintro ⟨n, hn, hh⟩
    apply Classical.byContradiction
    intro hno
    have hstuck := stuck_of_still (hh (n + 1) (by omega)) hn
    obtain ⟨js, rest, j, hs, hj, hje⟩ := hstuck
    have hg := good_at user inTask n fun m _ hb => hno ⟨m, hb⟩
    have hinv := inv_at user inTask n
    rw [hs] at hg
    have hlt : 0 < j ∧ j < (at_ user inTask n).next :=
      hinv.fr (.wait js) (by rw [hs]; exact List.mem_cons_self) j hj
    have ho : owner rest = false := by
      rcases hg.1 with h | h
      · exact h
      · rw [h] at hj; cases hj
    have hown : (at_ user inTask n).owned = false := by
      rw [hinv.own, hs, owner_cons, ho]; rfl
    rcases hinv.all j hlt.1 hlt.2 with h | ⟨x, hx, _⟩ | ⟨t, ts, h⟩
    · exact hje h
    · rw [hinv.q hown] at hx; cases hx
    · rw [hs] at h
      simp only [List.mem_cons, reduceCtorEq, false_or] at h
      exact good_run hg.2 ho hlt.1 h
  · rintro ⟨n, k, a, todo, turns, rest, hs, hc⟩
    have e1 : (at_ user inTask (n + 1)).stack = .subs a.srcs [] a.outer
        (a.own && !(at_ user inTask n).owned) :: .run k todo turns :: rest := by
      show (step user (at_ user inTask n)).stack = _
      simp [step, hs]
    have e2 : (at_ user inTask (n + 1)).owned = ((at_ user inTask n).owned || a.own) := by
      show (step user (at_ user inTask n)).owned = _
      simp [step, hs]
    refine subs_stuck user inTask _ _ _ _ (n + 1) [] ?_ e1 ?_
    · rw [e2]
      rcases hc with ⟨h | h, _⟩ | ⟨h, _⟩ <;> simp [h]
    · rcases hc with ⟨_, h⟩ | ⟨h1, h2, h3⟩
      · exact .inl h
      · exact .inr ⟨h2, by simp [h1], .inl h3⟩

/-- **C113 (the part that holds).** A thread which owns no queue when it starts never hangs if its own
code applies `as_blocking()` to whole chains only — or to sources of chains no operator of which takes
the queue — and the callbacks use no `as_blocking()` at all; in particular every `as_blocking`
subscription of it returns, whatever the callbacks subscribe to.
Missing: callbacks that use `as_blocking()` themselves, sources under `as_blocking()` inside `merge`
and the like, and threads of `new_thread`; see `C113_callback_refutes`, `C113_inner_refutes` and
`C113_new_thread_refutes`. -/
theorem C113_safe_partial (user : Nat → List (List Sub))
    (hmain : ∀ turn ∈ user 0, ∀ a ∈ turn, a.own = true → true ∉ a.srcs)
    (hback : ∀ k, k ≠ 0 → ∀ turn ∈ user k, ∀ a ∈ turn, a.outer = false ∧ true ∉ a.srcs) :
    ¬ Hangs user false := by
  rw [C113_exact]
  rintro ⟨n, k, a, todo, turns, rest, hs, hc⟩
  have hcode := code_at user n
  have hinv := inv_at user false n
  obtain ⟨t, ht, ha⟩ := (hcode.fr k (a :: todo) turns (by rw [hs]; simp)).1 a (by simp)
  by_cases hk : k = 0
  · subst hk
    have hr := hcode.bot [] rest (a :: todo) turns hs
    subst hr
    have ho : (at_ user false n).owned = false := by
      rw [hinv.own, hs]; rfl
    rw [ho] at hc
    simp only [Bool.false_eq_true, false_or, false_and, or_false] at hc
    exact hmain t ht a ha hc.1 hc.2
  · obtain ⟨h1, h2⟩ := hback k hk t ht a ha
    rcases hc with ⟨_, h⟩ | ⟨_, h, _⟩
    · exact h2 h
    · rw [h1] at h; cases h

/-- **C113.** When the code of the thread has come to its end, everything that was subscribed to on
the way has ended too: no source stays behind in the queue. -/
theorem C113_all (user : Nat → List (List Sub)) (inTask : Bool) (n : Nat)
    (hend : (at_ user inTask n).stack = []) (j : Nat) (h0 : 0 < j)
    (hj : j < (at_ user inTask n).next) : j ∈ (at_ user inTask n).ended := by
  have hinv := inv_at user inTask n
  have ho : (at_ user inTask n).owned = false := by rw [hinv.own, hend]; rfl
  rcases hinv.all j h0 hj with h | ⟨x, hx, _⟩ | ⟨t, ts, h⟩
  · exact h
  · rw [hinv.q ho] at hx; cases hx
  · rw [hend] at h; cases h

/-- **C113 fails in a callback.** `just(1) | subscribe([]{ just(2) | as_blocking() | subscribe(…); })`:
whatever else the callback of the first source does after it, the thread hangs for ever. -/
theorem C113_callback_refutes (user : Nat → List (List Sub)) (more : List Sub)
    (turns : List (List Sub)) (main : List Sub)
    (h0 : user 0 = [⟨false, false, [false]⟩ :: main])
    (h1 : user 1 = (⟨true, false, [false]⟩ :: more) :: turns) :
    Hangs user false := by
  rw [C113_exact]
  refine ⟨2, 1, ⟨true, false, [false]⟩, more, turns, [.drain, .subs [] [1] false false, .run 0 main []],
    ?_, .inr ⟨?_, rfl, by simp⟩⟩
  · simp [at_, init, step, call, h0, h1]
  · simp [at_, init, step, call, h0]

/-- **C113 fails inside a chain.** `just(1) | as_blocking() | merge_with(just(2)) | subscribe(…)`:
`merge_with` takes the queue, the blocking source is put into it, and waited for. -/
theorem C113_inner_refutes (user : Nat → List (List Sub)) (others more : List _)
    (h0 : user 0 = [⟨false, true, true :: others⟩ :: more]) : Hangs user false := by
  rw [C113_exact]
  refine ⟨0, 0, ⟨false, true, true :: others⟩, more, [], [], ?_, .inl ⟨.inr rfl, by simp⟩⟩
  simp [at_, init, call, h0]

/-- **C113 fails in a task of `new_thread`.** The thread of a worker owns a queue from its start to
its end, so any `as_blocking` there on a source of `current_thread` hangs. -/
theorem C113_new_thread_refutes (user : Nat → List (List Sub)) (own b : Bool) (srcs : List Bool)
    (more : List Sub) (h0 : user 0 = [⟨true, own, b :: srcs⟩ :: more]) : Hangs user true := by
  rw [C113_exact]
  refine ⟨0, 0, ⟨true, own, b :: srcs⟩, more, [], [.drain], ?_, .inr ⟨rfl, rfl, by simp⟩⟩
  simp [at_, init, call, h0]

/-! Concrete cases: the hypotheses are met, and the same code does or does not hang. -/

/-- `main`: `just | merge_with(from_iterable of two) | as_blocking() | subscribe(cb)`, then
`just | as_blocking() | subscribe`; the callback of the first source subscribes to another `just`
(example only, models no code). -/
def demo : Nat → List (List Sub)
  | 0 => [[⟨true, true, [false, false]⟩, ⟨false, false, [true]⟩]]
  | 1 => [[⟨false, false, [false]⟩]]
  | 2 => [[], []]
  | 3 => [[]]
  | 4 => [[]]
  | _ => []

example : ¬ Hangs demo false :=
  C113_safe_partial demo (by decide) (by
    intro k hk
    match k with
    | 0 => exact absurd rfl hk
    | 1 => decide
    | 2 => decide
    | 3 => decide
    | 4 => decide
    | k + 5 => intro t ht; cases ht)

/-- It runs to its end, with all four sources ended. -/
example : (at_ demo false 40).stack = [] ∧ (at_ demo false 40).ended = [0, 4, 2, 3, 1] := by decide

/-- The callback of the second theorem: it waits for source 2, which is in the queue. -/
example : let user : Nat → List (List Sub) := fun k =>
      if k = 0 then [[⟨false, false, [false]⟩]]
      else if k = 1 then [[⟨true, false, [false]⟩]] else [[]]
    (at_ user false 9).stack.head? = some (.wait [2]) ∧
      (at_ user false 9).queue = [(2, [[]])] := by decide

example : Hangs (fun k => if k = 0 then [[⟨false, true, [true, false]⟩]] else [[]]) false :=
  C113_inner_refutes _ [false] [] rfl

example : Hangs (fun k => if k = 0 then [[⟨true, false, [false]⟩]] else [[]]) true :=
  C113_new_thread_refutes _ false false [] [] rfl

end Rpp.BlkNest
