import Verif.Combine.Reentry

/-!
# Property C69: no self-deadlock on re-entrant emission
-/

namespace Rpp.Emit

/-! ## Specification -/

/-- The mutexes of an operator held at some call of the next observer, when `cur` are held at the beginning. -/
def heldDown (cur : List Nat) : List Instr → List Nat
  | [] => []
  | .lock m :: code => heldDown (m :: cur) code
  | .unlock m :: code => heldDown (cur.erase m) code
  | .down :: code => cur ++ heldDown cur code

/-- Some emission into source `s` may lock this mutex. -/
def Needs (w : World) (s : Nat) (x : Mutex) : Prop :=
  ∃ n, ∃ e ∈ w.path s n, ∃ m, .lock m ∈ e.2.code ∧ x = (e.1, m)

/-- Some operator holds this mutex while it calls the next observer. -/
def Holds (w : World) (x : Mutex) : Prop :=
  ∃ s n, ∃ e ∈ w.path s n, ∃ m ∈ heldDown [] e.2.code, x = (e.1, m)

/-- No emission passes the same operator twice. -/
def Simple (w : World) : Prop := ∀ s n, ((w.path s n).map Prod.fst).Nodup

/-! ## Proofs -/

/-- The body does not lock what it has locked itself. -/
def NoRelock (cur : List Nat) : List Instr → Prop
  | [] => True
  | .lock m :: code => m ∉ cur ∧ NoRelock (m :: cur) code
  | .unlock m :: code => NoRelock (cur.erase m) code
  | .down :: code => NoRelock cur code

theorem noRelock_locks (ms : List Nat) (code : List Instr) : ∀ cur, ms.Nodup → (∀ m ∈ ms, m ∉ cur) →
    NoRelock (ms.reverse ++ cur) code → NoRelock cur (ms.map .lock ++ code) := by
  induction ms with
  | nil => intro cur _ _ h; simpa using h
  | cons m ms ih =>
    intro cur hn hd h
    refine ⟨hd m (by simp), ih (m :: cur) (List.nodup_cons.1 hn).2 ?_ (by simpa using h)⟩
    intro x hx
    simp only [List.mem_cons, not_or]
    exact ⟨fun h => (List.nodup_cons.1 hn).1 (h ▸ hx), hd x (by simp [hx])⟩

theorem noRelock_unlocks (ms : List Nat) (code : List Instr) : ∀ cur,
    NoRelock (ms.foldl List.erase cur) code → NoRelock cur (ms.map .unlock ++ code) := by
  induction ms with
  | nil => intro cur h; exact h
  | cons m ms ih => intro cur h; exact ih _ h

theorem heldDown_locks (ms : List Nat) (code : List Instr) : ∀ cur,
    heldDown cur (ms.map .lock ++ code) = heldDown (ms.reverse ++ cur) code := by
  induction ms with
  | nil => intro cur; rfl
  | cons m ms ih => intro cur; simp [heldDown, ih]

theorem heldDown_unlocks (ms : List Nat) (code : List Instr) : ∀ cur,
    heldDown cur (ms.map .unlock ++ code) = heldDown (ms.foldl List.erase cur) code := by
  induction ms with
  | nil => intro cur; rfl
  | cons m ms ih => intro cur; simp [heldDown, ih]

theorem erase_all (ms : List Nat) : ∀ cur : List Nat, cur.Nodup → (∀ x ∈ cur, x ∈ ms) → ms.foldl List.erase cur = [] := by
  induction ms with
  | nil => intro cur _ h; cases cur with
    | nil => rfl
    | cons x cur => exact absurd (h x (by simp)) (by simp)
  | cons m ms ih =>
    intro cur hn h
    refine ih _ (hn.erase m) ?_
    intro x hx
    rw [hn.mem_erase_iff] at hx
    rcases List.mem_cons.1 (h x hx.2) with h | h
    · exact absurd h hx.1
    · exact h

theorem noRelock_downs (cur : List Nat) (n : Nat) (code : List Instr) (h : NoRelock cur code) :
    NoRelock cur (List.replicate n .down ++ code) := by
  induction n with
  | zero => simpa using h
  | succ n ih => simpa [List.replicate_succ, NoRelock] using ih

theorem heldDown_downs (cur : List Nat) (n : Nat) (code : List Instr) (m : Nat)
    (h : m ∈ heldDown cur (List.replicate n .down ++ code)) : m ∈ cur ∨ m ∈ heldDown cur code := by
  induction n with
  | zero => right; simpa using h
  | succ n ih =>
    simp only [List.replicate_succ, List.cons_append, heldDown, List.mem_append] at h
    exact h.elim .inl ih

/-- Used in the statements and proofs of this file; models no code. -/
def latestMutexes (n : Nat) : List Nat := (List.range n).map (· + 1)

theorem latest_code (n : Nat) (d : Bool) : (Port.latestMain n d).code =
    (latestMutexes n).map .lock ++ ((latestMutexes n).map .unlock ++ (if d then [.lock 0, .down, .unlock 0] else [])) := by
  simp [Port.code, latestMutexes, Function.comp_def]

theorem latest_nodup (n : Nat) : (latestMutexes n).Nodup := by
  unfold latestMutexes
  rw [List.nodup_iff_pairwise_ne, List.pairwise_map]
  exact List.Pairwise.imp (fun h => by omega) (List.nodup_iff_pairwise_ne.1 (List.nodup_range (n := n)))

theorem latest_erased (n : Nat) : (latestMutexes n).foldl List.erase (latestMutexes n).reverse = [] :=
  erase_all _ _ ((List.reverse_perm _).nodup_iff.2 (latest_nodup n)) (by simp)

theorem Port.noRelock (p : Port) : NoRelock [] p.code := by
  cases p with
  | latestMain n d =>
    rw [latest_code]
    refine noRelock_locks _ _ _ (latest_nodup n) (by simp) (noRelock_unlocks _ _ _ ?_)
    rw [List.append_nil, latest_erased]
    cases d <;> simp [NoRelock]
  | zip d => cases d <;> simp [Port.code, NoRelock]
  | combineLatest d => cases d <;> simp [Port.code, NoRelock]
  | windowToggle n =>
    simp only [Port.code, List.cons_append, List.nil_append, NoRelock]
    exact ⟨by simp, noRelock_downs _ _ _ (by simp [NoRelock])⟩
  | subject n =>
    have := noRelock_downs [] n [] (by simp [NoRelock])
    simpa [Port.code, NoRelock] using this
  | serializedSubject n =>
    have := noRelock_downs [1] n [.unlock 1] (by simp [NoRelock])
    simpa [Port.code, NoRelock] using this
  | _ => simp [Port.code, NoRelock]

/-- What a frame may still lock. -/
def Fut (i : Nat) (code : List Instr) (rest : Path) (x : Mutex) : Prop :=
  (∃ m, .lock m ∈ code ∧ x = (i, m)) ∨ ∃ e ∈ rest, ∃ m, .lock m ∈ e.2.code ∧ x = (e.1, m)

/-- A test on the constructor; models no code. -/
def Frame.isOpOf : Frame → Nat → Bool
  | .op i _ _ _, j => i == j
  | .cb _ _, _ => false

/-- A test on the constructor; models no code. -/
def Frame.isOp : Frame → Bool
  | .op _ _ _ _ => true
  | .cb _ _ => false

/-- A frame with the frames below it is in order. -/
def FrameOk (w : World) (below : List Frame) : Frame → Prop
  | .op i code mine rest =>
    NoRelock mine code ∧ (∀ m ∈ heldDown mine code, Holds w (i, m)) ∧
    (i :: rest.map Prod.fst).Nodup ∧
    (∀ e ∈ rest, ∀ m ∈ heldDown [] e.2.code, Holds w (e.1, m)) ∧
    ((∀ x, Fut i code rest x → ¬ Holds w x) ∨ (∀ f ∈ below, ∀ j ∈ i :: rest.map Prod.fst, f.isOpOf j = false))
  | .cb _ todo => (∀ f ∈ below, f.isOp = false) ∨ (∀ s ∈ todo, ∀ x, Needs w s x → ¬ Holds w x)

/-- A suspended frame only holds what is held while the next observer is called. -/
def Susp (w : World) : Frame → Prop
  | .op i _ mine _ => ∀ m ∈ mine, Holds w (i, m)
  | .cb _ _ => True

/-- Used in the statements and proofs of this file; models no code. -/
def StackOk (w : World) : List Frame → Prop
  | [] => True
  | f :: below => FrameOk w below f ∧ (∀ g ∈ below, Susp w g) ∧ StackOk w below

variable {w : World}

theorem StackOk.not_stuck {s : St} (h : StackOk w s.stack) : ¬ Stuck s := by
  rintro ⟨i, m, code, mine, rest, fs, hs, hm⟩
  rw [hs] at h hm
  obtain ⟨⟨h1, _, _, _, h5⟩, h6, _⟩ := h
  simp only [held, List.flatMap_cons, List.mem_append] at hm
  rcases hm with hm | hm
  · simp only [Frame.held, List.mem_map, Prod.mk.injEq, true_and, exists_eq_right] at hm
    exact h1.1 hm
  · obtain ⟨g, hg, hgm⟩ := List.mem_flatMap.1 hm
    cases g with
    | cb => simp [Frame.held] at hgm
    | op j code' mine' rest' =>
      simp only [Frame.held, List.mem_map, Prod.mk.injEq] at hgm
      obtain ⟨m', hm', rfl, rfl⟩ := hgm
      rcases h5 with h5 | h5
      · exact h5 (j, m') (.inl ⟨m', by simp, rfl⟩) (h6 _ hg m' hm')
      · have := h5 _ hg j (by simp)
        simp [Frame.isOpOf] at this

theorem follow_ok (s : St) (below : List Frame) (path : Path)
    (huser : ∀ k, ∀ s' ∈ w.user k, ∀ x, Needs w s' x → ¬ Holds w x)
    (hb : StackOk w below) (hsus : ∀ g ∈ below, Susp w g) (hnd : (path.map Prod.fst).Nodup)
    (hheld : ∀ e ∈ path, ∀ m ∈ heldDown [] e.2.code, Holds w (e.1, m))
    (hfut : (∀ x, (∃ e ∈ path, ∃ m, .lock m ∈ e.2.code ∧ x = (e.1, m)) → ¬ Holds w x) ∨
      (∀ f ∈ below, ∀ j ∈ path.map Prod.fst, f.isOpOf j = false)) :
    StackOk w (follow w s below path).stack := by
  cases path with
  | nil => exact ⟨.inr (huser _), hsus, hb⟩
  | cons e rest =>
    obtain ⟨i, p⟩ := e
    refine ⟨⟨p.noRelock, fun m hm => hheld (i, p) (by simp) m hm, hnd, fun e he => hheld e (by simp [he]), ?_⟩, hsus, hb⟩
    rcases hfut with h | h
    · left
      intro x hx
      apply h
      rcases hx with ⟨m, hm, rfl⟩ | ⟨e, he, m, hm, rfl⟩
      · exact ⟨(i, p), by simp, m, hm, rfl⟩
      · exact ⟨e, by simp [he], m, hm, rfl⟩
    · exact .inr h

theorem step_ok {s : St} (hsim : Simple w) (huser : ∀ k, ∀ s' ∈ w.user k, ∀ x, Needs w s' x → ¬ Holds w x)
    (h : StackOk w s.stack) : StackOk w (step w s).stack := by
  unfold step
  split
  · exact h
  · rename_i heq; rw [heq] at h; exact h.2.2
  · rename_i i m code mine rest fs heq
    split
    · exact h
    · rw [heq] at h
      obtain ⟨⟨h1, h2, h3, h4, h5⟩, h6, h7⟩ := h
      refine ⟨⟨h1.2, h2, h3, h4, ?_⟩, h6, h7⟩
      rcases h5 with h5 | h5
      · left
        intro x hx
        apply h5
        rcases hx with ⟨m, hm, rfl⟩ | hx
        · exact .inl ⟨m, by simp [hm], rfl⟩
        · exact .inr hx
      · exact .inr h5
  · rename_i i m code mine rest fs heq
    rw [heq] at h
    obtain ⟨⟨h1, h2, h3, h4, h5⟩, h6, h7⟩ := h
    refine ⟨⟨h1, h2, h3, h4, ?_⟩, h6, h7⟩
    rcases h5 with h5 | h5
    · left
      intro x hx
      apply h5
      rcases hx with ⟨m, hm, rfl⟩ | hx
      · exact .inl ⟨m, by simp [hm], rfl⟩
      · exact .inr hx
    · exact .inr h5
  · rename_i i code mine rest fs heq
    rw [heq] at h
    obtain ⟨⟨h1, h2, h3, h4, h5⟩, h6, h7⟩ := h
    simp only [heldDown, List.mem_append] at h2
    have hfut : (∀ x, Fut i code rest x → ¬ Holds w x) ∨
        (∀ f ∈ fs, ∀ j ∈ i :: rest.map Prod.fst, f.isOpOf j = false) := by
      rcases h5 with h5 | h5
      · left
        intro x hx
        apply h5
        rcases hx with ⟨m, hm, rfl⟩ | hx
        · exact .inl ⟨m, by simp [hm], rfl⟩
        · exact .inr hx
      · exact .inr h5
    refine follow_ok s _ rest huser ⟨⟨h1, fun m hm => h2 m (.inr hm), h3, h4, hfut⟩, h6, h7⟩ ?_
      (List.nodup_cons.1 h3).2 h4 ?_
    · intro g hg
      rcases List.mem_cons.1 hg with rfl | hg
      · exact fun m hm => h2 m (.inl hm)
      · exact h6 g hg
    · rcases hfut with h | h
      · exact .inl (fun x hx => h x (.inr hx))
      · right
        intro f hf j hj
        rcases List.mem_cons.1 hf with rfl | hf
        · simp only [Frame.isOpOf, beq_eq_false_iff_ne]
          rintro rfl
          exact (List.nodup_cons.1 h3).1 hj
        · exact h f hf j (by simp [hj])
  · exact h
  · rename_i heq; rw [heq] at h; exact h.2.2
  · rename_i k src todo fs heq
    rw [heq] at h
    obtain ⟨h1, h2, h3⟩ := h
    have hcb : FrameOk w fs (.cb k todo) := h1.imp id (fun h s hs => h s (by simp [hs]))
    refine follow_ok _ _ _ huser ⟨hcb, h2, h3⟩ ?_ (hsim src s.emissions) ?_ ?_
    · intro g hg
      rcases List.mem_cons.1 hg with rfl | hg
      · trivial
      · exact h2 g hg
    · intro e he m hm
      exact ⟨src, s.emissions, e, he, m, hm, rfl⟩
    · rcases h1 with h1 | h1
      · right
        intro f hf j _
        rcases List.mem_cons.1 hf with rfl | hf
        · rfl
        · have := h1 f hf
          cases f <;> simp_all [Frame.isOp, Frame.isOpOf]
      · left
        rintro x ⟨e, he, m, hm, rfl⟩
        exact h1 src (by simp) _ ⟨s.emissions, e, he, m, hm, rfl⟩

theorem run_ok (hsim : Simple w) (huser : ∀ k, ∀ s' ∈ w.user k, ∀ x, Needs w s' x → ¬ Holds w x) (prog : List Nat) (n : Nat) :
    StackOk w (run w prog n).stack := by
  induction n with
  | zero => exact ⟨.inl (by simp), by simp, trivial⟩
  | succ n ih => exact step_ok hsim huser ih

/-! ## The property, as far as it holds -/

/-- C69 (part): emissions from inside the callbacks never deadlock - however deep they nest - provided that what they emit into
needs no mutex which an operator holds while it calls downstream.  The full statement has no such proviso; without it it is
false, see `C69_merge_refutes` and its companions. -/
theorem C69_partial (hsim : Simple w) (huser : ∀ k, ∀ s' ∈ w.user k, ∀ x, Needs w s' x → ¬ Holds w x)
    (prog : List Nat) (n : Nat) : ¬ Stuck (run w prog n) :=
  (run_ok hsim huser prog n).not_stuck

/-- A callback that was entered has been left or is on the stack. -/
theorem open_on_stack (prog : List Nat) (n k : Nat) (h : .enter k ∈ (run w prog n).log) :
    .leave k ∈ (run w prog n).log ∨ ∃ todo, .cb k todo ∈ (run w prog n).stack.dropLast := by
  induction n generalizing k with
  | zero => simp [run] at h
  | succ n ih =>
    have key : ∀ (s : St) (ih : ∀ k, Ev.enter k ∈ s.log → .leave k ∈ s.log ∨ ∃ todo, .cb k todo ∈ s.stack.dropLast) k,
        .enter k ∈ (step w s).log → .leave k ∈ (step w s).log ∨ ∃ todo, .cb k todo ∈ (step w s).stack.dropLast := by
      intro s ih k h
      have hfol : ∀ (s1 : St) (below : List Frame) (p : Path), s1.log = s.log ∨ (∃ x, s1.log = s.log ++ [.emit x]) → below ≠ [] →
          (∀ k, (∃ todo, .cb k todo ∈ s.stack.dropLast) → ∃ todo, .cb k todo ∈ below.dropLast) →
          .enter k ∈ (follow w s1 below p).log →
          .leave k ∈ (follow w s1 below p).log ∨ ∃ todo, .cb k todo ∈ (follow w s1 below p).stack.dropLast := by
        intro s1 below p hl hne hb hh
        have hin : ∀ e, (∀ x, e ≠ .emit x) → (e ∈ s1.log ↔ e ∈ s.log) := by
          intro e he
          rcases hl with hl | ⟨x, hl⟩
          · rw [hl]
          · rw [hl]; simp [he x]
        cases p with
        | nil =>
          simp only [follow, List.mem_append, List.mem_singleton, Ev.enter.injEq] at hh ⊢
          rw [hin _ (by simp)] at hh ⊢
          rcases hh with hh | rfl
          · rcases ih k hh with h1 | h1
            · exact .inl (.inl h1)
            · obtain ⟨todo, h2⟩ := hb k h1
              right
              refine ⟨todo, ?_⟩
              rw [List.dropLast_cons_of_ne_nil hne]
              simp [h2]
          · right
            exact ⟨w.user s1.callbacks, by rw [List.dropLast_cons_of_ne_nil hne]; exact List.mem_cons_self ..⟩
        | cons q p =>
          simp only [follow] at hh ⊢
          rw [hin _ (by simp)] at hh ⊢
          rcases ih k hh with h1 | h1
          · exact .inl h1
          · obtain ⟨todo, h2⟩ := hb k h1
            right
            refine ⟨todo, ?_⟩
            rw [List.dropLast_cons_of_ne_nil hne]
            simp [h2]
      have hop : ∀ {i c m r c' m' r'} {fs : List Frame}, (∃ todo, .cb k todo ∈ (Frame.op i c m r :: fs).dropLast) →
          ∃ todo, Frame.cb k todo ∈ (Frame.op i c' m' r' :: fs).dropLast := by
        rintro i c m r c' m' r' fs ⟨todo, h1⟩
        cases fs with
        | nil => simp at h1
        | cons f fs => exact ⟨todo, by simpa using h1⟩
      unfold step at h ⊢
      split at h
      · exact ih k h
      · rename_i fs hst
        rcases ih k h with h1 | ⟨todo, h1⟩
        · exact .inl h1
        · rw [hst] at h1
          right
          cases fs with
          | nil => simp at h1
          | cons f fs => exact ⟨todo, by simpa using h1⟩
      · rename_i i m code mine rest fs hst
        split at h
        · rename_i hm
          simp only [hm, if_true]
          exact ih k h
        · rename_i hm
          simp only [hm, if_false]
          rcases ih k h with h1 | h1
          · exact .inl h1
          · rw [hst] at h1
            exact .inr (hop h1)
      · rename_i hst
        rcases ih k h with h1 | h1
        · exact .inl h1
        · rw [hst] at h1
          exact .inr (hop h1)
      · rename_i i code mine rest fs hst
        refine hfol s _ _ (.inl rfl) (by simp) ?_ h
        rintro k ⟨todo, h1⟩
        rw [hst] at h1
        cases fs with
        | nil => simp at h1
        | cons f fs => exact ⟨todo, by simpa using h1⟩
      · exact ih k h
      · rename_i j fs hne hst
        simp only [List.mem_append, List.mem_singleton, reduceCtorEq, or_false] at h
        rcases ih k h with h1 | ⟨todo, h1⟩
        · exact .inl (by simp [h1])
        · rw [hst] at h1
          cases fs with
          | nil => simp at h1
          | cons f fs =>
            rw [List.dropLast_cons_of_ne_nil (by simp)] at h1
            rcases List.mem_cons.1 h1 with h1 | h1
            · injection h1 with h1 _
              exact .inl (by simp [h1])
            · exact .inr ⟨todo, h1⟩
      · rename_i j src todo' fs hst
        refine hfol _ _ _ (.inr ⟨src, rfl⟩) (by simp) ?_ h
        rintro k ⟨todo, h1⟩
        rw [hst] at h1
        cases fs with
        | nil => simp at h1
        | cons f fs =>
          rw [List.dropLast_cons_of_ne_nil (by simp)] at h1 ⊢
          rcases List.mem_cons.1 h1 with h1 | h1
          · injection h1 with h1 _
            exact ⟨todo', by simp [h1]⟩
          · exact ⟨todo, by simp [h1]⟩
    exact key (run w prog n) (fun k h => ih k h) k h

/-- C69 (part): what is entered is left: when the thread's outermost code has come to its end, every callback has returned. -/
theorem C69_returns_partial (prog : List Nat) (n k j : Nat) (hend : (run w prog n).stack = [.cb j []])
    (h : .enter k ∈ (run w prog n).log) : .leave k ∈ (run w prog n).log := by
  rcases open_on_stack prog n k h with h1 | ⟨todo, h1⟩
  · exact h1
  · rw [hend] at h1; simp at h1

/-- Ports which hold nothing while they call downstream. -/
def Port.open : Port → Bool
  | .plain | .subject _ | .latestOther _ => true
  | .zip d | .combineLatest d | .latestMain _ d => !d
  | _ => false

theorem open_holds_nothing (p : Port) (h : p.open = true) : heldDown [] p.code = [] := by
  cases p with
  | subject n =>
    apply List.eq_nil_iff_forall_not_mem.2
    intro m hm
    have : m ∈ heldDown [] (List.replicate n Instr.down ++ []) := by simpa [Port.code, heldDown] using hm
    rcases heldDown_downs _ _ _ _ this with h | h <;> simp [heldDown] at h
  | latestMain n d =>
    cases d
    · rw [latest_code, heldDown_locks, heldDown_unlocks]; simp [heldDown]
    · simp [Port.open] at h
  | zip d => cases d <;> simp_all [Port.open, Port.code, heldDown]
  | combineLatest d => cases d <;> simp_all [Port.open, Port.code, heldDown]
  | _ => simp_all [Port.open, Port.code, heldDown]

/-- C69 (part): through operators without a mutex (map, filter, take, …) and ordinary subjects every re-entrant pattern is
fine. -/
theorem C69_open_partial (hsim : Simple w) (hopen : ∀ s n, ∀ e ∈ w.path s n, e.2.open = true)
    (prog : List Nat) (n : Nat) : ¬ Stuck (run w prog n) := by
  refine C69_partial hsim ?_ prog n
  rintro k s' _ x _ ⟨s, m, e, he, y, hy, _⟩
  rw [open_holds_nothing e.2 (hopen s m e he)] at hy
  cases hy

/-- C69 (part): `with_latest_from` (operator `0`, sources: `0` the main one, `i + 1` the `i`-th other one): the callback may emit
into the other sources. -/
theorem C69_with_latest_from_partial (k : Nat) (deliver : Nat → Bool) (user : Nat → List Nat)
    (h : ∀ c, 0 ∉ user c) (prog : List Nat) (n : Nat) :
    ¬ Stuck (run { path := fun s m => [(0, if s = 0 then .latestMain k (deliver m) else .latestOther (s - 1))], user } prog n) := by
  refine C69_partial (by intro s n; simp) ?_ prog n
  rintro c s' hs' x ⟨m, e, he, y, hy, rfl⟩ ⟨s, m', e', he', y', hy', hx⟩
  simp only [List.mem_singleton] at he he'
  have hs0 : s' ≠ 0 := fun h0 => h c (h0 ▸ hs')
  rw [if_neg hs0] at he
  subst he he'
  simp only [Prod.mk.injEq, true_and] at hx
  subst hx
  simp only [Port.code, List.mem_cons, Instr.lock.injEq, reduceCtorEq, List.not_mem_nil, or_self, or_false] at hy
  subst hy
  simp only at hy'
  split at hy'
  · rw [latest_code, heldDown_locks, heldDown_unlocks, List.append_nil, latest_erased] at hy'
    cases hd : deliver m' <;> simp [hd, heldDown] at hy'
  · simp [Port.code, heldDown] at hy'

/-! ## Where it fails -/

theorem stuck_stays {s : St} (h : Stuck s) : step w s = s := by
  obtain ⟨i, m, code, mine, rest, fs, hs, hm⟩ := h
  unfold step
  split
  · rfl
  · simp_all
  · rename_i heq
    rw [hs] at heq
    simp only [List.cons.injEq, Frame.op.injEq, Instr.lock.injEq] at heq
    obtain ⟨⟨rfl, ⟨rfl, rfl⟩, rfl, rfl⟩, rfl⟩ := heq
    rw [if_pos hm]
  all_goals simp_all

/-- Being stuck is for ever: nothing happens any more. -/
theorem stuck_forever (prog : List Nat) (n : Nat) (h : Stuck (run w prog n)) (m : Nat) (hm : n ≤ m) :
    run w prog m = run w prog n := by
  induction m with
  | zero => have : n = 0 := by omega
            subst this; rfl
  | succ m ih =>
    by_cases hn : n = m + 1
    · subst hn; rfl
    · rw [run, ih (by omega)]; exact stuck_stays h

/-- C69 is false: every pattern.  Whenever any code emits into an operator whose mutex this thread holds - because a callback called
from this operator is still running -, it hangs, if the first thing the operator does is to lock that mutex. -/
theorem C69_refutes (prog : List Nat) (n k src : Nat) (todo : List Nat) (fs : List Frame) (i m : Nat) (p : Port) (rest : Path)
    (code : List Instr) (hs : (run w prog n).stack = .cb k (src :: todo) :: fs)
    (hp : w.path src (run w prog n).emissions = (i, p) :: rest) (hc : p.code = .lock m :: code) (hm : (i, m) ∈ held fs) :
    Stuck (run w prog (n + 1)) := by
  refine ⟨i, m, code, [], rest, .cb k todo :: fs, ?_, ?_⟩
  · rw [run, step]
    split <;> simp_all [follow]
  · have : (run w prog (n + 1)).stack = .op i (.lock m :: code) [] rest :: .cb k todo :: fs := by
      rw [run, step]
      split <;> simp_all [follow]
    rw [this]
    simpa [held, Frame.held] using hm

/-- The locks held after a piece of code. -/
def after (cur : List Nat) : List Instr → List Nat
  | [] => cur
  | .lock m :: code => after (m :: cur) code
  | .unlock m :: code => after (cur.erase m) code
  | .down :: code => after cur code

theorem after_append (c1 c2 : List Instr) : ∀ cur, after cur (c1 ++ c2) = after (after cur c1) c2 := by
  induction c1 with
  | nil => intro cur; rfl
  | cons i c1 ih => intro cur; cases i <;> exact ih _

theorem after_locks (ms : List Nat) : ∀ cur, after cur (ms.map .lock) = ms.reverse ++ cur := by
  induction ms with
  | nil => intro cur; rfl
  | cons m ms ih => intro cur; simp [after, ih]

theorem after_unlocks (ms : List Nat) : ∀ cur, after cur (ms.map .unlock) = ms.foldl List.erase cur := by
  induction ms with
  | nil => intro cur; rfl
  | cons m ms ih => intro cur; simp [after, ih]

theorem locked_of_after (m : Nat) (code : List Instr) : ∀ cur, m ∈ after cur code → m ∈ cur ∨ .lock m ∈ code := by
  induction code with
  | nil => intro cur h; exact .inl h
  | cons i code ih =>
    intro cur h
    cases i with
    | lock k =>
      rcases ih _ h with h | h
      · rcases List.mem_cons.1 h with rfl | h
        · exact .inr (by simp)
        · exact .inl h
      · exact .inr (by simp [h])
    | unlock k =>
      rcases ih _ h with h | h
      · exact .inl (List.mem_of_mem_erase h)
      · exact .inr (by simp [h])
    | down =>
      rcases ih _ h with h | h
      · exact .inl h
      · exact .inr (by simp [h])

theorem NoRelock.left (c1 c2 : List Instr) : ∀ cur, NoRelock cur (c1 ++ c2) → NoRelock cur c1 := by
  induction c1 with
  | nil => intro cur _; trivial
  | cons i c1 ih =>
    intro cur h
    cases i with
    | lock m => exact ⟨h.1, ih _ h.2⟩
    | unlock m => exact ih _ h
    | down => exact ih _ h

/-- A thread running through code without downstream calls gets to the end of it, or gets stuck. -/
theorem run_through (prog : List Nat) (i : Nat) (rest : Path) (fs : List Frame) (post : List Instr) (pre : List Instr) :
    ∀ (n : Nat) (cur : List Nat), .down ∉ pre → (run w prog n).stack = .op i (pre ++ post) cur rest :: fs →
    ∃ N, (run w prog N).log = (run w prog n).log ∧ (run w prog N).callbacks = (run w prog n).callbacks ∧
      ((Stuck (run w prog N) ∧ ∃ m, .lock m ∈ pre ∧ (NoRelock cur pre → (i, m) ∈ held fs)) ∨
        (run w prog N).stack = .op i post (after cur pre) rest :: fs ∧ ∀ m, .lock m ∈ pre → (i, m) ∉ held fs) := by
  induction pre with
  | nil => intro n cur _ h; exact ⟨n, rfl, rfl, .inr ⟨h, by simp⟩⟩
  | cons c pre ih =>
    intro n cur hd h
    have hd' : .down ∉ pre := fun h => hd (by simp [h])
    cases c with
    | down => simp at hd
    | lock m =>
      by_cases hm : (i, m) ∈ held (run w prog n).stack
      · refine ⟨n, rfl, rfl, .inl ⟨⟨i, m, _, cur, rest, fs, h, hm⟩, m, by simp, ?_⟩⟩
        intro hr
        rw [h] at hm
        simp only [held, List.flatMap_cons, List.mem_append, Frame.held, List.mem_map, Prod.mk.injEq, true_and,
          exists_eq_right] at hm
        rcases hm with hm | hm
        · exact absurd hm hr.1
        · exact hm
      · have hn : run w prog (n + 1) = { run w prog n with stack := .op i (pre ++ post) (m :: cur) rest :: fs } := by
          rw [run, step]
          split <;> simp_all
        have hni : (i, m) ∉ held fs := by
          intro h'
          apply hm
          rw [h]
          simp [held, List.flatMap_cons] at h' ⊢
          exact .inr h'
        obtain ⟨N, h1, h2, h3⟩ := ih (n + 1) (m :: cur) hd' (by rw [hn])
        refine ⟨N, by rw [h1, hn], by rw [h2, hn], ?_⟩
        rcases h3 with ⟨h3, k, hk, h4⟩ | ⟨h3, h4⟩
        · exact .inl ⟨h3, k, by simp [hk], fun hr => h4 hr.2⟩
        · refine .inr ⟨h3, fun k hk => ?_⟩
          simp only [List.mem_cons, Instr.lock.injEq] at hk
          rcases hk with rfl | hk
          · exact hni
          · exact h4 k hk
    | unlock m =>
      have hn : run w prog (n + 1) = { run w prog n with stack := .op i (pre ++ post) (cur.erase m) rest :: fs } := by
        rw [run, step]
        split <;> simp_all
      obtain ⟨N, h1, h2, h3⟩ := ih (n + 1) (cur.erase m) hd' (by rw [hn])
      refine ⟨N, by rw [h1, hn], by rw [h2, hn], ?_⟩
      rcases h3 with ⟨h3, k, hk, h4⟩ | ⟨h3, h4⟩
      · exact .inl ⟨h3, k, by simp [hk], fun hr => h4 hr⟩
      · refine .inr ⟨h3, fun k hk => ?_⟩
        simp only [List.mem_cons, reduceCtorEq, false_or] at hk
        exact h4 k hk

/-- The log only grows. -/
theorem log_mono (prog : List Nat) (e : Ev) (n m : Nat) (hnm : n ≤ m) (h : e ∈ (run w prog n).log) : e ∈ (run w prog m).log := by
  induction m with
  | zero => have : n = 0 := by omega
            subst this; exact h
  | succ m ih =>
    by_cases hn : n = m + 1
    · subst hn; exact h
    · have := ih (by omega)
      rw [run, step]
      split <;> (try split) <;> simp_all [follow] <;> (try split) <;> simp_all

theorem step_down {s : St} {i : Nat} {code : List Instr} {mine : List Nat} {rest : Path} {fs : List Frame}
    (h : s.stack = .op i (.down :: code) mine rest :: fs) : step w s = follow w s (.op i code mine rest :: fs) rest := by
  rw [step]
  split <;> simp_all

theorem step_emit {s : St} {k src : Nat} {todo : List Nat} {fs : List Frame} (h : s.stack = .cb k (src :: todo) :: fs) :
    step w s = follow w { s with emissions := s.emissions + 1, log := s.log ++ [.emit src] } (.cb k todo :: fs)
      (w.path src s.emissions) := by
  rw [step]
  split <;> simp_all

/-- One operator between each source and the subscriber; the first callback emits into source `0` (and may do more). -/
def reenter (p : Port) (more : List Nat) (user : Nat → List Nat) : World where
  path := fun _ _ => [(0, p)]
  user := fun k => if k = 1 then 0 :: more else user k

/-- Such a callback never returns, if a mutex is held at the operator's first downstream call. -/
theorem reenter_hangs (p : Port) (more prog : List Nat) (user : Nat → List Nat) (pre post : List Instr) (m : Nat)
    (hc : p.code = pre ++ .down :: post) (hd : .down ∉ pre) (hm : m ∈ after [] pre) :
    (∃ N, Stuck (run (reenter p more user) (0 :: prog) N) ∧
      (run (reenter p more user) (0 :: prog) N).log = [.emit 0, .enter 1, .emit 0]) ∧
    ∀ n, .leave 1 ∉ (run (reenter p more user) (0 :: prog) n).log := by
  have key : ∃ N, Stuck (run (reenter p more user) (0 :: prog) N) ∧
      (run (reenter p more user) (0 :: prog) N).log = [.emit 0, .enter 1, .emit 0] := by
    have hnr : NoRelock [] pre := NoRelock.left _ _ _ (hc ▸ p.noRelock)
    have h1 : run (reenter p more user) (0 :: prog) 1 =
        { stack := [.op 0 (pre ++ .down :: post) [] [], .cb 0 prog], emissions := 1, callbacks := 1, log := [.emit 0] } := by
      simp [run, step, follow, reenter, hc]
    obtain ⟨n, h2, h3, h4⟩ := run_through (w := reenter p more user) (0 :: prog) 0 [] [.cb 0 prog] (.down :: post) pre 1 [] hd (by rw [h1])
    rcases h4 with ⟨_, k, _, hk⟩ | ⟨h4, _⟩
    · have := hk hnr
      simp [held, Frame.held] at this
    · rw [h1] at h2 h3
      have h5 : (run (reenter p more user) (0 :: prog) (n + 1)).stack =
            [.cb 1 (0 :: more), .op 0 post (after [] pre) [], .cb 0 prog] ∧
          (run (reenter p more user) (0 :: prog) (n + 1)).log = [.emit 0, .enter 1] := by
        rw [run, step_down h4]
        simp only [follow, h2, h3]
        exact ⟨rfl, rfl⟩
      obtain ⟨h5, h6⟩ := h5
      have h7 : (run (reenter p more user) (0 :: prog) (n + 2)).stack =
            [.op 0 (pre ++ .down :: post) [] [], .cb 1 more, .op 0 post (after [] pre) [], .cb 0 prog] ∧
          (run (reenter p more user) (0 :: prog) (n + 2)).log = [.emit 0, .enter 1, .emit 0] := by
        rw [run, step_emit h5]
        have : ∀ k, (reenter p more user).path 0 k = [(0, p)] := fun _ => rfl
        simp only [follow, h6, this, hc]
        exact ⟨trivial, rfl⟩
      obtain ⟨h7, h8⟩ := h7
      obtain ⟨N, h9, _, h10⟩ := run_through (w := reenter p more user) (0 :: prog) 0 [] _ (.down :: post) pre (n + 2) [] hd h7
      refine ⟨N, ?_, by rw [h9, h8]⟩
      rcases h10 with h10 | ⟨_, h10⟩
      · exact h10.1
      · exfalso
        have hl := (locked_of_after m pre [] hm).resolve_left (by simp)
        apply h10 m hl
        simp [held, Frame.held, hm]
  refine ⟨key, ?_⟩
  intro n hn
  obtain ⟨N, hN, hl⟩ := key
  have : .leave 1 ∈ (run (reenter p more user) (0 :: prog) N).log := by
    rcases Nat.le_total n N with h | h
    · exact log_mono _ _ _ _ h hn
    · rw [stuck_forever _ _ hN _ h] at hn
      exact hn
  rw [hl] at this
  simp at this

/-- The ports whose operator calls the subscriber under a mutex. -/
def Port.Guarded : Port → Prop
  | .merge | .takeUntil | .takeUntilOther | .switchInner | .concatInner | .timeout => True
  | .zip d | .combineLatest d | .latestMain _ d => d = true
  | .windowToggle n | .serializedSubject n => 0 < n
  | .plain | .latestOther _ | .subject _ => False

/-- C69 is false for merge, zip, combine_latest, with_latest_from (main source), take_until, switch_on_next, concat (inner sources),
timeout, window_toggle and the serialized subjects: when the first callback emits into the source it is called from - whatever
else it or any later callback would do - that emission blocks for ever and the callback never returns. -/
theorem C69_operators_refutes (p : Port) (hp : p.Guarded) (more prog : List Nat) (user : Nat → List Nat) :
    (∃ N, Stuck (run (reenter p more user) (0 :: prog) N) ∧
      (run (reenter p more user) (0 :: prog) N).log = [.emit 0, .enter 1, .emit 0]) ∧
    ∀ n, .leave 1 ∉ (run (reenter p more user) (0 :: prog) n).log := by
  have two : ∀ (l : List Instr) (m : Nat) (post : List Instr), p.code = l ++ .lock m :: .down :: post → .down ∉ l →
      (∃ N, Stuck (run (reenter p more user) (0 :: prog) N) ∧
        (run (reenter p more user) (0 :: prog) N).log = [.emit 0, .enter 1, .emit 0]) ∧
      ∀ n, .leave 1 ∉ (run (reenter p more user) (0 :: prog) n).log := by
    intro l m post h hl
    refine reenter_hangs p more prog user (l ++ [.lock m]) post m (by rw [h]; simp) (by simp [hl]) ?_
    rw [after_append]; simp [after]
  cases p with
  | plain => exact hp.elim
  | latestOther i => exact hp.elim
  | subject n => exact hp.elim
  | merge => exact two [] 0 _ rfl (by simp)
  | switchInner => exact two [] 0 _ rfl (by simp)
  | concatInner => exact two [] 0 _ rfl (by simp)
  | timeout => exact two [] 0 _ rfl (by simp)
  | takeUntil => exact two [.lock 0, .unlock 0] 0 _ rfl (by simp)
  | takeUntilOther => exact two [.lock 0, .unlock 0] 0 _ rfl (by simp)
  | zip d => simp only [Port.Guarded] at hp; subst hp; exact two [] 0 _ rfl (by simp)
  | combineLatest d => simp only [Port.Guarded] at hp; subst hp; exact two [] 0 _ rfl (by simp)
  | latestMain n d =>
    simp only [Port.Guarded] at hp; subst hp
    refine two _ 0 _ (by rw [latest_code, ← List.append_assoc]; rfl) (by simp)
  | windowToggle n =>
    cases n with
    | zero => simp [Port.Guarded] at hp
    | succ n => exact two [] 0 _ (by simp [Port.code, List.replicate_succ]; rfl) (by simp)
  | serializedSubject n =>
    cases n with
    | zero => simp [Port.Guarded] at hp
    | succ n => exact two [.lock 0, .unlock 0] 1 _ (by simp [Port.code, List.replicate_succ]; rfl) (by simp)

/-! ## Concrete cases -/

-- A zip of two sources, then map, into a subscriber; on its first callback it feeds an unrelated ordinary subject whose
-- observer does nothing: the hypotheses of `C69_partial` hold, and all three callbacks come and go.
/-- An example. -/
def exWorld : World where
  path := fun s n => match s with
    | 0 => [(0, .zip (n == 1)), (1, .plain)]
    | _ => [(2, .subject 1)]
  user := fun k => if k = 1 then [1, 1] else []

example : Simple exWorld ∧ (∀ k, ∀ s' ∈ exWorld.user k, ∀ x, Needs exWorld s' x → ¬ Holds exWorld x) := by
  constructor
  · intro s n
    cases s <;> simp [exWorld]
  · rintro k s' hs' x ⟨n, e, he, m, hm, rfl⟩ ⟨s, n', e', he', m', hm', hx⟩
    have : s' = 1 := by
      by_cases hk : k = 1 <;> simp [exWorld, hk] at hs'
      exact hs'
    subst this
    simp only [exWorld, List.mem_singleton] at he
    subst he
    cases s with
    | zero =>
      simp only [exWorld, List.mem_cons, List.not_mem_nil, or_false] at he'
      rcases he' with rfl | rfl <;> simp at hx
    | succ s =>
      simp only [exWorld, List.mem_singleton] at he'
      subst he'
      rw [open_holds_nothing _ rfl] at hm'
      cases hm'

example : (run exWorld [0, 0] 60).log =
    [.emit 0, .emit 0, .enter 1, .emit 1, .enter 2, .leave 2, .emit 1, .enter 3, .leave 3, .leave 1] := by
  set_option maxRecDepth 10000 in decide

-- two subjects feeding each other through map: every port is open, the callbacks nest
/-- An example. -/
def exOpen : World where
  path := fun s _ => [(s, .subject 1), (s + 10, .plain)]
  user := fun k => if k < 4 then [k % 2] else []

example : Simple exOpen ∧ (∀ s n, ∀ e ∈ exOpen.path s n, e.2.open = true) := by
  constructor
  · intro s n; simp [exOpen]
  · intro s n e he
    simp only [exOpen, List.mem_cons, List.not_mem_nil, or_false] at he
    rcases he with rfl | rfl <;> rfl

example : (run exOpen [0] 60).log =
    [.emit 0, .enter 1, .emit 1, .enter 2, .emit 0, .enter 3, .emit 1, .enter 4, .leave 4, .leave 3, .leave 2, .leave 1] := by
  set_option maxRecDepth 10000 in decide

example : (run exOpen [0] 60).stack = [.cb 0 []] := by
  set_option maxRecDepth 10000 in decide

-- with_latest_from: the callback feeds the other source
example : (run { path := fun s m => [(0, if s = 0 then .latestMain 1 (decide (0 < m)) else .latestOther (s - 1))],
                 user := fun k => if k = 1 then [1] else [] } [1, 0] 60).log =
    [.emit 1, .emit 0, .enter 1, .emit 1, .leave 1] := by
  set_option maxRecDepth 10000 in decide

-- the premises of `C69_refutes`: merge of sources 0 and 1, after two steps the callback is about to emit into source 1
example : let w : World := { path := fun _ _ => [(0, .merge)], user := fun k => if k = 1 then [1] else [] }
    (run w [0] 3).stack = [.cb 1 [1], .op 0 [.unlock 0] [0] [], .cb 0 []] ∧ (0, 0) ∈ held [.op 0 [.unlock 0] [0] [], .cb 0 []] := by
  decide

end Rpp.Emit
