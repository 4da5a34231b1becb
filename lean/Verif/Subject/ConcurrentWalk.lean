import Verif.Subject.ConcurrentProps
/-!
# C47: when the iterators of an emission are invalidated
-/

namespace Rpp.Subj.Conc
open Rpp.Subj

variable {α ε σ : Type} [DecidableEq α] [DecidableEq ε]

/-- The call is walking a deque. -/
def Pc.walks : Pc α ε → Prop
  | .nLock _ _ _ => True
  | .work (.nxt _ _ _) _ _ => True
  | _ => False

/-- Which emissions are under way. -/
structure Walk (s : St α ε σ) : Prop where
  iters : ∀ q ∈ s.iters, (∃ v l, Ev.snap q.1 v l ∈ s.log) ∧ (s.calls q.1).walks
  done : ∀ i, Ev.done i ∈ s.log → s.calls i = .done
  ub : ∀ pre k post, s.log = pre ++ .ub k :: post → ∃ i v l, Ev.snap i v l ∈ pre ∧ Ev.done i ∉ pre

theorem Walk.go {s s' : St α ε σ} {i : Nat} {p : Pc α ε} {es : List (Ev α ε)} (h : Walk s) (hc : s'.calls = (s.goto i p).calls)
    (hl : s'.log = s.log ++ es) (hn : s.calls i ≠ .done)
    (hit : ∀ q ∈ s'.iters, (q ∈ s.iters ∧ (q.1 = i → p.walks)) ∨ (q.1 = i ∧ p.walks ∧ ∃ v l, Ev.snap i v l ∈ es))
    (hd : ∀ j, Ev.done j ∈ es → j = i ∧ p = .done)
    (hub : ∀ k, Ev.ub k ∈ es → es = [.reg k, .ub k] ∧ ∃ q, q ∈ s.iters) : Walk s' := by
  refine ⟨fun q hq => ?_, fun j hj => ?_, fun pre k post hx => ?_⟩
  · rw [hl, hc]
    rcases hit q hq with ⟨h1, h2⟩ | ⟨h1, h2, v, l, h3⟩
    · obtain ⟨⟨v, l, h3⟩, h4⟩ := h.iters q h1
      refine ⟨⟨v, l, by simp [h3]⟩, ?_⟩
      simp only [St.goto]
      split
      · rename_i he; exact h2 he
      · exact h4
    · exact ⟨⟨v, l, by simp [h1, h3]⟩, by simp only [St.goto, h1]; simpa using h2⟩
  · rw [hl, List.mem_append] at hj
    rw [hc]
    simp only [St.goto]
    rcases hj with hj | hj
    · have := h.done j hj
      split
      · rename_i he; subst he; exact absurd this hn
      · exact this
    · obtain ⟨rfl, rfl⟩ := hd j hj
      simp
  · rw [hl] at hx
    rcases List.append_eq_append_iff.1 hx with ⟨as, h1, h2⟩ | ⟨bs, h1, h2⟩
    · have : Ev.ub k ∈ es := by rw [h2]; simp
      obtain ⟨h3, q, hq⟩ := hub k this
      obtain ⟨⟨v, l, h4⟩, h5⟩ := h.iters q hq
      rw [h3] at h2
      have has : as = [.reg k] := by
        match as, h2 with
        | [], h2 => simp at h2
        | [x], h2 => simp at h2; rw [h2.1]
        | x :: y :: zs, h2 =>
          have := congrArg List.length h2
          simp at this
      subst has
      refine ⟨q.1, v, l, by rw [h1]; simp [h4], ?_⟩
      rw [h1]
      simp only [List.mem_append, List.mem_singleton, reduceCtorEq, or_false]
      intro hh
      rw [h.done _ hh] at h5
      exact h5
    · cases bs with
      | nil =>
        simp only [List.nil_append] at h2
        have : Ev.ub k ∈ es := by rw [← h2]; simp
        obtain ⟨h3, _⟩ := hub k this
        rw [h3] at h2; simp at h2
      | cons b bs =>
        injection h2 with h2 h3
        subst h2
        exact h.ub pre k bs h1

theorem Walk.same {s s' : St α ε σ} {es : List (Ev α ε)} (h : Walk s) (hc : s'.calls = s.calls) (hi : s'.iters = s.iters)
    (hl : s'.log = s.log ++ es) (hd : ∀ j, Ev.done j ∉ es) (hub : ∀ k, Ev.ub k ∉ es) : Walk s' := by
  refine ⟨fun q hq => ?_, fun j hj => ?_, fun pre k post hx => ?_⟩
  · rw [hi] at hq
    obtain ⟨⟨v, l, h3⟩, h4⟩ := h.iters q hq
    rw [hc]
    exact ⟨⟨v, l, by simp [hl, h3]⟩, h4⟩
  · rw [hl, List.mem_append] at hj
    rw [hc]
    exact h.done j (hj.resolve_right (hd j))
  · rw [hl] at hx
    rcases List.append_eq_append_iff.1 hx with ⟨as, h1, h2⟩ | ⟨bs, h1, h2⟩
    · exact absurd (by rw [h2]; simp) (hub k)
    · cases bs with
      | nil => exact absurd (by simp only [List.nil_append] at h2; rw [← h2]; simp) (hub k)
      | cons b bs =>
        injection h2 with h2 h3
        subst h2
        exact h.ub pre k bs h1

theorem Walk.advance (C : Cfg α σ) {s : St α ε σ} (h : Walk s) (i : Nat) (now : Int) : Walk (s.advance C i now) := by
  have not : ¬ (s.calls i).walks → ∀ q ∈ s.iters, q.1 ≠ i := fun hw q hq he => hw (he ▸ (h.iters q hq).2)
  unfold St.advance
  split
  · exact h
  · exact h
  · rename_i v hx
    exact h.go (i := i) (es := [.stored i v now]) rfl rfl (by simp [hx]) (fun q hq => .inl ⟨hq, fun he => absurd he (not (by simp [hx, Pc.walks]) q hq)⟩)
      (by simp) (by simp)
  · rename_i v hx
    have hno := not (by simp [hx, Pc.walks])
    split
    · rename_i d l _
      refine h.go (i := i) (p := .nLock v l d) (es := [.snap i v l]) rfl rfl (by simp [hx]) (fun q hq => ?_) (by simp) (by simp)
      rcases List.mem_cons.1 hq with rfl | hq
      · exact .inr ⟨rfl, trivial, v, l, by simp⟩
      · exact .inl ⟨hq, fun _ => trivial⟩
    all_goals exact h.go (i := i) (p := .done) (es := [.done i]) rfl rfl (by simp [hx]) (fun q hq => .inl ⟨hq, fun he => absurd he (hno q hq)⟩) (by simp) (by simp)
  · rename_i v l d hx
    unfold St.acquire
    have := fun (s' : St α ε σ) hc hl (hi : s'.iters = s.iters) => h.go (s' := s') (i := i) (p := .work (.nxt v l d) (l.map fun k => (k, .next v)) .none) (es := []) hc hl (by simp [hx])
      (fun q hq => .inl ⟨hi ▸ hq, fun _ => trivial⟩) (by simp) (by simp)
    split
    · split
      · exact this _ rfl (by simp [St.goto]) rfl
      · exact h
    · exact this _ rfl (by simp [St.goto]) rfl
  · rename_i t hx
    have hno := not (by simp [hx, Pc.walks])
    unfold St.acquire
    have := fun (s' : St α ε σ) hc hl (hi : s'.iters = s.iters) => h.go (s' := s') (i := i) (p := .tExch t) (es := []) hc hl (by simp [hx])
      (fun q hq => .inl ⟨hi ▸ hq, fun he => absurd he (hno q (hi ▸ hq))⟩) (by simp) (by simp)
    split
    · split
      · exact this _ rfl (by simp [St.goto]) rfl
      · exact h
    · exact this _ rfl (by simp [St.goto]) rfl
  · rename_i t hx
    have hno := not (by simp [hx, Pc.walks])
    split
    all_goals exact h.go (i := i) (es := []) rfl (by simp [St.goto]) (by simp [hx]) (fun q hq => .inl ⟨hq, fun he => absurd he (hno q hq)⟩) (by simp) (by simp)
  · rename_i down hx
    have hno := not (by simp [hx, Pc.walks])
    exact h.go (i := i) (es := [.read i down now (C.store.get down now s.store).1]) rfl rfl (by simp [hx]) (fun q hq => .inl ⟨hq, fun he => absurd he (hno q hq)⟩) (by simp) (by simp)
  · rename_i hx
    have hno := not (by simp [hx, Pc.walks])
    split
    · exact h.go (i := i) (es := [.reg i]) rfl rfl (by simp [hx]) (fun q hq => .inl ⟨hq, fun he => absurd he (hno q hq)⟩) (by simp) (by simp)
    · rename_i d l _
      by_cases hany : s.iters.any (fun p => p.2 = d) = true
      · simp only [hany, if_true]
        refine h.go (i := i) (p := .done) (es := [.reg i, .ub i]) rfl (by simp [St.emit, St.goto]) (by simp [hx]) (fun q hq => .inl ⟨hq, fun he => absurd he (hno q hq)⟩) (by simp) ?_
        intro k hk
        simp only [List.mem_cons, reduceCtorEq, List.not_mem_nil, or_false, false_or, Ev.ub.injEq] at hk
        subst hk
        obtain ⟨q, hq, _⟩ := List.any_eq_true.1 hany
        exact ⟨rfl, q, hq⟩
      · simp only [hany]
        exact h.go (i := i) (p := .done) (es := [.reg i]) rfl rfl (by simp [hx]) (fun q hq => .inl ⟨hq, fun he => absurd he (hno q hq)⟩) (by simp) (by simp)
    all_goals exact h.go (i := i) (es := []) rfl (by simp [St.goto]) (by simp [hx]) (fun q hq => .inl ⟨hq, fun he => absurd he (hno q hq)⟩) (by simp) (by simp)
  · rename_i j k c rest hx
    unfold St.turn
    have hw : ∀ p : Pc α ε, (p = .work j rest .none ∨ p = .work j rest (.inCb k c)) → ∀ q ∈ s.iters, q.1 = i → p.walks := by
      intro p hp q hq he
      have := (h.iters q hq).2
      rw [he, hx] at this
      rcases hp with rfl | rfl <;> (cases j <;> first | trivial | exact this)
    split
    · exact h.go (i := i) (es := []) rfl (by simp [St.goto]) (by simp [hx]) (fun q hq => .inl ⟨hq, fun he => hw _ (.inl rfl) q hq he⟩) (by simp) (by simp)
    · exact h.go (i := i) (es := [.beg i k c]) rfl rfl (by simp [hx]) (fun q hq => .inl ⟨hq, fun he => hw _ (.inr rfl) q hq he⟩) (by simp) (by simp)
  · exact h
  · rename_i j todo k e hx
    unfold St.turn
    have hw : ∀ p : Pc α ε, (p = .work j todo .none ∨ p = .work j todo (.inCb k (.term (.error e)))) → ∀ q ∈ s.iters, q.1 = i → p.walks := by
      intro p hp q hq he
      have := (h.iters q hq).2
      rw [he, hx] at this
      rcases hp with rfl | rfl <;> (cases j <;> first | trivial | exact this)
    split
    · exact h.go (i := i) (es := []) rfl (by simp [St.goto]) (by simp [hx]) (fun q hq => .inl ⟨hq, fun he => hw _ (.inl rfl) q hq he⟩) (by simp) (by simp)
    · exact h.go (i := i) (es := [.beg i k (.term (.error e))]) rfl rfl (by simp [hx]) (fun q hq => .inl ⟨hq, fun he => hw _ (.inr rfl) q hq he⟩) (by simp) (by simp)
  · rename_i j todo k hx
    refine h.go (i := i) (p := .work j todo .none) (es := [.gone k]) rfl rfl (by simp [hx]) (fun q hq => .inl ⟨hq, fun he => ?_⟩) (by simp) (by simp)
    have := (h.iters q hq).2
    rw [he, hx] at this
    cases j <;> first | trivial | exact this
  · rename_i v l d hx
    refine h.go (i := i) (p := .done) (es := [.done i]) ?_ ?_ (by simp [hx]) (fun q hq => ?_) (by simp) (by simp)
    · unfold St.release; split <;> rfl
    · unfold St.release; split <;> rfl
    · have hq : q ∈ s.iters.filter (fun p => p.1 ≠ i) := hq
      simp only [List.mem_filter, decide_eq_true_eq] at hq
      exact .inl ⟨hq.1, fun he => absurd he hq.2⟩
  · rename_i t hx
    have hno := not (by simp [hx, Pc.walks])
    unfold St.release
    split
    all_goals exact h.go (i := i) (es := []) rfl (by simp [St.goto]) (by simp [hx]) (fun q hq => .inl ⟨hq, fun he => absurd he (hno q hq)⟩) (by simp) (by simp)
  all_goals
    rename_i hx
    have hno := not (by simp [hx, Pc.walks])
    try split
    all_goals exact h.go (i := i) (es := []) rfl (by simp [St.goto]) (by simp [hx]) (fun q hq => .inl ⟨hq, fun he => absurd he (hno q hq)⟩) (by simp) (by simp)

theorem Walk.step (C : Cfg α σ) {s : St α ε σ} (h : Walk s) (l : Lbl α ε) : Walk (step C s l) := by
  have not : ∀ i, ¬ (s.calls i).walks → ∀ q ∈ s.iters, q.1 ≠ i := fun i hw q hq he => hw (he ▸ (h.iters q hq).2)
  unfold Conc.step
  cases l with
  | next i v =>
    simp only
    split
    · rename_i hx
      exact h.go (i := i) (es := [.emit i v]) rfl rfl (by simp [hx.1]) (fun q hq => .inl ⟨hq, fun he => absurd he (not i (by simp [hx.1, Pc.walks]) q hq)⟩) (by simp) (by simp)
    · exact h
  | finish i t =>
    simp only
    split
    · rename_i hx
      exact h.go (i := i) (es := [.finish i t]) rfl rfl (by simp [hx.1]) (fun q hq => .inl ⟨hq, fun he => absurd he (not i (by simp [hx.1, Pc.walks]) q hq)⟩) (by simp) (by simp)
    · exact h
  | sub i =>
    simp only
    split
    · rename_i hx
      exact h.go (i := i) (es := []) rfl (by simp [St.goto]) (by simp [hx]) (fun q hq => .inl ⟨hq, fun he => absurd he (not i (by simp [hx, Pc.walks]) q hq)⟩) (by simp) (by simp)
    · exact h
  | down i =>
    simp only
    split
    · rename_i hx
      exact h.go (i := i) (es := []) rfl (by simp [St.goto]) (by simp [hx]) (fun q hq => .inl ⟨hq, fun he => absurd he (not i (by simp [hx, Pc.walks]) q hq)⟩) (by simp) (by simp)
    · exact h
  | run i now => exact h.advance C i now
  | ret i r =>
    simp only
    split
    · rename_i j todo k c hx
      have hw : ∀ cur, ∀ q ∈ s.iters, q.1 = i → (Pc.work j todo cur : Pc α ε).walks := by
        intro p q hq he
        have := (h.iters q hq).2
        rw [he, hx] at this
        cases j <;> first | trivial | exact this
      split
      all_goals exact h.go (i := i) (es := [.fin i k]) rfl rfl (by simp [hx]) (fun q hq => .inl ⟨hq, fun he => hw _ q hq he⟩) (by simp) (by simp)
    · exact h
  | gone k =>
    simp only
    split
    · exact h
    · exact h.same (es := [.gone k]) rfl rfl rfl (by simp) (by simp)
  | clean k =>
    simp only
    split
    · split
      · exact h.same (es := []) rfl rfl (by simp) (by simp) (by simp)
      · exact h
    · exact h

theorem walk (C : Cfg α σ) (ls : List (Lbl α ε)) : Walk (exec C ls) := by
  have : ∀ (ls : List (Lbl α ε)) (s : St α ε σ), Walk s → Walk (ls.foldl (Conc.step C) s) := by
    intro ls
    induction ls with
    | nil => exact fun _ h => h
    | cons l ls ih => exact fun s h => ih _ (h.step C l)
  exact this ls _ ⟨by simp, by simp, by simp⟩

/-- C47, the part of the above that holds: the iterators are invalidated only by a subscription made while an emission is under way,
that is from one of its callbacks or by another thread; not by one made between emissions. -/
theorem C47_iterators_partial (C : Cfg α σ) (ls : List (Lbl α ε)) (pre post : List (Ev α ε)) (k : Nat)
    (hlog : (exec C ls).log = pre ++ .ub k :: post) : ∃ i v l, .snap i v l ∈ pre ∧ .done i ∉ pre :=
  (walk C ls).ub pre k post hlog

/-- Non-vacuity: after the emission has returned a subscription to the same deque is harmless. -/
example : (exec (ε := Unit) (pub false) ([.sub 1] ++ runs 1 3 ++ [.next 10 7] ++ runs 10 4 ++ [.ret 10 .ok] ++ runs 10 1 ++
      [.sub 2] ++ runs 2 3)).log =
    [.read 1 false 0 [], .reg 1, .emit 10 7, .stored 10 7 0, .snap 10 7 [1], .beg 10 1 (.next 7), .fin 10 1, .done 10,
     .read 2 false 0 [], .reg 2] := by decide

end Rpp.Subj.Conc
