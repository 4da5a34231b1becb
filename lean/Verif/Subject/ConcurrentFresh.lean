import Verif.Subject.ConcurrentWalk
/-!
# C47: removing a disposed observer gives the subject a new deque
-/

namespace Rpp.Subj.Conc
open Rpp.Subj

variable {α ε σ : Type} [DecidableEq α] [DecidableEq ε]

/-- Which deque the subject holds; no counterpart in /repo. -/
def St.deque (s : St α ε σ) : Option Nat :=
  match s.phase with
  | .live d _ => d
  | _ => none

/-- What a step may do to the deques, for the proofs. -/
structure Delta (s s' : St α ε σ) (es : List (Ev α ε)) : Prop where
  log : s'.log = s.log ++ es
  deque : (s'.fresh = s.fresh ∧ (s'.deque = s.deque ∨ s'.deque = none)) ∨ (s'.fresh = s.fresh + 1 ∧ s'.deque = some s.fresh)
  iters : ∀ q ∈ s'.iters, q ∈ s.iters ∨ (s.deque = some q.2 ∧ s'.deque = s.deque ∧ ∃ v l, Ev.snap q.1 v l ∈ es)
  ub : ∀ k, Ev.ub k ∈ es → ∃ q ∈ s.iters, s.deque = some q.2

theorem Delta.same {s s' : St α ε σ} {es : List (Ev α ε)} (hl : s'.log = s.log ++ es) (hf : s'.fresh = s.fresh) (hp : s'.deque = s.deque ∨ s'.deque = none)
    (hi : ∀ q ∈ s'.iters, q ∈ s.iters) (hub : ∀ k, Ev.ub k ∉ es) : ∃ es, Delta s s' es :=
  ⟨es, hl, .inl ⟨hf, hp⟩, fun q hq => .inl (hi q hq), fun k hk => absurd hk (hub k)⟩

theorem Delta.refl (s : St α ε σ) : ∃ es, Delta s s es := Delta.same (es := []) (by simp) rfl (.inl rfl) (fun _ h => h) (by simp)

theorem delta_advance (C : Cfg α σ) (s : St α ε σ) (i : Nat) (now : Int) : ∃ es, Delta s (s.advance C i now) es := by
  unfold St.advance
  split
  · exact Delta.refl s
  · exact Delta.refl s
  · rename_i v _; exact Delta.same (es := [.stored i v now]) rfl rfl (.inl rfl) (fun _ h => h) (by simp)
  · rename_i v _
    split
    · rename_i d l hp
      refine ⟨[.snap i v l], rfl, .inl ⟨rfl, .inl rfl⟩, fun q hq => ?_, by simp⟩
      rcases List.mem_cons.1 hq with rfl | hq
      · exact .inr ⟨by simp [St.deque, hp], rfl, v, l, by simp⟩
      · exact .inl hq
    all_goals exact Delta.same (es := [.done i]) rfl rfl (.inl rfl) (fun _ h => h) (by simp)
  · unfold St.acquire
    split
    · split
      · exact Delta.same (es := []) (by simp [St.goto]) rfl (.inl rfl) (fun _ h => h) (by simp)
      · exact Delta.refl s
    · exact Delta.same (es := []) (by simp [St.goto]) rfl (.inl rfl) (fun _ h => h) (by simp)
  · unfold St.acquire
    split
    · split
      · exact Delta.same (es := []) (by simp [St.goto]) rfl (.inl rfl) (fun _ h => h) (by simp)
      · exact Delta.refl s
    · exact Delta.same (es := []) (by simp [St.goto]) rfl (.inl rfl) (fun _ h => h) (by simp)
  · split
    · exact Delta.same (es := []) (by simp [St.goto]) rfl (.inr rfl) (fun _ h => h) (by simp)
    · exact Delta.same (es := []) (by simp [St.goto]) rfl (.inl rfl) (fun _ h => h) (by simp)
  · rename_i down _
    exact Delta.same (es := [.read i down now (C.store.get down now s.store).1]) rfl rfl (.inl rfl) (fun _ h => h) (by simp)
  · split
    · exact ⟨[.reg i], rfl, .inr ⟨rfl, rfl⟩, fun q hq => .inl hq, by simp⟩
    · rename_i d l hp
      by_cases hany : s.iters.any (fun p => p.2 = d) = true
      · simp only [hany, if_true]
        refine ⟨[.reg i, .ub i], by simp [St.emit, St.goto], .inl ⟨rfl, .inl (by simp [St.deque, hp, St.emit, St.goto])⟩, fun q hq => .inl hq, fun k _ => ?_⟩
        obtain ⟨q, hq, hd⟩ := List.any_eq_true.1 hany
        exact ⟨q, hq, by simpa [St.deque, hp] using (of_decide_eq_true hd).symm⟩
      · simp only [hany]
        exact Delta.same (es := [.reg i]) rfl rfl (.inl (by simp [St.deque, hp, St.emit, St.goto])) (fun _ h => h) (by simp)
    all_goals exact Delta.same (es := []) (by simp [St.goto]) rfl (.inl rfl) (fun _ h => h) (by simp)
  · rename_i j k c rest _
    unfold St.turn
    split
    · exact Delta.same (es := []) (by simp [St.goto]) rfl (.inl rfl) (fun _ h => h) (by simp)
    · exact Delta.same (es := [.beg i k c]) rfl rfl (.inl rfl) (fun _ h => h) (by simp)
  · exact Delta.refl s
  · rename_i j todo k e _
    unfold St.turn
    split
    · exact Delta.same (es := []) (by simp [St.goto]) rfl (.inl rfl) (fun _ h => h) (by simp)
    · exact Delta.same (es := [.beg i k (.term (.error e))]) rfl rfl (.inl rfl) (fun _ h => h) (by simp)
  · rename_i j todo k _
    exact Delta.same (es := [.gone k]) rfl rfl (.inl rfl) (fun _ h => h) (by simp)
  · refine Delta.same (es := [.done i]) ?_ ?_ (.inl ?_) (fun q hq => ?_) (by simp)
    · unfold St.release; split <;> rfl
    · unfold St.release; split <;> rfl
    · unfold St.release; split <;> rfl
    · have hq : q ∈ s.iters.filter (fun p => p.1 ≠ i) := hq
      exact (List.mem_filter.1 hq).1
  · unfold St.release
    split <;> exact Delta.same (es := []) (by simp [St.goto]) rfl (.inl rfl) (fun _ h => h) (by simp)
  · exact Delta.same (es := []) (by simp [St.goto]) rfl (.inl rfl) (fun _ h => h) (by simp)
  · exact Delta.same (es := []) (by simp [St.goto]) rfl (.inl rfl) (fun _ h => h) (by simp)
  · split <;> exact Delta.same (es := []) (by simp [St.goto]) rfl (.inl rfl) (fun _ h => h) (by simp)
  · split
    · exact Delta.same (es := []) (by simp [St.goto]) rfl (.inr rfl) (fun _ h => h) (by simp)
    · exact Delta.same (es := []) (by simp [St.goto]) rfl (.inl rfl) (fun _ h => h) (by simp)

theorem delta_step (C : Cfg α σ) (s : St α ε σ) (l : Lbl α ε) : ∃ es, Delta s (step C s l) es := by
  unfold Conc.step
  cases l with
  | next i v =>
    simp only
    split
    · exact Delta.same (es := [.emit i v]) rfl rfl (.inl rfl) (fun _ h => h) (by simp)
    · exact Delta.refl s
  | finish i t =>
    simp only
    split
    · exact Delta.same (es := [.finish i t]) rfl rfl (.inl rfl) (fun _ h => h) (by simp)
    · exact Delta.refl s
  | sub i =>
    simp only
    split
    · exact Delta.same (es := []) (by simp [St.goto]) rfl (.inl rfl) (fun _ h => h) (by simp)
    · exact Delta.refl s
  | down i =>
    simp only
    split
    · exact Delta.same (es := []) (by simp [St.goto]) rfl (.inl rfl) (fun _ h => h) (by simp)
    · exact Delta.refl s
  | run i now => exact delta_advance C s i now
  | ret i r =>
    simp only
    split
    · rename_i j todo k c hx
      split
      all_goals exact Delta.same (es := [.fin i k]) rfl rfl (.inl rfl) (fun _ h => h) (by simp)
    · exact Delta.refl s
  | gone k =>
    simp only
    split
    · exact Delta.refl s
    · exact Delta.same (es := [.gone k]) rfl rfl (.inl rfl) (fun _ h => h) (by simp)
  | clean k =>
    simp only
    split
    · split
      · exact ⟨[], by simp, .inr ⟨rfl, rfl⟩, fun q hq => .inl hq, by simp⟩
      · exact Delta.refl s
    · exact Delta.refl s

/-- The deques made so far are numbered below `fresh`. -/
structure Old (s : St α ε σ) : Prop where
  iters : ∀ q ∈ s.iters, q.2 < s.fresh
  deque : ∀ d, s.deque = some d → d < s.fresh

theorem Old.step {s s' : St α ε σ} {es : List (Ev α ε)} (h : Old s) (q : Delta s s' es) : Old s' := by
  have hf : s.fresh ≤ s'.fresh := by rcases q.deque with ⟨e, _⟩ | ⟨e, _⟩ <;> omega
  refine ⟨fun p hp => ?_, fun d hd => ?_⟩
  · rcases q.iters p hp with h1 | ⟨h1, _⟩
    · have := h.iters p h1; omega
    · have := h.deque _ h1; omega
  · rcases q.deque with ⟨e, h1 | h1⟩ | ⟨e, h1⟩
    · have := h.deque d (h1 ▸ hd); omega
    · rw [h1] at hd; cases hd
    · rw [h1] at hd; injection hd; omega

theorem old (C : Cfg α σ) (ls : List (Lbl α ε)) : Old (exec C ls) := by
  have : ∀ (ls : List (Lbl α ε)) (s : St α ε σ), Old s → Old (ls.foldl (Conc.step C) s) := by
    intro ls
    induction ls with
    | nil => exact fun _ h => h
    | cons l ls ih => exact fun s h => ih _ (h.step (delta_step C s l).choose_spec)
  exact this ls _ ⟨by simp, by simp [St.deque]⟩

/-- No running emission walks the deque the subject holds. -/
def Apart (s : St α ε σ) : Prop := ∀ q ∈ s.iters, s.deque ≠ some q.2

theorem apart_step {s s' : St α ε σ} {es : List (Ev α ε)} (h : Old s) (a : Apart s) (q : Delta s s' es) (hs : ∀ i v l, Ev.snap i v l ∉ es) : Apart s' := by
  intro p hp he
  have h1 : p ∈ s.iters := (q.iters p hp).resolve_right fun ⟨_, _, v, l, hm⟩ => hs _ v l hm
  rcases q.deque with ⟨_, h2 | h2⟩ | ⟨_, h2⟩
  · exact a p h1 (h2 ▸ he)
  · rw [h2] at he; cases he
  · rw [h2] at he
    injection he with he
    have := h.iters p h1
    omega

theorem apart_foldl (C : Cfg α σ) {ls : List (Lbl α ε)} {s : St α ε σ} (h : Old s) (a : Apart s) :
    ∃ es, (ls.foldl (Conc.step C) s).log = s.log ++ es ∧ ∀ pre k post, es = pre ++ .ub k :: post → ∃ i v l, Ev.snap i v l ∈ pre := by
  induction ls generalizing s with
  | nil => exact ⟨[], by simp, by simp⟩
  | cons l ls ih =>
    obtain ⟨es, q⟩ := delta_step C s l
    have hnub : ∀ k, Ev.ub k ∉ es := fun k hk => by
      obtain ⟨p, hp, he⟩ := q.ub k hk
      exact a p hp he
    by_cases hs : ∃ i v l, Ev.snap i v l ∈ es
    · have lg : ∀ (ls : List (Lbl α ε)) (t : St α ε σ), ∃ fs, (ls.foldl (Conc.step C) t).log = t.log ++ fs := by
        intro ls
        induction ls with
        | nil => exact fun t => ⟨[], by simp⟩
        | cons l ls ih =>
          intro t
          obtain ⟨fs, hf⟩ := delta_step C t l
          obtain ⟨gs, hg⟩ := ih (step C t l)
          exact ⟨fs ++ gs, by rw [List.foldl_cons, hg, hf.log, List.append_assoc]⟩
      obtain ⟨fs, hf⟩ := lg ls (step C s l)
      refine ⟨es ++ fs, by rw [List.foldl_cons, hf, q.log, List.append_assoc], fun pre k post he => ?_⟩
      obtain ⟨i, v, m, hm⟩ := hs
      rcases List.append_eq_append_iff.1 he with ⟨as, h1, h2⟩ | ⟨bs, h1, h2⟩
      · exact ⟨i, v, m, by rw [h1]; simp [hm]⟩
      · cases bs with
        | nil => exact ⟨i, v, m, by simp only [List.append_nil] at h1; rwa [← h1]⟩
        | cons b bs =>
          injection h2 with h2 _
          exact absurd (by rw [h1, ← h2]; simp) (hnub k)
    · obtain ⟨fs, h1, h2⟩ := ih (h.step q) (apart_step h a q fun i v m hm => hs ⟨i, v, m, hm⟩)
      refine ⟨es ++ fs, by rw [List.foldl_cons, h1, q.log, List.append_assoc], fun pre k post he => ?_⟩
      rcases List.append_eq_append_iff.1 he with ⟨as, h3, h4⟩ | ⟨bs, h3, h4⟩
      · obtain ⟨i, v, m, hm⟩ := h2 as k post h4
        exact ⟨i, v, m, by rw [h3]; simp [hm]⟩
      · cases bs with
        | nil =>
          obtain ⟨i, v, m, hm⟩ := h2 [] k post (by simpa using h4.symm)
          simp at hm
        | cons b bs =>
          injection h4 with h4 _
          exact absurd (by rw [h3, ← h4]; simp) (hnub k)

/-- **C47, a further part that holds.** Taking a disposed observer off the list does not touch the deque which running emissions walk: it gives the subject a new one (subject_state.hpp 159-172). So from then on subscriptions are harmless until another emission has begun, even while the earlier emissions are still calling observers. -/
theorem C47_cleanup_partial (C : Cfg α σ) (ls post : List (Lbl α ε)) (k : Nat) (hk : k ∈ (exec C ls).gone)
    (es pre rest : List (Ev α ε)) (j : Nat) (hes : (exec C (ls ++ .clean k :: post)).log = (exec C ls).log ++ es) (hub : es = pre ++ .ub j :: rest) :
    ∃ i v l, Ev.snap i v l ∈ pre := by
  have e : exec C (ls ++ .clean k :: post) = post.foldl (Conc.step C) (step C (exec C ls) (.clean k)) := by simp [exec]
  have ho := old C ls
  have hc : (step C (exec C ls) (.clean k)).log = (exec C ls).log ∧ Old (step C (exec C ls) (.clean k)) ∧ Apart (step C (exec C ls) (.clean k)) := by
    refine ⟨?_, ho.step (delta_step C _ _).choose_spec, ?_⟩
    · simp only [step, hk, if_true]; split <;> rfl
    · simp only [step, hk, if_true]
      split
      · intro q hq he
        have h1 := ho.iters q hq
        simp only [St.deque, Option.some.injEq] at he
        omega
      · rename_i hp
        intro q hq he
        unfold St.deque at he
        split at he
        · rename_i d l hd; exact hp d l hd
        · cases he
  obtain ⟨fs, h1, h2⟩ := apart_foldl C (ls := post) hc.2.1 hc.2.2
  rw [e, h1, hc.1] at hes
  have : fs = es := List.append_cancel_left hes
  subst this
  exact h2 pre j rest hub

/-- Non-vacuity: observer 1 is called by an emission, another one leaves and is taken off the list, and then a third subscribes: without the clean-up this would be undefined behaviour (`C47_iterators_refutes`). -/
example : let ls : List (Lbl Nat Unit) := [.sub 1] ++ runs 1 3 ++ [.sub 3] ++ runs 3 3 ++ [.next 10 7] ++ runs 10 4 ++ [.gone 3]
    3 ∈ (exec (pub false) ls).gone ∧
    Ev.ub 2 ∉ (exec (pub false) (ls ++ .clean 3 :: ([.sub 2] ++ runs 2 3))).log ∧ Ev.reg 2 ∈ (exec (pub false) (ls ++ .clean 3 :: ([.sub 2] ++ runs 2 3))).log ∧
    Ev.ub 2 ∈ (exec (pub false) (ls ++ ([.sub 2] ++ runs 2 3))).log := by decide

end Rpp.Subj.Conc
