import Verif.Source.SubscribeOn
import Verif.Scheduler.CurrentThreadProofs

/-!
# subscribe_on: C89
-/

namespace Rpp.SubOn

theorem split_snoc {γ : Type} {l l1 l2 : List γ} {e x : γ} (h : l ++ [e] = l1 ++ x :: l2) :
    (l2 = [] ∧ x = e ∧ l1 = l) ∨ ∃ l2', l2 = l2' ++ [e] ∧ l = l1 ++ x :: l2' := by
  rcases List.eq_nil_or_concat l2 with rfl | ⟨l2', y, rfl⟩
  · have h2 := List.append_inj' h rfl
    simp at h2
    exact .inl ⟨rfl, h2.2.symm, h2.1.symm⟩
  · have h' : l ++ [e] = (l1 ++ x :: l2') ++ [y] := by simpa using h
    have h2 := List.append_inj' h' rfl
    simp at h2
    exact .inr ⟨l2', by simp [h2.2], h2.1⟩

theorem workers_append (a b : List Link) : workers (a ++ b) = workers a ++ workers b := by simp [workers]

theorem hops_append (k : Nat) (a b : List Ev) : hops k (a ++ b) = hops k a ++ hops k b := by simp [hops]

theorem Checked.snoc {k : Nat} {l : List Ev} {e : Ev} (h : Checked k l) (he : isCheck k e = false) : Checked k (l ++ [e]) := by
  obtain ⟨a, x, b, rfl, h1, h2, h3⟩ := h
  refine ⟨a, x, b ++ [e], by simp, h1, h2, ?_⟩
  intro y hy
  simp only [List.mem_append, List.mem_singleton] at hy
  rcases hy with hy | rfl
  · exact h3 y hy
  · exact he

theorem Checked.now {k : Nat} {l : List Ev} {e : Ev} (h : .dispose k ∉ l) (he : isCheck k e = true) : Checked k (l ++ [e]) :=
  ⟨l, e, [], rfl, he, h, by simp⟩

/-- What the logs satisfy (for the proofs); models no code. -/
def Ok (pre : List Ev) : Ev → Prop
  | .src k t => (∀ t', .src k t' ∉ pre) ∧ Checked k pre ∧ ∃ c, .sub k c ∈ pre ∧ t = home c ∧ hops k pre = workers c
  | .hop k _ => .dispose k ∉ pre ∧ ∀ t, .src k t ∉ pre
  | .sub k _ => .dispose k ∉ pre ∧ ∀ c, .sub k c ∉ pre
  | .threw k => .threw k ∉ pre ∧ ∃ t, .src k t ∈ pre
  | .err k => .threw k ∈ pre ∧ .err k ∉ pre ∧ .dispose k ∉ pre
  | _ => True

/-- What the logs satisfy (for the proofs); models no code. -/
def AllOk (log : List Ev) : Prop := ∀ pre e post, log = pre ++ e :: post → Ok pre e

theorem AllOk.snoc {log : List Ev} {e : Ev} (h : AllOk log) (he : Ok log e) : AllOk (log ++ [e]) := by
  intro pre x post hx
  rcases split_snoc hx with ⟨_, rfl, rfl⟩ | ⟨l2', _, h2⟩
  · exact he
  · exact h _ _ _ h2

/-- What is known of subscription `k` at a position. -/
def At (s : St) (k : Nat) : Prop :=
  (∀ c, .sub k c ∈ s.log → s.chain k = c) ∧ (s.disp k = true ↔ .dispose k ∈ s.log) ∧
  match s.pos k with
  | .fresh => (∀ c, .sub k c ∉ s.log) ∧ (∀ t, .src k t ∉ s.log) ∧ .threw k ∉ s.log ∧ .err k ∉ s.log ∧ hops k s.log = []
  | .waiting d w r => s.chain k = d ++ .on w :: r ∧ .sub k (s.chain k) ∈ s.log ∧ hops k s.log = workers d ∧ (∀ t, .src k t ∉ s.log) ∧
      .threw k ∉ s.log ∧ .err k ∉ s.log
  | .running d r => s.chain k = d ++ r ∧ .sub k (s.chain k) ∈ s.log ∧ hops k s.log = workers d ∧ (∀ t, .src k t ∉ s.log) ∧
      .threw k ∉ s.log ∧ .err k ∉ s.log ∧ Checked k s.log
  | .source => .sub k (s.chain k) ∈ s.log ∧ hops k s.log = workers (s.chain k) ∧ .src k (home (s.chain k)) ∈ s.log ∧
      .threw k ∉ s.log ∧ .err k ∉ s.log
  | .over => (∀ c, .sub k c ∈ s.log → .dispose k ∈ s.log ∨ .src k (home c) ∈ s.log) ∧
      (.threw k ∈ s.log → home (s.chain k) = none → .out k ∈ s.log) ∧
      (.threw k ∈ s.log → home (s.chain k) ≠ none → intact (s.chain k) = true → .err k ∈ s.log ∨ .dispose k ∈ s.log) ∧
      (home (s.chain k) ≠ none → intact (s.chain k) = false → .err k ∉ s.log) ∧
      (∃ r, hops k s.log ++ r = workers (s.chain k)) ∧
      (.threw k ∈ s.log → ∃ c, .sub k c ∈ s.log)

/-- Invariant of the proofs; models no code. -/
structure Inv (s : St) : Prop where
  at_ : ∀ k, At s k
  ok : AllOk s.log

/-- An event about another subscription. -/
def about : Ev → Nat
  | .sub k _ | .refused k _ | .dispose k | .hop k _ | .src k _ | .threw k | .err k | .lost k | .out k => k

theorem At.other {s t : St} {k : Nat} {es : List Ev} (h : At s k) (hp : t.pos k = s.pos k) (hc : t.chain k = s.chain k)
    (hd : t.disp k = s.disp k) (hl : t.log = s.log ++ es) (he : ∀ e ∈ es, about e ≠ k) : At t k := by
  have hm : ∀ e, about e = k → (e ∈ t.log ↔ e ∈ s.log) := by
    intro e ha
    rw [hl, List.mem_append]
    constructor
    · rintro (h | h)
      · exact h
      · exact absurd ha (he e h)
    · exact .inl
  have hh : hops k t.log = hops k s.log := by
    rw [hl, hops_append]
    have : hops k es = [] := by
      simp only [hops, List.filterMap_eq_nil_iff]
      intro e hm
      have := he e hm
      cases e <;> simp_all [about]
    simp [this]
  have hck : Checked k s.log → Checked k t.log := by
    rw [hl]
    intro h
    clear hl hm hh hp hc hd
    revert he
    refine Sched.snoc_ind (P := fun es => (∀ e ∈ es, about e ≠ k) → Checked k (s.log ++ es)) (by simpa using h) ?_ es
    intro es e ih he
    rw [← List.append_assoc]
    refine (ih fun x hx => he x (by simp [hx])).snoc ?_
    have := he e (by simp)
    cases e <;> simp_all [about, isCheck]
  unfold At at h ⊢
  rw [hp, hc, hd, hh]
  have m1 := fun c => hm (.sub k c) rfl
  have m2 := fun c => hm (.src k c) rfl
  have m3 := hm (.dispose k) rfl
  have m4 := hm (.threw k) rfl
  have m5 := hm (.err k) rfl
  have m6 := hm (.out k) rfl
  simp only [m1, m2, m3, m4, m5, m6]
  refine ⟨h.1, h.2.1, ?_⟩
  have h3 := h.2.2
  split <;> rename_i e <;> rw [e] at h3 <;> simp only at h3 ⊢
  · exact h3
  · exact h3
  · exact ⟨h3.1, h3.2.1, h3.2.2.1, h3.2.2.2.1, h3.2.2.2.2.1, h3.2.2.2.2.2.1, hck h3.2.2.2.2.2.2⟩
  · exact h3
  · exact h3

theorem inv0 : Inv {} := by
  refine ⟨fun k => ?_, ?_⟩
  · simp [At, hops]
  · intro pre e post h; simp at h

theorem set_ne {β : Type} {f : Nat → β} {k j : Nat} {b : β} (h : j ≠ k) : set f k b j = f j := by simp [set, h]
theorem set_eq {β : Type} {f : Nat → β} {k : Nat} {b : β} : set f k b k = b := by simp [set]

theorem home_snoc_on (d : List Link) (w : Nat) : home (d ++ [.on w]) = some w := by simp [home, workers_append, workers]

theorem step_inv {s : St} (h : Inv s) (l : Lbl) : Inv (step s l) := by
  obtain ⟨ha, hok⟩ := h
  cases l with
  | sub k c =>
    have hk := ha k
    simp only [step]
    split
    · rename_i hp
      unfold At at hk
      rw [hp] at hk
      simp only at hk
      obtain ⟨h1, h2, h3, h4, h5, h6, h7⟩ := hk
      split
      · rename_i hd
        refine ⟨fun j => ?_, hok.snoc (e := .refused k c) trivial⟩
        by_cases e : j = k
        · subst e
          have hh : hops j [Ev.refused j c] = [] := rfl
          simp only [At, St.say, set_eq, hops_append, hh, h7, List.append_nil, List.mem_append, List.mem_singleton, reduceCtorEq, or_false]
          exact ⟨h1, h2, fun c hc => absurd hc (h3 c), fun hx => absurd hx h5, fun hx => absurd hx h5, fun _ _ => h6, ⟨_, rfl⟩,
            fun hx => absurd hx h5⟩
        · exact (ha j).other (es := [.refused k c]) (set_ne e) rfl rfl rfl (by simp [about, Ne.symm e])
      · rename_i hd
        have hnd : Ev.dispose k ∉ s.log := fun hx => hd (h2.2 hx)
        refine ⟨fun j => ?_, hok.snoc (e := .sub k c) ⟨hnd, h3⟩⟩
        by_cases e : j = k
        · subst e
          have hck : Checked j (s.log ++ [.sub j c]) := .now hnd (by simp [isCheck])
          simp only [At, St.say, set_eq, hops_append]
          refine ⟨?_, ?_, ?_⟩
          · simp_all
          · simp_all
          · simp_all [hops, workers]
        · exact (ha j).other (es := [.sub k c]) (set_ne e) (set_ne e) rfl rfl (by simp [about, Ne.symm e])
    · exact ⟨ha, hok⟩
  | dispose k =>
    refine ⟨fun j => ?_, hok.snoc (e := .dispose k) trivial⟩
    by_cases e : j = k
    · subst e
      have hk := ha j
      have hck : Checked j s.log → Checked j (s.log ++ [.dispose j]) := fun h => h.snoc rfl
      unfold At at hk
      simp only [At, step, St.say, set_eq, hops_append]
      have hh : hops j [Ev.dispose j] = [] := rfl
      simp only [hh, List.append_nil, List.mem_append, List.mem_singleton, reduceCtorEq, or_false, or_true, Ev.dispose.injEq, true_iff]
      refine ⟨hk.1, trivial, ?_⟩
      have h3 := hk.2.2
      split <;> rename_i e <;> rw [e] at h3 <;> simp only at h3 ⊢
      · exact h3
      · exact h3
      · exact ⟨h3.1, h3.2.1, h3.2.2.1, h3.2.2.2.1, h3.2.2.2.2.1, h3.2.2.2.2.2.1, hck h3.2.2.2.2.2.2⟩
      · exact h3
      · exact ⟨by simp, h3.2.1, by simp, h3.2.2.2.1, h3.2.2.2.2⟩
    · exact (ha j).other (es := [.dispose k]) rfl rfl (set_ne e) rfl (by simp [about, Ne.symm e])
  | take k =>
    have hk := ha k
    simp only [step]
    split
    · rename_i d w r hp
      unfold At at hk
      rw [hp] at hk
      simp only at hk
      obtain ⟨h1, h2, h3, h4, h5, h6, h7, h8⟩ := hk
      split
      · rename_i hd
        refine ⟨fun j => ?_, hok⟩
        by_cases e : j = k
        · subst e
          have hdl := h2.1 hd
          simp only [At, set_eq]
          refine ⟨h1, h2, fun _ _ => .inl hdl, fun hx => absurd hx h7, fun hx => absurd hx h7, fun _ _ => h8, ?_, fun hx => absurd hx h7⟩
          exact ⟨w :: workers r, by rw [h5, h3, workers_append]; rfl⟩
        · exact (ha j).other (es := []) (set_ne e) rfl rfl (by simp) (by simp)
      · rename_i hd
        have hnd : Ev.dispose k ∉ s.log := fun hx => hd (h2.2 hx)
        refine ⟨fun j => ?_, hok.snoc (e := .hop k w) ⟨hnd, h6⟩⟩
        by_cases e : j = k
        · subst e
          have hck : Checked j (s.log ++ [.hop j w]) := .now hnd (by simp [isCheck])
          have hh : hops j [Ev.hop j w] = [w] := by simp [hops]
          simp only [At, St.say, set_eq, hops_append, hh]
          simp only [List.mem_append, List.mem_singleton, reduceCtorEq, or_false]
          refine ⟨h1, h2, by simp [h3], h4, ?_, h6, h7, h8, hck⟩
          rw [h5, workers_append]
          rfl
        · exact (ha j).other (es := [.hop k w]) (set_ne e) rfl rfl rfl (by simp [about, Ne.symm e])
    · exact ⟨ha, hok⟩
  | go k =>
    have hk := ha k
    simp only [step]
    split
    · rename_i d r hp
      unfold At at hk
      rw [hp] at hk
      simp only at hk
      obtain ⟨h1, h2, h3, h4, h5, h6⟩ := hk
      refine ⟨fun j => ?_, hok⟩
      by_cases e : j = k
      · subst e
        simp only [At, set_eq]
        exact ⟨h1, h2, by simp [h3], h4, by rw [h5, workers_append]; simp [workers], h6⟩
      · exact (ha j).other (es := []) (set_ne e) rfl rfl (by simp) (by simp)
    · rename_i d w r hp
      unfold At at hk
      rw [hp] at hk
      simp only at hk
      obtain ⟨h1, h2, h3, h4, h5, h6, h7, h8, _⟩ := hk
      refine ⟨fun j => ?_, hok⟩
      by_cases e : j = k
      · subst e
        simp only [At, set_eq]
        exact ⟨h1, h2, h3, h4, h5, h6, h7, h8⟩
      · exact (ha j).other (es := []) (set_ne e) rfl rfl (by simp) (by simp)
    · rename_i d hp
      unfold At at hk
      rw [hp] at hk
      simp only [List.append_nil] at hk
      obtain ⟨h1, h2, h3, h4, h5, h6, h7, h8, h9⟩ := hk
      refine ⟨fun j => ?_, hok.snoc (e := .src k (home d)) ⟨h6, h9, _, h4, by rw [h3], by rw [h5, h3]⟩⟩
      by_cases e : j = k
      · subst e
        have hh : hops j [Ev.src j (home d)] = [] := rfl
        simp only [At, St.say, set_eq, hops_append, hh, List.append_nil]
        simp only [List.mem_append, List.mem_singleton, reduceCtorEq, or_false]
        exact ⟨h1, h2, h4, by rw [h5, h3], .inr (by rw [h3]), h7, h8⟩
      · exact (ha j).other (es := [.src k (home d)]) (set_ne e) rfl rfl rfl (by simp [about, Ne.symm e])
    · exact ⟨ha, hok⟩
  | ret k throws =>
    have hk := ha k
    simp only [step]
    split
    · rename_i hp
      unfold At at hk
      rw [hp] at hk
      simp only at hk
      obtain ⟨h1, h2, h3, h4, h5, h6, h7⟩ := hk
      have hsub : ∀ c, Ev.sub k c ∈ s.log → Ev.src k (home c) ∈ s.log := fun c hc => h1 c hc ▸ h5
      split
      · have hokt : AllOk (s.log ++ [.threw k]) := hok.snoc (e := .threw k) ⟨h6, _, h5⟩
        split
        · rename_i hm
          refine ⟨fun j => ?_, hokt.snoc (e := .out k) trivial⟩
          by_cases e : j = k
          · subst e
            have hh : hops j [Ev.threw j] = [] := rfl
            have hh' : hops j [Ev.out j] = [] := rfl
            simp only [At, St.say, set_eq, hops_append, hh, hh', List.append_nil, List.mem_append, List.mem_singleton, reduceCtorEq, or_false]
            exact ⟨h1, h2, fun c hc => .inr (hsub c hc), fun _ _ => .inr trivial, fun _ h => absurd hm h, fun h => absurd hm h, ⟨[], by simp [h4]⟩,
              fun _ => ⟨_, h3⟩⟩
          · exact (ha j).other (es := [.threw k, .out k]) (set_ne e) rfl rfl (by simp [St.say]) (by simp [about, Ne.symm e])
        · rename_i w hm
          split
          · rename_i hi
            split
            · rename_i hd
              have hdl := h2.1 hd
              refine ⟨fun j => ?_, hokt⟩
              by_cases e : j = k
              · subst e
                have hh : hops j [Ev.threw j] = [] := rfl
                simp only [At, St.say, set_eq, hops_append, hh, List.append_nil, List.mem_append, List.mem_singleton, reduceCtorEq, or_false]
                exact ⟨h1, h2, fun c hc => .inl hdl, by simp [hm], fun _ _ _ => .inr hdl, by simp [hi], ⟨[], by simp [h4]⟩, fun _ => ⟨_, h3⟩⟩
              · exact (ha j).other (es := [.threw k]) (set_ne e) rfl rfl rfl (by simp [about, Ne.symm e])
            · rename_i hd
              have hnd : Ev.dispose k ∉ s.log := fun hx => hd (h2.2 hx)
              refine ⟨fun j => ?_, hokt.snoc (e := .err k) ⟨by simp, by simp [h7], by simp [hnd]⟩⟩
              by_cases e : j = k
              · subst e
                have hh : hops j [Ev.threw j] = [] := rfl
                have hh' : hops j [Ev.err j] = [] := rfl
                simp only [At, St.say, set_eq, hops_append, hh, hh', List.append_nil, List.mem_append, List.mem_singleton, reduceCtorEq, or_false]
                exact ⟨h1, h2, fun c hc => .inr (hsub c hc), by simp [hm], fun _ _ _ => .inl (.inr trivial), by simp [hi], ⟨[], by simp [h4]⟩,
                  fun _ => ⟨_, h3⟩⟩
              · exact (ha j).other (es := [.threw k, .err k]) (set_ne e) rfl rfl (by simp [St.say]) (by simp [about, Ne.symm e])
          · rename_i hi
            refine ⟨fun j => ?_, hokt.snoc (e := .lost k) trivial⟩
            by_cases e : j = k
            · subst e
              have hh : hops j [Ev.threw j] = [] := rfl
              have hh' : hops j [Ev.lost j] = [] := rfl
              simp only [At, St.say, set_eq, hops_append, hh, hh', List.append_nil, List.mem_append, List.mem_singleton, reduceCtorEq, or_false]
              exact ⟨h1, h2, fun c hc => .inr (hsub c hc), by simp [hm], fun _ _ h => absurd h hi, fun _ _ => h7, ⟨[], by simp [h4]⟩,
                fun _ => ⟨_, h3⟩⟩
            · exact (ha j).other (es := [.threw k, .lost k]) (set_ne e) rfl rfl (by simp [St.say]) (by simp [about, Ne.symm e])
      · refine ⟨fun j => ?_, hok⟩
        by_cases e : j = k
        · subst e
          simp only [At, set_eq]
          exact ⟨h1, h2, fun c hc => .inr (hsub c hc), fun h => absurd h h6, fun h => absurd h h6, fun _ _ => h7, ⟨[], by simp [h4]⟩,
            fun h => absurd h h6⟩
        · exact (ha j).other (es := []) (set_ne e) rfl rfl (by simp) (by simp)
    · exact ⟨ha, hok⟩

theorem exec_inv (ls : List Lbl) : Inv (exec ls) := by
  refine Sched.snoc_ind (P := fun ls => Inv (exec ls)) inv0 ?_ ls
  intro ls l h
  simp only [exec, List.foldl_append, List.foldl_cons, List.foldl_nil]
  exact step_inv h l

/-- Two subscriptions through `subscribe_on(7) | map | subscribe_on(8)` as seen from the source; the second one is disposed on its way. -/
def demo : List Lbl :=
  [.sub 0 [.on 8, .lift, .on 7], .go 0, .sub 1 [.on 8, .lift, .on 7], .go 1, .take 1, .take 0, .go 0, .go 1, .go 1, .go 0, .dispose 1, .take 1,
    .take 0, .go 0, .ret 0 true]

theorem demo_log : (exec demo).log = [.sub 0 [.on 8, .lift, .on 7], .sub 1 [.on 8, .lift, .on 7], .hop 1 8, .hop 0 8, .dispose 1, .hop 0 7,
    .src 0 (some 7), .threw 0, .err 0] := by decide

/-- **C89** (once): the source is subscribed at most once per subscription. -/
theorem C89_once (ls : List Lbl) (pre post : List Ev) (k : Nat) (t : Option Nat) (h : (exec ls).log = pre ++ .src k t :: post) :
    ∀ t', .src k t' ∉ pre :=
  ((exec_inv ls).ok pre _ post h).1

/-- **C89** (where): it is subscribed on the worker of the `subscribe_on` nearest to it, on the subscriber's thread if there is none,
after having passed all the workers of the chain in order. -/
theorem C89_where (ls : List Lbl) (pre post : List Ev) (k : Nat) (t : Option Nat) (c : List Link)
    (h : (exec ls).log = pre ++ .src k t :: post) (hc : .sub k c ∈ (exec ls).log) : t = (workers c).getLast? ∧ hops k pre = workers c := by
  obtain ⟨_, _, c', h1, h2, h3⟩ := (exec_inv ls).ok pre _ post h
  have e : c = c' := by
    have := (exec_inv ls).at_ k
    rw [← this.1 c hc, ← this.1 c' (by rw [h]; simp [h1])]
  subst e
  exact ⟨h2, h3⟩

/-- **C89** (disposed): it is not subscribed, and the subscription goes to no other worker, once the subscriber has been disposed at a
check (by `subscribe` or by a worker taking it up). -/
theorem C89_disposed (ls : List Lbl) (pre post : List Ev) (k : Nat) :
    (∀ t, (exec ls).log = pre ++ .src k t :: post → Checked k pre) ∧
    (∀ w, (exec ls).log = pre ++ .hop k w :: post → .dispose k ∉ pre) ∧
    (∀ c, (exec ls).log = pre ++ .sub k c :: post → .dispose k ∉ pre) :=
  ⟨fun _ h => ((exec_inv ls).ok pre _ post h).2.1, fun _ h => ((exec_inv ls).ok pre _ post h).1, fun _ h => ((exec_inv ls).ok pre _ post h).1⟩

/-- **C89** (in the end): when there is nothing left to do, the source has been subscribed, unless the subscriber was disposed. -/
theorem C89_in_the_end (ls : List Lbl) (k : Nat) (c : List Link) (hs : Settled (exec ls) k) (hc : .sub k c ∈ (exec ls).log)
    (hd : .dispose k ∉ (exec ls).log) : .src k (home c) ∈ (exec ls).log := by
  have := ((exec_inv ls).at_ k).2.2
  rw [hs] at this
  exact (this.1 c hc).resolve_left hd

example : Settled (exec demo) 0 ∧ .sub 0 [.on 8, .lift, .on 7] ∈ (exec demo).log ∧ .dispose 0 ∉ (exec demo).log := by
  unfold Settled; decide

/-- **C89** (errors, in part): an exception of the source's `subscribe` goes to the subscriber's `on_error` if the source is directly below
a `subscribe_on`, and out of `subscribe` if there is no `subscribe_on`; the subscriber gets it at most once.  Missing: a `subscribe_on`
with other operators between it and the source (`C89_lost_refutes`). -/
theorem C89_error_partial (ls : List Lbl) (k : Nat) (c : List Link) (hs : Settled (exec ls) k) (hc : .sub k c ∈ (exec ls).log)
    (ht : .threw k ∈ (exec ls).log) :
    (workers c = [] → .out k ∈ (exec ls).log) ∧
    (∀ c' w, c = c' ++ [.on w] → .err k ∈ (exec ls).log ∨ .dispose k ∈ (exec ls).log) ∧
    (∀ pre post, (exec ls).log = pre ++ .err k :: post → .err k ∉ pre ∧ .dispose k ∉ pre ∧ .threw k ∈ pre) := by
  have hk := (exec_inv ls).at_ k
  have hch := hk.1 c hc
  have := hk.2.2
  rw [hs] at this
  obtain ⟨_, h1, h2, _⟩ := this
  rw [hch] at h1 h2
  refine ⟨fun hw => h1 ht (by simp [home, hw]), ?_, ?_⟩
  · rintro c' w rfl
    exact h2 ht (by simp [home_snoc_on]) (by simp [intact])
  · intro pre post h
    obtain ⟨a, b, c⟩ := (exec_inv ls).ok pre _ post h
    exact ⟨b, c, a⟩

example : Settled (exec demo) 0 ∧ .threw 0 ∈ (exec demo).log := by unfold Settled; decide

/-- With an operator between `subscribe_on` and the source an exception of the source's `subscribe` never reaches the subscriber, nor
anybody else. -/
theorem C89_never_told (ls : List Lbl) (k : Nat) (c : List Link) (hc : .sub k (c ++ [.lift]) ∈ (exec ls).log) (hw : workers c ≠ []) :
    .err k ∉ (exec ls).log := by
  have hk := (exec_inv ls).at_ k
  have hch := hk.1 _ hc
  have hh : home (c ++ [.lift]) ≠ none := by
    have : workers (c ++ [.lift]) = workers c := by rw [workers_append]; simp [workers]
    simp only [home, this, ne_eq, List.getLast?_eq_none_iff]
    exact hw
  have hi : intact (c ++ [.lift]) = false := by simp [intact]
  have := hk.2.2
  split at this
  · exact absurd hc (this.1 _)
  · exact this.2.2.2.2.2
  · exact this.2.2.2.2.2.1
  · exact this.2.2.2.2
  · rw [hch] at this
    exact this.2.2.2.1 hh hi

/-- `create(…throws…) | map(…) | subscribe_on(w)`: the exception is lost. -/
theorem C89_lost_refutes : ∃ ls k, Settled (exec ls) k ∧ .threw k ∈ (exec ls).log ∧ .dispose k ∉ (exec ls).log ∧
    .err k ∉ (exec ls).log ∧ .out k ∉ (exec ls).log :=
  ⟨[.sub 0 [.on 0, .lift], .go 0, .take 0, .go 0, .go 0, .ret 0 true], 0, by unfold Settled; decide⟩

end Rpp.SubOn
