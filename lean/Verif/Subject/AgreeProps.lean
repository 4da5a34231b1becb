import Verif.Subject.AgreeProofs
import Verif.Subject.ConcurrentProps

/-! # C107: all observers of a subject see the same order -/

namespace Rpp.Subj.Conc
open Rpp.Subj

variable {α ε σ : Type} [DecidableEq α] [DecidableEq ε]

/-! ## Specification vocabulary -/

/-- Event `x` comes before event `y`. -/
def Before (log : List (Ev α ε)) (x y : Ev α ε) : Prop := ∃ a b c, log = a ++ x :: b ++ y :: c

/-- The emissions observer `k` has been told, in the order in which it was told (not the values that its own
subscription repeated to it). -/
def heard (k : Nat) (log : List (Ev α ε)) : List Nat :=
  log.filterMap fun | .beg i m (.next _) => if m = k ∧ i ≠ k then some i else none | _ => none

/-- All values observer `k` has been told, in order. -/
def told (k : Nat) (log : List (Ev α ε)) : List α :=
  log.filterMap fun | .beg _ m (.next v) => if m = k then some v else none | _ => none

/-! ## Helpers -/

/-- What makes a call an emission comes before its callbacks. -/
theorem Emission.back {C : Cfg α σ} {ls : List (Lbl α ε)} {i : Nat} {pre post : List (Ev α ε)} {ev : Ev α ε}
    (hi : Emission (exec C ls).log i) (hlog : (exec C ls).log = pre ++ ev :: post) (hev : ev.call = some i)
    (h1 : ∀ v, ev ≠ .emit i v) (h2 : ∀ t, ev ≠ .finish i t) : Emission pre i := by
  have h := inv C ls
  rcases hi with ⟨v, hv⟩ | ⟨t, ht⟩
  · rw [hlog, List.mem_append, List.mem_cons] at hv
    rcases hv with hv | hv | hv
    · exact Or.inl ⟨v, hv⟩
    · exact absurd hv.symm (h1 v)
    · obtain ⟨x, y, rfl⟩ := List.append_of_mem hv
      exact absurd hev (h.legal (pre ++ ev :: x) (.emit i v) y (by simp [hlog]) ev (by simp))
  · rw [hlog, List.mem_append, List.mem_cons] at ht
    rcases ht with hv | hv | hv
    · exact Or.inr ⟨t, hv⟩
    · exact absurd hv.symm (h2 t)
    · obtain ⟨x, y, rfl⟩ := List.append_of_mem hv
      exact absurd hev (h.legal (pre ++ ev :: x) (.finish i t) y (by simp [hlog]) ev (by simp))

/-- An emission makes no callback to an observer subscribed by itself. -/
theorem emission_ne {C : Cfg α σ} (hC : C.serialized = true) (ls : List (Lbl α ε)) {i k : Nat} {c : Sig α ε}
    (hi : Emission (exec C ls).log i) (hb : .beg i k c ∈ (exec C ls).log) : i ≠ k := by
  intro e
  obtain ⟨a, b, he⟩ := List.append_of_mem hb
  exact ((tinv hC ls).legal _ _ _ he).1 e (hi.back he rfl (by simp) (by simp))

theorem before_total {log : List (Ev α ε)} {x y : Ev α ε} (hx : x ∈ log) (hy : y ∈ log) (hne : x ≠ y) :
    Before log x y ∨ Before log y x := by
  obtain ⟨a, b, rfl⟩ := List.append_of_mem hx
  rw [List.mem_append, List.mem_cons] at hy
  rcases hy with hy | hy | hy
  · obtain ⟨c, d, rfl⟩ := List.append_of_mem hy
    exact Or.inr ⟨c, d, b, by simp⟩
  · exact absurd hy.symm hne
  · obtain ⟨c, d, rfl⟩ := List.append_of_mem hy
    exact Or.inl ⟨a, c, d, by simp⟩

/-- Between two callbacks of one emission there is none of another. -/
theorem not_between {C : Cfg α σ} (hC : C.serialized = true) (ls : List (Lbl α ε)) {i j k m n : Nat} {c d e : Sig α ε}
    (hi : Emission (exec C ls).log i) (hj : Emission (exec C ls).log j) (hij : i ≠ j)
    (x y z w : List (Ev α ε)) :
    (exec C ls).log ≠ x ++ .beg i k c :: y ++ .beg j m d :: z ++ .beg i n e :: w := by
  intro h
  have h1 := (tinv hC ls).legal (x ++ .beg i k c :: y ++ .beg j m d :: z) (.beg i n e) w (by simp [h])
  have h2 := h1.2 (emission_ne hC ls hi (c := e) (by rw [h]; simp)) x k c (y ++ .beg j m d :: z) (by simp)
  exact h2 j m d hij.symm (emission_ne hC ls hj (c := d) (by rw [h]; simp)) (by simp)

theorem Before.snoc {log : List (Ev α ε)} {x y : Ev α ε} (h : Before log x y) (ev : Ev α ε) : Before (log ++ [ev]) x y := by
  obtain ⟨a, b, c, rfl⟩ := h
  exact ⟨a, b, c ++ [ev], by simp⟩

theorem heard_snoc (k : Nat) (log : List (Ev α ε)) (ev : Ev α ε) :
    heard k (log ++ [ev]) = heard k log ++ (match ev with
      | .beg i m (.next _) => if m = k ∧ i ≠ k then [i] else [] | _ => []) := by
  simp only [heard, List.filterMap_append]
  cases ev with
  | beg j m c =>
    cases c with
    | next v => by_cases h : m = k ∧ j ≠ k <;> simp [h]
    | term t => rfl
  | _ => rfl

/-- Emission `i` made a callback before emission `j` did. Used in the proofs; models no code. -/
def Earlier (log : List (Ev α ε)) (i j : Nat) : Prop :=
  ∃ k v m w, j ≠ m ∧ Before log (.beg i k (.next v)) (.beg j m (.next w))

/-- The emissions in the order of their first callback. -/
theorem one_order (S : Store α σ) (log : List (Ev α ε)) (h1 : Legal S log) (h2 : Legal3 log) :
    ∃ order : List Nat, order.Nodup ∧ (∀ k, (heard k log).Sublist order) ∧
      (∀ i ∈ order, ∃ k v, .beg i k (.next v) ∈ log) ∧ order.Pairwise (Earlier log) := by
  induction log using snoc_induction with
  | h0 => exact ⟨[], by simp, by simp [heard], by simp, by simp⟩
  | h1 log ev ih =>
    obtain ⟨order, hn, hh, hm, hp⟩ := ih (fun pre e post he => h1 pre e (post ++ [ev]) (by simp [he]))
      (fun pre e post he => h2 pre e (post ++ [ev]) (by simp [he]))
    have hp' : order.Pairwise (Earlier (log ++ [ev])) := hp.imp fun ⟨k, v, m, w, h, h'⟩ => ⟨k, v, m, w, h, h'.snoc ev⟩
    have hm' : ∀ i ∈ order, ∃ k v, .beg i k (.next v) ∈ log ++ [ev] := by
      intro i hi; obtain ⟨k, v, h⟩ := hm i hi; exact ⟨k, v, by simp [h]⟩
    have same : (∀ k, heard k (log ++ [ev]) = heard k log) → ∃ order : List Nat, order.Nodup ∧
        (∀ k, (heard k (log ++ [ev])).Sublist order) ∧ (∀ i ∈ order, ∃ k v, .beg i k (.next v) ∈ log ++ [ev]) ∧
        order.Pairwise (Earlier (log ++ [ev])) := fun h => ⟨order, hn, fun k => by rw [h k]; exact hh k, hm', hp'⟩
    match ev, h1 log ev [] (by simp), h2 log ev [] (by simp), same, hp', hm' with
    | .beg i k (.next v), ho, ho3, same, hp', hm' =>
      by_cases hik : i = k
      · refine same fun m => ?_
        rw [heard_snoc]; dsimp only
        rw [if_neg (by rintro ⟨rfl, h⟩; exact h hik), List.append_nil]
      · have hal : Alone log i := ho3.2 hik
        have hnew : ∀ c, Ev.beg i k c ∉ log := by
          rcases ho.2 with h | ⟨l, _, _, h⟩
          · exact absurd h.1 hik
          · exact h
        have hk : i ∉ heard k log := by
          intro h
          simp only [heard, List.mem_filterMap] at h
          obtain ⟨e, he, h⟩ := h
          split at h
          · split at h
            · next hc => cases h; rw [← hc.1] at hnew; exact hnew _ he
            · cases h
          · cases h
        have hother : ∀ m, m ≠ k → heard m (log ++ [.beg i k (.next v)]) = heard m log := by
          intro m hmk
          rw [heard_snoc]; dsimp only
          rw [if_neg (by rintro ⟨rfl, _⟩; exact hmk rfl), List.append_nil]
        have hself : heard k (log ++ [.beg i k (.next v)]) = heard k log ++ [i] := by
          rw [heard_snoc]; dsimp only
          rw [if_pos ⟨rfl, hik⟩]
        by_cases hi : i ∈ order
        · -- then it is the last one
          obtain ⟨o1, o2, rfl⟩ := List.append_of_mem hi
          have : o2 = [] := by
            rcases o2 with _ | ⟨j, o2⟩
            · rfl
            · exfalso
              have h := (List.pairwise_append.1 hp).2.1
              obtain ⟨k', v', m, w, h3, a, b, c, h4⟩ := (List.pairwise_cons.1 h).1 j (by simp)
              have hji : j ≠ i := by
                have := (List.nodup_append.1 hn).2.1
                rw [List.nodup_cons] at this
                intro e; exact this.1 (by simp [e])
              exact hal a k' (.next v') (b ++ .beg j m (.next w) :: c) (by simp [h4]) j m (.next w) hji h3 (by simp)
          subst this
          refine ⟨o1 ++ [i], hn, fun m => ?_, hm', hp'⟩
          by_cases hmk : m = k
          · subst hmk
            rw [hself]
            refine List.Sublist.append_right ?_ [i]
            obtain ⟨x, y, h3, h4, h5⟩ := List.sublist_append_iff.1 (hh m)
            have : y = [] := by
              rcases y with _ | ⟨j, y⟩
              · rfl
              · have := h5.subset (a := j) (by simp)
                simp at this; subst this
                exact absurd (by rw [h3]; simp) hk
            rw [h3, this, List.append_nil]; exact h4
          · rw [hother m hmk]; exact hh m
        · refine ⟨order ++ [i], ?_, fun m => ?_, ?_, ?_⟩
          · exact List.nodup_append.2 ⟨hn, by simp, by rintro a ha b hb rfl; simp at hb; subst hb; exact hi ha⟩
          · by_cases hmk : m = k
            · subst hmk; rw [hself]; exact (hh m).append_right [i]
            · rw [hother m hmk]; exact (hh m).trans (List.sublist_append_left ..)
          · intro j hj
            rcases List.mem_append.1 hj with hj | hj
            · exact hm' j hj
            · simp at hj; subst hj; exact ⟨k, v, by simp⟩
          · refine List.pairwise_append.2 ⟨hp', by simp, ?_⟩
            intro j hj x hx
            simp at hx; subst hx
            obtain ⟨k', v', h⟩ := hm j hj
            obtain ⟨a, b, rfl⟩ := List.append_of_mem h
            exact ⟨k', v', k, v, hik, a, b, [], by simp⟩
    | .beg i k (.term t), _, _, same, _, _ => exact same fun m => by rw [heard_snoc]; simp
    | .emit .., _, _, same, _, _ => exact same fun m => by rw [heard_snoc]; simp
    | .finish .., _, _, same, _, _ => exact same fun m => by rw [heard_snoc]; simp
    | .stored .., _, _, same, _, _ => exact same fun m => by rw [heard_snoc]; simp
    | .snap .., _, _, same, _, _ => exact same fun m => by rw [heard_snoc]; simp
    | .read .., _, _, same, _, _ => exact same fun m => by rw [heard_snoc]; simp
    | .reg .., _, _, same, _, _ => exact same fun m => by rw [heard_snoc]; simp
    | .ub .., _, _, same, _, _ => exact same fun m => by rw [heard_snoc]; simp
    | .fin .., _, _, same, _, _ => exact same fun m => by rw [heard_snoc]; simp
    | .gone .., _, _, same, _, _ => exact same fun m => by rw [heard_snoc]; simp
    | .done .., _, _, same, _, _ => exact same fun m => by rw [heard_snoc]; simp

/-! ## The theorems -/

/-- C107: two emissions of a serialized subject: if one of them made a callback before a callback of the other, then all
of its callbacks come before all of the other's. -/
theorem C107_blocks (C : Cfg α σ) (hC : C.serialized = true) (ls : List (Lbl α ε)) (i j : Nat)
    (hi : Emission (exec C ls).log i) (hj : Emission (exec C ls).log j) (hij : i ≠ j) (k m : Nat) (c d : Sig α ε)
    (h : Before (exec C ls).log (.beg i k c) (.beg j m d)) (k' m' : Nat) (c' d' : Sig α ε)
    (h1 : .beg i k' c' ∈ (exec C ls).log) (h2 : .beg j m' d' ∈ (exec C ls).log) :
    Before (exec C ls).log (.beg i k' c') (.beg j m' d') := by
  rcases before_total h1 h2 (by simp [hij]) with h3 | ⟨x, y, z, h3⟩
  · exact h3
  · exfalso
    obtain ⟨a, b, e, h⟩ := h
    have h4 : a ++ .beg i k c :: (b ++ .beg j m d :: e) = x ++ .beg j m' d' :: (y ++ .beg i k' c' :: z) := by
      rw [← List.cons_append, ← List.append_assoc, ← h, h3]; simp
    rcases List.append_eq_append_iff.1 h4 with ⟨t, h5, h6⟩ | ⟨t, h5, h6⟩
    · rcases List.cons_eq_append_iff.1 h6 with ⟨_, h7⟩ | ⟨t', rfl, h7⟩
      · have := (List.cons.inj h7).1; simp only [Ev.beg.injEq] at this; exact hij this.1.symm
      · exact not_between hC ls hi hj hij a t' y z (by rw [h3, h5])
    · rcases List.cons_eq_append_iff.1 h6 with ⟨_, h7⟩ | ⟨t', rfl, h7⟩
      · have := (List.cons.inj h7).1; simp only [Ev.beg.injEq] at this; exact hij this.1
      · exact not_between hC ls hj hi (Ne.symm hij) x t' b e (by rw [h, h5])

/-- C107: any two observers of a serialized subject that are both told two emissions are told them in the same order.
Missing for the full C107: unserialized subjects (`C107_nested_refutes`) and the values that a behavior or replay
subject repeats to a new observer (`C107_replay_refutes`, `C107_behavior_refutes`). -/
theorem C107_same_order_partial (C : Cfg α σ) (hC : C.serialized = true) (ls : List (Lbl α ε)) (i j : Nat)
    (hi : Emission (exec C ls).log i) (hj : Emission (exec C ls).log j) (hij : i ≠ j) (k m : Nat) (c d c' d' : Sig α ε)
    (h : Before (exec C ls).log (.beg i k c) (.beg j k d))
    (h1 : .beg i m c' ∈ (exec C ls).log) (h2 : .beg j m d' ∈ (exec C ls).log) :
    Before (exec C ls).log (.beg i m c') (.beg j m d') :=
  C107_blocks C hC ls i j hi hj hij k k c d h m m c' d' h1 h2

/-- The same as one list: there is an order of the emissions that contains what every observer was told as a sublist. -/
theorem C107_one_order_partial (C : Cfg α σ) (hC : C.serialized = true) (ls : List (Lbl α ε)) :
    ∃ order : List Nat, order.Nodup ∧ ∀ k, (heard k (exec C ls).log).Sublist order :=
  have ⟨order, h1, h2, _⟩ := one_order C.store _ (inv C ls).legal (tinv hC ls).legal
  ⟨order, h1, h2⟩

/-- C107: serialized or not, an `on_next` that has returned when another emission begins comes first for everybody. -/
theorem C107_sequential (C : Cfg α σ) (ls : List (Lbl α ε)) (i j : Nat) (a b : List (Ev α ε))
    (hlog : (exec C ls).log = a ++ .done i :: b) (hj : Emission b j) (k m : Nat) (c d : Sig α ε)
    (h1 : .beg i k c ∈ (exec C ls).log) (h2 : .beg j m d ∈ (exec C ls).log) :
    .beg i k c ∈ a ∧ .beg j m d ∈ b := by
  have h3 := (dinv C ls).legal a i b hlog k c
  have h4 : Ev.beg j m d ∉ a := by
    intro hm
    rcases hj with ⟨v, hv⟩ | ⟨t, hv⟩
    · obtain ⟨x, y, rfl⟩ := List.append_of_mem hv
      exact (inv C ls).legal (a ++ .done i :: x) (.emit j v) y (by simp [hlog]) (.beg j m d) (by simp [hm]) rfl
    · obtain ⟨x, y, rfl⟩ := List.append_of_mem hv
      exact (inv C ls).legal (a ++ .done i :: x) (.finish j t) y (by simp [hlog]) (.beg j m d) (by simp [hm]) rfl
  rw [hlog] at h1 h2
  simp only [List.mem_append, List.mem_cons, reduceCtorEq, false_or] at h1 h2
  exact ⟨h1.resolve_right h3, h2.resolve_left h4⟩

/-- Non-vacuity: two threads emit to a serialized subject with two observers; the second one was first at the mutex. -/
example : (exec (ε := Unit) (pub true) ([.sub 1] ++ runs 1 3 ++ [.sub 2] ++ runs 2 3 ++
      [.next 10 7, .next 11 8] ++ runs 11 4 ++ runs 10 4 ++ [.ret 11 .ok] ++ runs 11 1 ++ runs 10 1 ++ [.ret 11 .ok] ++
      runs 11 1 ++ runs 10 2 ++ [.ret 10 .ok] ++ runs 10 1)).log =
    [.read 1 false 0 [], .reg 1, .read 2 false 0 [], .reg 2, .emit 10 7, .emit 11 8, .stored 11 8 0, .snap 11 8 [1, 2],
     .beg 11 1 (.next 8), .stored 10 7 0, .snap 10 7 [1, 2], .fin 11 1, .beg 11 2 (.next 8), .fin 11 2, .done 11,
     .beg 10 1 (.next 7), .fin 10 1, .beg 10 2 (.next 7)] := by decide

/-- C107, where it fails: an observer of a publish subject emits from its callback. The others are told the inner value
first (subject_state.hpp 129-130, `none_mutex`). -/
theorem C107_nested_refutes : ∃ ls : List (Lbl Nat Unit),
    told 1 (exec (pub false) ls).log = [7, 8] ∧ told 2 (exec (pub false) ls).log = [8, 7] :=
  ⟨[.sub 1] ++ runs 1 3 ++ [.sub 2] ++ runs 2 3 ++ [.next 10 7] ++ runs 10 4 ++
      [.next 11 8] ++ runs 11 4 ++ [.ret 11 .ok] ++ runs 11 1 ++ [.ret 11 .ok] ++ runs 11 1 ++ [.ret 10 .ok] ++ runs 10 1,
    by decide, by decide⟩

/-- C107, where it fails: a serialized replay subject stores a value before it takes the mutex (replay_subject.hpp
97-98), so that what it repeats to a new observer can be ordered otherwise than what the others were told. -/
theorem C107_replay_refutes : ∃ ls : List (Lbl Nat Unit),
    told 1 (exec ⟨true, replay none none⟩ ls).log = [8, 7] ∧ told 2 (exec ⟨true, replay none none⟩ ls).log = [7, 8] :=
  ⟨[.sub 1] ++ runs 1 3 ++ [.next 10 7] ++ runs 10 1 ++ [.next 11 8] ++ runs 11 4 ++ [.ret 11 .ok] ++ runs 11 1 ++
      runs 10 3 ++ [.ret 10 .ok] ++ runs 10 1 ++ [.sub 2] ++ runs 2 2 ++ [.ret 2 .ok] ++ runs 2 1 ++ [.ret 2 .ok] ++
      runs 2 2, by decide, by decide⟩

/-- C107, where it fails: a serialized behavior subject writes its value before it takes the mutex (behavior_subject.hpp
57-58). All emissions have returned; the observer was told 7 last, but the subject holds 8 and says so to whoever comes
next. -/
theorem C107_behavior_refutes : ∃ ls : List (Lbl Nat Unit),
    told 1 (exec ⟨true, behavior 0⟩ ls).log = [0, 8, 7] ∧ told 2 (exec ⟨true, behavior 0⟩ ls).log = [8] ∧
    (exec ⟨true, behavior 0⟩ ls).calls 10 = .done ∧ (exec ⟨true, behavior 0⟩ ls).calls 11 = .done :=
  ⟨[.sub 1] ++ runs 1 2 ++ [.ret 1 .ok] ++ runs 1 2 ++ [.next 10 7] ++ runs 10 1 ++ [.next 11 8] ++ runs 11 4 ++
      [.ret 11 .ok] ++ runs 11 1 ++ runs 10 3 ++ [.ret 10 .ok] ++ runs 10 1 ++ [.sub 2] ++ runs 2 2 ++ [.ret 2 .ok] ++
      runs 2 2, by decide, by decide, by decide, by decide⟩

end Rpp.Subj.Conc
