import Verif.Net.Props
import Verif.LetGo.Proofs

/-!
# C104: observables one after the other

`concat` as a source, `start_with`, `repeat`, `retry` and `on_error_resume_next`, whose observables are expressions of `Verif.Net.Tree`, at
every moment of every execution with any number of threads.  That they can be used in expressions of any form is part of C102.
-/

namespace Rpp.Net

open Comb (Sig)

variable {α ε : Type}

/-- The end is an error; a test on the notification. -/
def isErr : Term ε → Bool
  | .error _ => true
  | .completed => false

/-- `source::concat(k₀, …, kₙ)` (sources/concat.hpp 60-114); `kₙ | start_with(k₀, …)` is the same (operators/start_with.hpp 20-59), and so is
`q | repeat(n + 1)` with `kᵢ = q` (operators/repeat.hpp 22-31).  Not modelled: `concat` of an empty container and `repeat(0)`, which complete at once. -/
def concatOf (eq : DecidableEq ε) (ks : Nat → Net ε α) (n : Nat) : Net ε α :=
  .follow eq (fun i => ks i.length) (fun i t => !isErr t && decide (i.length < n)) .nil

/-- `q | repeat()` (operators/repeat.hpp 33-40). -/
def repeatOf (eq : DecidableEq ε) (q : Net ε α) : Net ε α := .follow eq (fun _ => q) (fun _ t => !isErr t) .nil

/-- `q | retry(n)`: `n` is one more in the state and is counted down at each subscription (operators/retry.hpp 58-73, 94-95, 129). -/
def retryOf (eq : DecidableEq ε) (q : Net ε α) (n : Nat) : Net ε α :=
  .follow eq (fun _ => q) (fun i t => isErr t && decide (i.length < n)) .nil

/-- `q | retry()` (operators/retry.hpp 58-73, 94). -/
def retryForever (eq : DecidableEq ε) (q : Net ε α) : Net ε α := .follow eq (fun _ => q) (fun _ t => isErr t) .nil

/-- The observables of `resumeOf`: `q`, and `f e` after the error `e` (operators/on_error_resume_next.hpp 69-79). -/
def resumeOps (q : Net ε α) (f : ε → Net ε α) : List (Term ε) → Net ε α
  | [.error e] => f e
  | _ => q

/-- `q | on_error_resume_next(f)`, for an `f` that does not throw (operators/on_error_resume_next.hpp 63-84) and a `q` that makes no call after an error:
the observer of the operator would pass it on, see `Verif.LetGo`. -/
def resumeOf (eq : DecidableEq ε) (q : Net ε α) (f : ε → Net ε α) : Net ε α :=
  .follow eq (resumeOps q f) (fun i t => i.isEmpty && isErr t) .nil

/-! ## Specification -/

/-- The observable makes no call after an error, so that on_error_resume_next behind it is modelled faithfully: a source with a pipeline that
fails only when its source ends (`LetGo.Quiet`), or such observables one after the other.  Not silent: the combining operators, whose
other operands go on; pipelines that throw.  Part of the specification; models no code. -/
def Net.Silent : {γ : Type} → Net ε γ → Prop
  | _, .src p => LetGo.Quiet p
  | _, .join _ _ _ => False
  | _, .flat _ _ _ _ => False
  | _, .follow _ ks _ p => (∀ i, (ks i).Silent) ∧ LetGo.Quiet p

/-- The values `vs` and then the sequence `t`; models no code. -/
def Trace.after (vs : List α) (t : Trace α ε) : Trace α ε := ⟨vs ++ t.vals, t.fin⟩

/-- `o 0`, and after its completion `o 1`, …, up to `o n`.  Specification; models no code. -/
def concatSpec : Nat → (Nat → Trace α ε) → Trace α ε
  | 0, o => o 0
  | n + 1, o =>
    match (o 0).fin with
    | some .completed => Trace.after (o 0).vals (concatSpec n fun k => o (k + 1))
    | _ => o 0

/-- `o 0`, and after its failure `o 1`, …, up to `o n`.  Specification; models no code. -/
def retrySpec : Nat → (Nat → Trace α ε) → Trace α ε
  | 0, o => o 0
  | n + 1, o =>
    match (o 0).fin with
    | some (.error _) => Trace.after (o 0).vals (retrySpec n fun k => o (k + 1))
    | _ => o 0

/-! ## Proofs -/

theorem flatMap_same {I : Type} {f g : I → List α} {l : List I} (h : ∀ x ∈ l, f x = g x) : l.flatMap f = l.flatMap g := by
  induction l with
  | nil => rfl
  | cons x l ih =>
    rw [List.flatMap_cons, List.flatMap_cons, h x List.mem_cons_self, ih fun y hy => h y (List.mem_cons_of_mem _ hy)]

theorem before_all {says : List (Term ε) → Trace α ε} {sw : List (Term ε) → Term ε → Bool} {i vs} (h : Before (fun i o => o = says i) sw i vs) :
    (∀ (k : Nat) t, i[k]? = some t → (says (i.take k)).fin = some t ∧ sw (i.take k) t = true) ∧
    vs = (List.range i.length).flatMap fun k => (says (i.take k)).vals := by
  induction h with
  | first => exact ⟨fun k t h => by simp at h, rfl⟩
  | @next i vs t o h1 h2 h3 h4 ih =>
    subst h2
    obtain ⟨g1, g2⟩ := ih
    have hk : ∀ k, k < i.length → (i ++ [t]).take k = i.take k := fun k hk => List.take_append_of_le_length (Nat.le_of_lt hk)
    have hi : (i ++ [t]).take i.length = i := by simp
    refine ⟨fun k u hu => ?_, ?_⟩
    · rw [List.getElem?_append] at hu
      split at hu
      · next hl => rw [hk k hl]; exact g1 k u hu
      · next hl =>
        rw [List.getElem?_singleton] at hu
        split at hu
        · have : k = i.length := by omega
          subst this
          cases hu
          rw [hi]; exact ⟨h3, h4⟩
        · cases hu
    · rw [List.length_append, List.length_singleton, List.range_succ, List.flatMap_append, List.flatMap_singleton, hi, g2]
      congr 1
      exact flatMap_same fun k hk' => by rw [hk k (List.mem_range.1 hk')]

theorem follow_lazy {γ : Type} (eq : DecidableEq ε) (ks : List (Term ε) → Net ε α) (sw : List (Term ε) → Term ε → Bool) (p : Pipe ε α γ)
    (ls : List (Net.follow eq ks sw p).Lbl) :
    ∀ s : (Net.follow eq ks sw p).State, (∀ i, ¬ i <+: s.1.ends → s.2 i = (ks i).init) →
      ∀ i, ¬ i <+: (ls.foldl (Net.follow eq ks sw p).step s).1.ends → (ls.foldl (Net.follow eq ks sw p).step s).2 i = (ks i).init := by
  induction ls with
  | nil => exact fun _ h => h
  | cons l ls ih =>
    intro s h
    refine ih _ fun i hi => ?_
    cases l with
    | hear =>
      refine h i fun hp => hi (hp.trans ?_)
      show s.1.ends <+: (pushFollow sw s.1 ((ks s.1.ends).seq (s.2 s.1.ends))).ends
      unfold pushFollow
      split
      · next x _ =>
        cases x with
        | next v => exact List.prefix_refl _
        | term t =>
          unfold hear
          simp only
          split
          · exact List.prefix_append ..
          · exact List.prefix_refl _
      · exact List.prefix_refl _
    | drop => exact h i hi
    | inOne k l =>
      rcases inOne_cases eq ks sw p s k l with ⟨hk, e⟩ | ⟨-, e⟩
      · rw [e] at hi ⊢
        have hne : k ≠ i := fun hki => hi (hki ▸ hk)
        show setKid s.2 k ((ks k).step (s.2 k) l) i = _
        rw [setKid_ne _ _ _ _ hne]
        exact h i hi
      · rw [e] at hi ⊢
        exact h i hi

/-- C104: whatever the threads do, at every moment: the observables that were subscribed to are those after the ends so far, each of them because
the one before it has ended, with an end that leads to another one; the others are untouched; and the observer was told all values
of those that have ended, in this order, and then a beginning `g` of the present one, with its end only if that leads to no other one. -/
theorem C104_moment (eq : DecidableEq ε) (ks : List (Term ε) → Net ε α) (sw : List (Term ε) → Term ε → Bool)
    (ls : List (Net.follow eq ks sw .nil).Lbl) :
    let s := (Net.follow eq ks sw .nil).exec ls
    let says := fun i => (ks i).seq (s.2 i)
    let t := (Net.follow eq ks sw .nil).seq s
    (∀ (k : Nat) e, s.1.ends[k]? = some e → (says (s.1.ends.take k)).fin = some e ∧ sw (s.1.ends.take k) e = true) ∧
    (∀ i, ¬ i <+: s.1.ends → s.2 i = (ks i).init) ∧
    ∃ g : Trace α ε, notes g <+: notes (says s.1.ends) ∧ (∀ u, g.fin = some u → sw s.1.ends u = false) ∧
      t = Trace.after ((List.range s.1.ends.length).flatMap fun k => (says (s.1.ends.take k)).vals) g := by
  intro s says t
  have hg : Good (.follow eq ks sw .nil) s := good_exec _ ls
  obtain ⟨vs, g, h1, -, h3, h4, h5⟩ := folgood_seq hg.1
  obtain ⟨h6, h7⟩ := before_all h1
  refine ⟨h6, ?_, g, h3, h4, ?_⟩
  · exact follow_lazy eq ks sw .nil ls _ fun _ _ => rfl
  · subst h7
    exact h5

/-- C104: when nothing is left to do and nobody has disposed, all of the present observable was told, and if that has ended, so has the
result. -/
theorem C104_all (eq : DecidableEq ε) (ks : List (Term ε) → Net ε α) (sw : List (Term ε) → Term ε → Bool)
    (ls : List (Net.follow eq ks sw .nil).Lbl)
    (hr : (Net.follow eq ks sw .nil).Rest ((Net.follow eq ks sw .nil).exec ls))
    (hk : (Net.follow eq ks sw .nil).Kept ((Net.follow eq ks sw .nil).exec ls)) :
    let s := (Net.follow eq ks sw .nil).exec ls
    let says := fun i => (ks i).seq (s.2 i)
    let t := (Net.follow eq ks sw .nil).seq s
    (∀ u, (says s.1.ends).fin = some u → sw s.1.ends u = false) ∧
    t = Trace.after ((List.range s.1.ends.length).flatMap fun k => (says (s.1.ends.take k)).vals) (says s.1.ends) := by
  intro s says t
  have hg : Good (.follow eq ks sw .nil) s := good_exec _ ls
  obtain ⟨vs, g, h1, h2, h3, h4, h5⟩ := folgood_seq hg.1
  obtain ⟨-, h7⟩ := before_all h1
  have e : g = says s.1.ends := by
    refine notes_inj ?_
    cases hf : g.fin with
    | some u => exact notes_end h3 (f := u) (by simp [notes, hf])
    | none =>
      have ht : t.fin = none := by
        show (seqOf s.1.told).fin = none
        rw [h5]; exact hf
      rw [← h2]
      exact follow_all hg.1.pre (hk ht).1 hr.1
  subst e h7
  exact ⟨h4, h5⟩

theorem concat_of (n : Nat) : ∀ (m : Nat) (o : Nat → Trace α ε), m ≤ n → (∀ k < m, (o k).fin = some .completed) →
    ((o m).fin = some .completed → m = n) →
    concatSpec n o = Trace.after ((List.range m).flatMap fun k => (o k).vals) (o m) := by
  induction n with
  | zero =>
    intro m o hm _ _
    have : m = 0 := by omega
    subst this
    rfl
  | succ n ih =>
    intro m o hm hc hl
    cases m with
    | zero =>
      unfold concatSpec
      split
      · next h => exact absurd (hl h) (by omega)
      · rfl
    | succ m =>
      unfold concatSpec
      rw [hc 0 (Nat.succ_pos m)]
      simp only
      rw [ih m (fun k => o (k + 1)) (by omega) (fun k hk => hc (k + 1) (by omega)) (fun h => by have := hl h; omega)]
      rw [List.range_succ_eq_map, List.flatMap_cons, List.flatMap_map]
      simp only [Trace.after, List.append_assoc]

theorem retry_of (n : Nat) : ∀ (m : Nat) (o : Nat → Trace α ε), m ≤ n → (∀ k < m, ∃ e, (o k).fin = some (.error e)) →
    (∀ e, (o m).fin = some (.error e) → m = n) →
    retrySpec n o = Trace.after ((List.range m).flatMap fun k => (o k).vals) (o m) := by
  induction n with
  | zero =>
    intro m o hm _ _
    have : m = 0 := by omega
    subst this
    rfl
  | succ n ih =>
    intro m o hm hc hl
    cases m with
    | zero =>
      unfold retrySpec
      split
      · next h => exact absurd (hl _ h) (by omega)
      · rfl
    | succ m =>
      unfold retrySpec
      obtain ⟨e, he⟩ := hc 0 (Nat.succ_pos m)
      rw [he]
      simp only
      rw [ih m (fun k => o (k + 1)) (by omega) (fun k hk => hc (k + 1) (by omega)) (fun e h => by have := hl e h; omega)]
      rw [List.range_succ_eq_map, List.flatMap_cons, List.flatMap_map]
      simp only [Trace.after, List.append_assoc]

theorem not_err {t : Term ε} (h : isErr t = false) : t = .completed := by cases t <;> first | rfl | cases h

theorem is_err {t : Term ε} (h : isErr t = true) : ∃ e, t = .error e := by cases t <;> first | exact ⟨_, rfl⟩ | cases h

/-- All these ends are completions. -/
theorem ends_completed {says : List (Term ε) → Trace α ε} {sw : List (Term ε) → Term ε → Bool} {i : List (Term ε)}
    (h : ∀ (k : Nat) e, i[k]? = some e → (says (i.take k)).fin = some e ∧ sw (i.take k) e = true) (hs : ∀ j e, sw j e = true → isErr e = false) :
    i = List.replicate i.length .completed := by
  refine List.eq_replicate_iff.2 ⟨rfl, fun e he => ?_⟩
  obtain ⟨k, hk⟩ := List.mem_iff_getElem?.1 he
  exact not_err (hs _ _ (h k e hk).2)

theorem bound_of {says : List (Term ε) → Trace α ε} {sw : List (Term ε) → Term ε → Bool} {i : List (Term ε)} {n : Nat}
    (h : ∀ (k : Nat) e, i[k]? = some e → (says (i.take k)).fin = some e ∧ sw (i.take k) e = true) (hs : ∀ j e, sw j e = true → j.length < n) :
    i.length ≤ n := by
  cases hi : i.length with
  | zero => omega
  | succ m =>
    have := hs _ _ (h m _ (List.getElem?_eq_getElem (by omega))).2
    rw [List.length_take] at this
    omega

theorem errs_of {i : List (Term ε)} (h : ∀ t ∈ i, isErr t = true) : ∃ es : List ε, i = es.map .error := by
  induction i with
  | nil => exact ⟨[], rfl⟩
  | cons t i ih =>
    obtain ⟨es, rfl⟩ := ih fun u hu => h u (List.mem_cons_of_mem _ hu)
    obtain ⟨e, rfl⟩ := is_err (h t List.mem_cons_self)
    exact ⟨e :: es, rfl⟩

/-- What observable `kₖ` of a `concat` has notified: it is the one that is subscribed to after `k` completions.  Reads the state, models no code. -/
def concatSays (eq : DecidableEq ε) (ks : Nat → Net ε α) (n : Nat) (s : (concatOf eq ks n).State) (k : Nat) : Trace α ε :=
  (ks (List.replicate k (.completed : Term ε)).length).seq (s.2 (List.replicate k (.completed : Term ε)))

/-- Observable `kₖ` of a `concat` was not touched; reads the state, models no code. -/
def concatFresh (eq : DecidableEq ε) (ks : Nat → Net ε α) (n : Nat) (s : (concatOf eq ks n).State) (k : Nat) : Prop :=
  s.2 (List.replicate k (.completed : Term ε)) = (ks (List.replicate k (.completed : Term ε)).length).init

/-- C104: `concat(k₀, …, kₙ)` (and `start_with`, and `repeat(n + 1)`): at every moment, for some `m`, the observables before `kₘ` have completed and
the ones after it were not touched; the observer was told all values of those before, in this order, and a beginning of `kₘ`'s sequence; and of
completion only if `kₘ` is the last one. -/
theorem C104_concat (eq : DecidableEq ε) (ks : Nat → Net ε α) (n : Nat) (ls : List (concatOf eq ks n).Lbl) :
    let s := (concatOf eq ks n).exec ls
    let says := concatSays eq ks n s
    ∃ m ≤ n, (∀ k, m < k → concatFresh eq ks n s k) ∧ (∀ k < m, (says k).fin = some .completed) ∧
      ∃ g : Trace α ε, notes g <+: notes (says m) ∧ (g.fin = some .completed → m = n) ∧
        (concatOf eq ks n).seq s = Trace.after ((List.range m).flatMap fun k => (says k).vals) g := by
  intro s says
  obtain ⟨h1, h2, g, h3, h4, h5⟩ := C104_moment eq (fun i => ks i.length) (fun i t => !isErr t && decide (i.length < n)) ls
  have hb := bound_of (n := n) (i := s.1.ends) (says := fun i => (ks i.length).seq (s.2 i)) (sw := fun i t => !isErr t && decide (i.length < n)) h1
    (fun j e h => by simp at h; exact h.2)
  have he := ends_completed (i := s.1.ends) (says := fun i => (ks i.length).seq (s.2 i)) (sw := fun i t => !isErr t && decide (i.length < n)) h1
    (fun j e h => by simp at h; exact h.1)
  have ht : ∀ k, k ≤ s.1.ends.length → s.1.ends.take k = List.replicate k .completed := by
    intro k hk
    have := congrArg (List.take k) he
    rw [List.take_replicate, Nat.min_eq_left hk] at this
    exact this
  refine ⟨s.1.ends.length, hb, fun k hk => ?_, fun k hk => ?_, g, ?_, fun hf => ?_, ?_⟩
  · refine h2 _ fun hp => ?_
    have := hp.length_le
    rw [List.length_replicate] at this
    exact absurd hk (Nat.not_lt_of_le this)
  · obtain ⟨e, hk'⟩ : ∃ e, s.1.ends[k]? = some e := ⟨_, List.getElem?_eq_getElem hk⟩
    obtain ⟨f1, f2⟩ := h1 k e hk'
    simp only [Bool.and_eq_true, Bool.not_eq_true'] at f2
    have f1 : ((ks (s.1.ends.take k).length).seq (s.2 (s.1.ends.take k))).fin = some e := f1
    rw [ht k (Nat.le_of_lt hk), not_err f2.1] at f1
    exact f1
  · have h3 : notes g <+: notes ((ks s.1.ends.length).seq (s.2 s.1.ends)) := h3
    show notes g <+: notes ((ks (List.replicate s.1.ends.length (.completed : Term ε)).length).seq (s.2 (List.replicate s.1.ends.length (.completed : Term ε))))
    rw [← ht _ (Nat.le_refl _), List.take_length]
    exact h3
  · have : decide (s.1.ends.length < n) = false := h4 _ hf
    have := of_decide_eq_false this
    omega
  · refine h5.trans (congrArg (Trace.after · g) (flatMap_same fun k hk => ?_))
    show ((ks (s.1.ends.take k).length).seq (s.2 (s.1.ends.take k))).vals = _
    rw [ht k (Nat.le_of_lt (List.mem_range.1 hk))]
    rfl

/-- C104: and when nothing is left to do and nobody has disposed, it was told `k₀`, then (if that has completed) `k₁`, …: `concatSpec`. -/
theorem C104_concat_all (eq : DecidableEq ε) (ks : Nat → Net ε α) (n : Nat) (ls : List (concatOf eq ks n).Lbl)
    (hr : (concatOf eq ks n).Rest ((concatOf eq ks n).exec ls)) (hk : (concatOf eq ks n).Kept ((concatOf eq ks n).exec ls)) :
    (concatOf eq ks n).seq ((concatOf eq ks n).exec ls) = concatSpec n (concatSays eq ks n ((concatOf eq ks n).exec ls)) := by
  let s := (concatOf eq ks n).exec ls
  obtain ⟨h1, -, -⟩ := C104_moment eq (fun i => ks i.length) (fun i t => !isErr t && decide (i.length < n)) ls
  obtain ⟨h4, h5⟩ := C104_all eq (fun i => ks i.length) (fun i t => !isErr t && decide (i.length < n)) ls hr hk
  have hb := bound_of (n := n) (i := s.1.ends) (says := fun i => (ks i.length).seq (s.2 i)) (sw := fun i t => !isErr t && decide (i.length < n)) h1
    (fun j e h => by simp at h; exact h.2)
  have he := ends_completed (i := s.1.ends) (says := fun i => (ks i.length).seq (s.2 i)) (sw := fun i t => !isErr t && decide (i.length < n)) h1
    (fun j e h => by simp at h; exact h.1)
  have ht : ∀ k, k ≤ s.1.ends.length → s.1.ends.take k = List.replicate k .completed := by
    intro k hk
    have := congrArg (List.take k) he
    rw [List.take_replicate, Nat.min_eq_left hk] at this
    exact this
  have hsays : ∀ k, k ≤ s.1.ends.length → (ks (s.1.ends.take k).length).seq (s.2 (s.1.ends.take k)) = concatSays eq ks n s k := by
    intro k hk
    rw [ht k hk]; rfl
  have hlast : (ks s.1.ends.length).seq (s.2 s.1.ends) = concatSays eq ks n s s.1.ends.length := by
    have := hsays _ (Nat.le_refl _)
    rw [List.take_length] at this
    exact this
  rw [concat_of n s.1.ends.length _ hb]
  · refine h5.trans ?_
    show Trace.after _ ((ks s.1.ends.length).seq (s.2 s.1.ends)) = _
    rw [hlast]
    refine congrArg (Trace.after · _) (flatMap_same fun k hk => ?_)
    exact congrArg Trace.vals (hsays k (Nat.le_of_lt (List.mem_range.1 hk)))
  · intro k hk
    obtain ⟨e, hk'⟩ : ∃ e, s.1.ends[k]? = some e := ⟨_, List.getElem?_eq_getElem hk⟩
    obtain ⟨f1, f2⟩ := h1 k e hk'
    simp only [Bool.and_eq_true, Bool.not_eq_true'] at f2
    have f1 : ((ks (s.1.ends.take k).length).seq (s.2 (s.1.ends.take k))).fin = some e := f1
    rw [hsays k (Nat.le_of_lt hk), not_err f2.1] at f1
    exact f1
  · intro hf
    rw [← hlast] at hf
    have : decide (s.1.ends.length < n) = false := h4 _ hf
    have := of_decide_eq_false this
    omega

/-- C104: `repeat()` never completes; its observer is told the values of the subscriptions so far, one after the other, the `k`-th of them
being the one after `k` completions. -/
theorem C104_repeat (eq : DecidableEq ε) (q : Net ε α) (ls : List (repeatOf eq q).Lbl) :
    let s := (repeatOf eq q).exec ls
    let says := fun k => q.seq (s.2 (List.replicate k .completed))
    ∃ m, (∀ k < m, (says k).fin = some .completed) ∧
      ∃ g : Trace α ε, notes g <+: notes (says m) ∧ g.fin ≠ some .completed ∧
        (repeatOf eq q).seq s = Trace.after ((List.range m).flatMap fun k => (says k).vals) g := by
  intro s says
  obtain ⟨h1, -, g, h3, h4, h5⟩ := C104_moment eq (fun _ => q) (fun _ t => !isErr t) ls
  have he := ends_completed (i := s.1.ends) (says := fun i => q.seq (s.2 i)) (sw := fun _ t => !isErr t) h1 (fun j e h => by simpa using h)
  have ht : ∀ k, k ≤ s.1.ends.length → s.1.ends.take k = List.replicate k .completed := by
    intro k hk
    have := congrArg (List.take k) he
    rw [List.take_replicate, Nat.min_eq_left hk] at this
    exact this
  refine ⟨s.1.ends.length, fun k hk => ?_, g, ?_, fun hf => ?_, ?_⟩
  · obtain ⟨e, hk'⟩ : ∃ e, s.1.ends[k]? = some e := ⟨_, List.getElem?_eq_getElem hk⟩
    obtain ⟨f1, f2⟩ := h1 k e hk'
    have f1 : (q.seq (s.2 (s.1.ends.take k))).fin = some e := f1
    have f2 : isErr e = false := by simpa using f2
    rw [ht k (Nat.le_of_lt hk), not_err f2] at f1
    exact f1
  · have h3 : notes g <+: notes (q.seq (s.2 s.1.ends)) := h3
    show notes g <+: notes (q.seq (s.2 (List.replicate s.1.ends.length .completed)))
    rw [← ht _ (Nat.le_refl _), List.take_length]
    exact h3
  · have : (!isErr (.completed : Term ε)) = false := h4 _ hf
    cases this
  · refine h5.trans (congrArg (Trace.after · g) (flatMap_same fun k hk => ?_))
    show (q.seq (s.2 (s.1.ends.take k))).vals = (q.seq (s.2 (List.replicate k .completed))).vals
    rw [ht k (Nat.le_of_lt (List.mem_range.1 hk))]

/-- C104: `retry(n)`: at every moment, for some errors `es`, at most `n`: the attempts so far have failed with `es`, in this order; the
observer was told all their values and a beginning of the present attempt's sequence, and an error only if this is attempt number `n + 1`. -/
theorem C104_retry (eq : DecidableEq ε) (q : Net ε α) (n : Nat) (ls : List (retryOf eq q n).Lbl) :
    let s := (retryOf eq q n).exec ls
    ∃ es : List ε, es.length ≤ n ∧
      let says := fun k => q.seq (s.2 ((es.take k).map .error))
      (∀ (k : Nat) e, es[k]? = some e → (says k).fin = some (.error e)) ∧
      ∃ g : Trace α ε, notes g <+: notes (says es.length) ∧ (∀ e, g.fin = some (.error e) → es.length = n) ∧
        (retryOf eq q n).seq s = Trace.after ((List.range es.length).flatMap fun k => (says k).vals) g := by
  intro s
  obtain ⟨h1, -, g, h3, h4, h5⟩ := C104_moment eq (fun _ => q) (fun i t => isErr t && decide (i.length < n)) ls
  have hb := bound_of (n := n) (i := s.1.ends) (says := fun i => q.seq (s.2 i)) (sw := fun i t => isErr t && decide (i.length < n)) h1
    (fun j e h => by simp at h; exact h.2)
  obtain ⟨es, he⟩ : ∃ es : List ε, s.1.ends = es.map .error := errs_of fun t ht => by
    obtain ⟨k, hk⟩ := List.mem_iff_getElem?.1 ht
    have := (h1 k t hk).2
    simp only [Bool.and_eq_true] at this
    exact this.1
  have hlen : s.1.ends.length = es.length := by rw [he, List.length_map]
  have htake : ∀ k, s.1.ends.take k = (es.take k).map .error := fun k => by rw [he, List.map_take]
  refine ⟨es, hlen ▸ hb, fun k e hk => ?_, g, ?_, fun e hf => ?_, ?_⟩
  · have f1 : (q.seq (s.2 (s.1.ends.take k))).fin = some (.error e) := (h1 k (.error e) (by
      show s.1.ends[k]? = _
      rw [he, List.getElem?_map, hk]; rfl)).1
    rw [htake] at f1
    exact f1
  · have h3 : notes g <+: notes (q.seq (s.2 s.1.ends)) := h3
    show notes g <+: notes (q.seq (s.2 ((es.take es.length).map .error)))
    rw [List.take_length, ← he]
    exact h3
  · have : decide (s.1.ends.length < n) = false := h4 _ hf
    have := of_decide_eq_false this
    omega
  · refine h5.trans (congrArg (Trace.after · g) ?_)
    show (List.range s.1.ends.length).flatMap (fun k => (q.seq (s.2 (s.1.ends.take k))).vals) = _
    rw [hlen]
    exact flatMap_same fun k _ => by rw [htake]

/-- C104: and when nothing is left to do and nobody has disposed, it was told the first attempt, then (if that has failed) the second, …: `retrySpec`;
`es` are the errors of all attempts that have failed, but for the last one that was to be made. -/
theorem C104_retry_all (eq : DecidableEq ε) (q : Net ε α) (n : Nat) (ls : List (retryOf eq q n).Lbl)
    (hr : (retryOf eq q n).Rest ((retryOf eq q n).exec ls)) (hk : (retryOf eq q n).Kept ((retryOf eq q n).exec ls)) :
    let s := (retryOf eq q n).exec ls
    ∃ es : List ε, es.length ≤ n ∧
      let says := fun k => q.seq (s.2 ((es.take k).map .error))
      (∀ (k : Nat) e, es[k]? = some e → (says k).fin = some (.error e)) ∧ (∀ e, (says es.length).fin = some (.error e) → es.length = n) ∧
      (retryOf eq q n).seq s = retrySpec n says := by
  intro s
  obtain ⟨h1, -, -⟩ := C104_moment eq (fun _ => q) (fun i t => isErr t && decide (i.length < n)) ls
  obtain ⟨h4, h5⟩ := C104_all eq (fun _ => q) (fun i t => isErr t && decide (i.length < n)) ls hr hk
  have hb := bound_of (n := n) (i := s.1.ends) (says := fun i => q.seq (s.2 i)) (sw := fun i t => isErr t && decide (i.length < n)) h1
    (fun j e h => by simp at h; exact h.2)
  obtain ⟨es, he⟩ : ∃ es : List ε, s.1.ends = es.map .error := errs_of fun t ht => by
    obtain ⟨k, hk⟩ := List.mem_iff_getElem?.1 ht
    have := (h1 k t hk).2
    simp only [Bool.and_eq_true] at this
    exact this.1
  have hlen : s.1.ends.length = es.length := by rw [he, List.length_map]
  have htake : ∀ k, s.1.ends.take k = (es.take k).map .error := fun k => by rw [he, List.map_take]
  have hone : ∀ (k : Nat) e, es[k]? = some e → (q.seq (s.2 ((es.take k).map .error))).fin = some (.error e) := by
    intro k e hk
    have f1 : (q.seq (s.2 (s.1.ends.take k))).fin = some (.error e) := (h1 k (.error e) (by
      show s.1.ends[k]? = _
      rw [he, List.getElem?_map, hk]; rfl)).1
    rw [htake] at f1
    exact f1
  have hlast : ∀ e, (q.seq (s.2 ((es.take es.length).map .error))).fin = some (.error e) → es.length = n := by
    intro e hf
    rw [List.take_length, ← he] at hf
    have : decide (s.1.ends.length < n) = false := h4 _ hf
    have := of_decide_eq_false this
    omega
  refine ⟨es, hlen ▸ hb, hone, hlast, ?_⟩
  rw [retry_of n es.length _ (hlen ▸ hb) (fun k hk => ⟨_, hone k _ (List.getElem?_eq_getElem hk)⟩) hlast]
  refine h5.trans ?_
  show Trace.after ((List.range s.1.ends.length).flatMap (fun k => (q.seq (s.2 (s.1.ends.take k))).vals)) (q.seq (s.2 s.1.ends)) = _
  rw [hlen]
  have : s.1.ends = (es.take es.length).map .error := by rw [List.take_length]; exact he
  rw [flatMap_same fun k _ => by rw [htake k]]
  exact congrArg (fun i => Trace.after _ (q.seq (s.2 i))) this

/-- C104: `retry()` never tells of an error. -/
theorem C104_retry_forever (eq : DecidableEq ε) (q : Net ε α) (ls : List (retryForever eq q).Lbl) (e : ε) :
    ((retryForever eq q).seq ((retryForever eq q).exec ls)).fin ≠ some (.error e) := by
  obtain ⟨-, -, g, -, h4, h5⟩ := C104_moment eq (fun _ => q) (fun _ t => isErr t) ls
  intro hf
  have hf : g.fin = some (.error e) := by rw [← hf]; exact (congrArg Trace.fin h5).symm
  have : isErr (.error e : Term ε) = false := h4 _ hf
  cases this

/-- C104: `q | on_error_resume_next(f)` for a `q` that is silent after an error: while `q` has not failed (as far as the operator has got), the observer was told a beginning of its sequence; after
the error `e` all values of `q` and then a beginning of the sequence of `f(e)`, whose errors are final; the error of `q` is never told.  Missing: other
`q`, which the operator goes on listening to (`C109_throw_refutes`, `C109_merge_refutes`) and for which `resumeOf` is not a model of the code. -/
theorem C104_resume_partial (eq : DecidableEq ε) (q : Net ε α) (_hq : q.Silent) (f : ε → Net ε α) (ls : List (resumeOf eq q f).Lbl) :
    let s := (resumeOf eq q f).exec ls
    let t := (resumeOf eq q f).seq s
    (notes t <+: notes (q.seq (s.2 [])) ∧ ∀ e, t.fin ≠ some (.error e)) ∨
    (∃ e, (q.seq (s.2 [])).fin = some (.error e) ∧
      ∃ g : Trace α ε, notes g <+: notes ((f e).seq (s.2 [.error e])) ∧ t = Trace.after (q.seq (s.2 [])).vals g) := by
  intro s t
  obtain ⟨h1, -, g, h3, h4, h5⟩ := C104_moment eq (resumeOps q f) (fun i t => i.isEmpty && isErr t) ls
  have h1 : ∀ (k : Nat) e, s.1.ends[k]? = some e → ((resumeOps q f (s.1.ends.take k)).seq (s.2 (s.1.ends.take k))).fin = some e ∧
    ((s.1.ends.take k).isEmpty && isErr e) = true := h1
  have h3 : notes g <+: notes ((resumeOps q f s.1.ends).seq (s.2 s.1.ends)) := h3
  have h4 : ∀ u, g.fin = some u → (s.1.ends.isEmpty && isErr u) = false := h4
  have h5 : t = Trace.after ((List.range s.1.ends.length).flatMap fun k => ((resumeOps q f (s.1.ends.take k)).seq (s.2 (s.1.ends.take k))).vals) g := h5
  clear_value s t
  revert h1 h3 h4 h5
  generalize he : s.1.ends = i
  intro h1 h3 h4 h5
  match i with
  | [] =>
    left
    have h5 : t = g := h5
    subst h5
    refine ⟨h3, fun e hf => ?_⟩
    have := h4 _ hf
    cases this
  | [x] =>
    right
    obtain ⟨f1, f2⟩ := h1 0 x rfl
    obtain ⟨e, rfl⟩ : ∃ e, x = .error e := is_err f2
    refine ⟨e, f1, g, h3, h5.trans ?_⟩
    show Trace.after ((q.seq (s.2 [])).vals ++ []) g = _
    rw [List.append_nil]
  | x :: y :: i =>
    have := (h1 1 y rfl).2
    cases this

/-! ## The hypotheses are met -/

/-- `a | map(+ 10) | retry(1)` -/
def demoRetry : Net Nat Nat := retryOf inferInstance (.src (.cons (.map fun a : Nat => .ok (a + 10)) .nil)) 1

/-- The first attempt emits 1 and fails with 7; the second one emits 1 and 2 and fails with 8. -/
def demoRetryRun : List demoRetry.Lbl :=
  [.inOne [] (.call (.next 1)), .hear, .inOne [] (.call (.error 7)), .inOne [.error 7] (.call (.next 5)), .hear,
   .inOne [.error 7] (.call (.next 1)), .inOne [.error 7] (.call (.next 2)), .hear, .inOne [.error 7] (.call (.error 8)), .hear, .hear]

/-- The 5 is lost: at that time the second subscription was not made. -/
example : demoRetry.sees 0 (fun _ => {}) (demoRetry.exec demoRetryRun) = [.next 11, .next 11, .next 12, .error 8] := by decide

example : demoRetry.WF := ⟨fun _ => by simp [Net.WF, Pipe.WF, Op.WF], trivial⟩

example : demoRetry.Bounded := ⟨⟨1, fun i t h => by simp; intro _ hi; rw [hi] at h; cases h⟩, fun _ => trivial⟩

example : demoRetry.Rest (demoRetry.exec demoRetryRun) := ⟨rfl, fun _ _ => trivial⟩

example : demoRetry.Kept (demoRetry.exec demoRetryRun) :=
  C102_kept _ _ (List.all_eq_true.1 (by decide : demoRetryRun.all demoRetry.tidy = true))

/-- `concat(a, b, c)` -/
def demoConcat : Net Nat Nat := concatOf inferInstance (fun _ => .src (.nil : Pipe Nat Nat Nat)) 2

/-- `a` emits 1 and completes; `b` emits 2 and has not ended. -/
def demoConcatRun : List demoConcat.Lbl :=
  [.inOne [] (.call (.next 1)), .inOne [] (.call .completed), .hear, .hear, .inOne [.completed] (.call (.next 2)), .hear]

example : demoConcat.sees 0 (fun _ => {}) (demoConcat.exec demoConcatRun) = [.next 1, .next 2] := by decide

example : demoConcat.Rest (demoConcat.exec demoConcatRun) := ⟨rfl, fun _ _ => trivial⟩

example : demoConcat.Kept (demoConcat.exec demoConcatRun) :=
  C102_kept _ _ (List.all_eq_true.1 (by decide : demoConcatRun.all demoConcat.tidy = true))

example : concatSpec 2 (fun k => if k = 0 then (⟨[1], some .completed⟩ : Trace Nat Nat) else if k = 1 then ⟨[2], some .completed⟩ else ⟨[3], some (.error 4)⟩) =
    ⟨[1, 2, 3], some (.error 4)⟩ := by decide

example : retrySpec 1 (fun k => if k = 0 then (⟨[1], some (.error 7)⟩ : Trace Nat Nat) else ⟨[1, 2], some (.error 8)⟩) = ⟨[1, 1, 2], some (.error 8)⟩ := by decide

/-- `a | on_error_resume_next(e ↦ concat(b_e, c_e))`: an expression in an expression. -/
def demoResume : Net Nat Nat := resumeOf inferInstance (.src (.nil : Pipe Nat Nat Nat)) fun e => concatOf inferInstance (fun _ => .src (.cons (.map fun a : Nat => .ok (a + e)) .nil)) 1

example : (.src (.nil : Pipe Nat Nat Nat) : Net Nat Nat).Silent := trivial

/-- `a` emits 1 and fails with 100; `b₁₀₀` emits 2 and completes; `c₁₀₀` emits 3. -/
def demoResumeRun : List demoResume.Lbl :=
  [.inOne [] (.call (.next 1)), .inOne [] (.call (.error 100)), .hear, .hear] ++
  ([.inOne [] (.call (.next 2)), .inOne [] (.call .completed), .hear, .hear, .inOne [.completed] (.call (.next 3)), .hear] :
    List (resumeOps (.src (.nil : Pipe Nat Nat Nat)) (fun e => concatOf inferInstance (fun _ => .src (.cons (.map fun a : Nat => .ok (a + e)) .nil)) 1) [.error 100]).Lbl).map
    (fun l => .inOne [.error 100] l) ++ [.hear, .hear]

example : demoResume.sees 0 (fun _ => {}) (demoResume.exec demoResumeRun) = [.next 1, .next 102, .next 103] := by decide

/-- `a | repeat()` -/
def demoRepeat : Net Nat Nat := repeatOf inferInstance (.src (.nil : Pipe Nat Nat Nat))

/-- Two rounds and a half. -/
example : demoRepeat.sees 0 (fun _ => {}) (demoRepeat.exec
    [.inOne [] (.call (.next 1)), .inOne [] (.call .completed), .hear, .hear, .inOne [.completed] (.call (.next 2)), .inOne [.completed] (.call .completed),
     .hear, .hear, .inOne [.completed, .completed] (.call (.next 3)), .hear]) = [.next 1, .next 2, .next 3] := by decide

end Rpp.Net
