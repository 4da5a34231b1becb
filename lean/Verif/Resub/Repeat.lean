import Verif.Resub.Props

/-! # C30: repeat and start_with; C31: retry -/

namespace Rpp.Resub

open Rpp.Comb (Sig Res)

variable {α β ε σ : Type}

/-- Policies that go on after a completion and finish at an error. -/
theorem seq_order {P : Policy β ε σ} (hP : ∀ st t, P.judge st t = (match t with | .completed => .again | .error _ => .finish)) (ls : List (Lbl α ε))
    {pre post : List (Ev α β ε)} {n : Nat} {x : β} (h : (exec P ls).log = pre ++ .opened n x :: post) :
    n = attempts pre + 1 ∧ ∀ m, 0 < m → m < n → .recv (.src m) (.term .completed) ∈ pre := by
  have h1 := legal _ ls pre _ post h
  refine ⟨h1.1, fun m hm hn => ?_⟩
  obtain ⟨ls', rfl⟩ := history_prefix _ ls h
  obtain ⟨own, cur, ha⟩ := all P ls'
  exact again_completed hP (ha.J.handed m (h1.2.2.1 m hm hn))

theorem seq_completes {P : Policy β ε σ} (hP : ∀ st t, P.judge st t = (match t with | .completed => .again | .error _ => .finish)) (ls : List (Lbl α ε))
    {pre post : List (Ev α β ε)} {w : Who} (h : (exec P ls).log = pre ++ .beg w (.term .completed) :: post) :
    itemAt P (attempts pre) = none ∧ ∀ m, 0 < m → m ≤ attempts pre → .recv (.src m) (.term .completed) ∈ pre := by
  have h1 := legal _ ls pre _ post h
  obtain ⟨ls', rfl⟩ := history_prefix _ ls h
  obtain ⟨own, cur, ha⟩ := all P ls'
  rcases ha.origin_plain (fun st e => by rw [hP]; simp) h1.2.2.2.2 with ⟨-, h2⟩ | ⟨e, h2, -⟩ | ⟨-, h2, h3⟩
  · rw [hP] at h2; exact absurd rfl h2
  · cases h2
  · refine ⟨h2, fun m hm hn => again_completed hP (ha.J.handed m ?_)⟩
    by_cases he : m = attempts (exec P ls').log
    · rcases h3 with h3 | h3
      · omega
      · rw [he]; exact h3
    · exact ha.J.before m hm (by rw [← ha.S.attempts]; omega)

theorem seq_error {P : Policy β ε σ} (hP : ∀ st t, P.judge st t = (match t with | .completed => .again | .error _ => .finish)) (ls : List (Lbl α ε))
    {pre post : List (Ev α β ε)} {w : Who} {e : ε} (h : (exec P ls).log = pre ++ .beg w (.term (.error e)) :: post) :
    .recv (.src (attempts pre)) (.term (.error e)) ∈ pre ∨ .threw (attempts pre) e ∈ pre := by
  have h1 := legal _ ls pre _ post h
  obtain ⟨ls', rfl⟩ := history_prefix _ ls h
  obtain ⟨own, cur, ha⟩ := all P ls'
  rcases ha.origin_plain (fun st e => by rw [hP]; simp) h1.2.2.2.2 with ⟨h2, -⟩ | ⟨e', h2, h3⟩ | ⟨h2, -⟩
  · exact .inl h2
  · cases h2; exact .inr h3
  · cases h2

/-! ## repeat(n) -/

theorem stAt_repeat {S count : Nat} (hS : count < S) (x : β) : ∀ n, n ≤ count → stAt (repeatPolicy S x count : Policy β ε _) n = n := by
  intro n
  induction n with
  | zero => intro _; rfl
  | succ n ih =>
    intro hn
    rw [stAt, ih (by omega)]
    have : n ≠ count := by omega
    simp only [repeatPolicy, this, if_false]
    exact Nat.mod_eq_of_lt (by omega)

theorem itemAt_repeat {S count : Nat} (hS : count < S) (x : β) {n : Nat} (hn : n ≤ count) :
    itemAt (repeatPolicy S x count : Policy β ε _) n = if n = count then none else some x := by
  rw [itemAt, stAt_repeat hS x n hn]
  simp only [repeatPolicy]
  split <;> rfl

theorem repeat_bound {S count : Nat} (hS : count < S) (x : β) (ls : List (Lbl α ε)) : attempts (exec (repeatPolicy S x count) ls).log ≤ count := by
  rcases Nat.lt_or_ge count (attempts (exec (repeatPolicy S x count) ls).log) with h | h
  · have := opened_of_lt _ ls h
    rw [itemAt_repeat hS x (Nat.le_refl _)] at this
    simp at this
  · exact h

/-- repeat(n) subscribes to its source at most n times, each time only after all earlier subscriptions have completed. -/
theorem C30_repeat_order {S count : Nat} (hS : count < S) (x : β) (ls : List (Lbl α ε)) (pre post : List (Ev α β ε)) (n : Nat) (y : β)
    (h : (exec (repeatPolicy S x count) ls).log = pre ++ .opened n y :: post) :
    y = x ∧ n = attempts pre + 1 ∧ n ≤ count ∧ ∀ m, 0 < m → m < n → .recv (.src m) (.term .completed) ∈ pre := by
  have h1 := seq_order (fun st t => by cases t <;> rfl) ls h
  have h2 := opened_range _ ls (n := n) (x := y) (by rw [h]; simp)
  have h3 := repeat_bound hS x ls
  rw [itemAt_repeat hS x (by omega)] at h2
  split at h2
  · cases h2.2.2
  · have := h2.2.2; simp only [Option.some.injEq] at this
    exact ⟨this.symm, h1.1, by omega, h1.2⟩

/-- It completes only after exactly n completions (at once if n is 0) … -/
theorem C30_repeat_completes_last {S count : Nat} (hS : count < S) (x : β) (ls : List (Lbl α ε)) (pre post : List (Ev α β ε)) (w : Who)
    (h : (exec (repeatPolicy S x count) ls).log = pre ++ .beg w (.term .completed) :: post) :
    attempts pre = count ∧ (∀ m, 0 < m → m ≤ count → .recv (.src m) (.term .completed) ∈ pre) ∧ values pre = attemptValues pre := by
  have h1 := seq_completes (fun st t => by cases t <;> rfl) ls h
  have h3 : attempts pre ≤ count := by
    obtain ⟨ls', h'⟩ := history_prefix _ ls h
    rw [← h']; exact repeat_bound hS x ls'
  have h4 := (legal _ ls pre _ post h).2.2.2.1
  rw [joined_plain rfl] at h4
  rw [itemAt_repeat hS x h3] at h1
  split at h1
  · next he => rw [← he]; exact ⟨rfl, h1.2, h4⟩
  · cases h1.1

/-- … and does so then (when nobody is at work). -/
theorem C30_repeat_completes {S count : Nat} (hS : count < S) (x : β) (ls : List (Lbl α ε)) (hq : Quiet (exec (repeatPolicy S x count) ls))
    (hall : ∀ m, 0 < m → m ≤ count → .recv (.src m) (.term .completed) ∈ (exec (repeatPolicy S x count) ls).log) :
    .gone ∈ (exec (repeatPolicy S x count) ls).log ∨ Ended (exec (repeatPolicy S x count) ls).log := by
  refine Classical.byContradiction fun hc => ?_
  have hc := not_or.mp hc
  obtain ⟨own, cur, ha⟩ := all (repeatPolicy S x count) ls
  have h := alive _ ls hq hc.1 hc.2
  rcases h.2.2 with h2 | ⟨⟨e, h2⟩, -⟩
  · exact h2 _ (hall _ h.1 (repeat_bound hS x ls))
  · exact (ha.no_ntf (by simp [repeatPolicy]) _).1 e h2

/-- An error told is that of the last attempt, or was thrown by its `subscribe`. -/
theorem C30_repeat_error_origin (S count : Nat) (x : β) (ls : List (Lbl α ε)) (pre post : List (Ev α β ε)) (w : Who) (e : ε)
    (h : (exec (repeatPolicy S x count) ls).log = pre ++ .beg w (.term (.error e)) :: post) :
    .recv (.src (attempts pre)) (.term (.error e)) ∈ pre ∨ .threw (attempts pre) e ∈ pre := seq_error (fun st t => by cases t <;> rfl) ls h

/-- The output is the concatenation of the attempts' values. -/
theorem C30_repeat_values (S count : Nat) (x : β) (ls : List (Lbl α ε)) (hq : Quiet (exec (repeatPolicy S x count) ls))
    (hg : .gone ∉ (exec (repeatPolicy S x count) ls).log) (he : ¬ Ended (exec (repeatPolicy S x count) ls).log) :
    values (exec (repeatPolicy S x count) ls).log = attemptValues (exec (repeatPolicy S x count) ls).log := by
  have := values_eq (repeatPolicy S x count) ls hq hg he
  rwa [joined_plain rfl] at this

/-! ## repeat() -/

/-- repeat() never completes … -/
theorem C30_repeat_forever (x : β) (ls : List (Lbl α ε)) (w : Who) : .beg w (.term .completed) ∉ (exec (repeatForeverPolicy x) ls).log := by
  intro h
  obtain ⟨pre, post, h⟩ := mem_split h
  have := (seq_completes (fun st t => by cases t <;> rfl) ls h).1
  cases this

/-- … subscribes again and again, each time only after all earlier subscriptions have completed … -/
theorem C30_repeat_forever_order (x : β) (ls : List (Lbl α ε)) (pre post : List (Ev α β ε)) (n : Nat) (y : β)
    (h : (exec (repeatForeverPolicy x) ls).log = pre ++ .opened n y :: post) :
    y = x ∧ n = attempts pre + 1 ∧ ∀ m, 0 < m → m < n → .recv (.src m) (.term .completed) ∈ pre := by
  have h1 := seq_order (fun st t => by cases t <;> rfl) ls h
  have h2 := (legal _ ls pre _ post h).2.1
  have h3 : itemAt (repeatForeverPolicy x : Policy β ε _) (attempts pre) = some x := rfl
  rw [h3] at h2; cases h2
  exact ⟨rfl, h1⟩

/-- … and never stops unless an attempt fails: when nobody is at work, the last attempt has not ended, or one of them has failed, or the downstream
observer is disposed or has failed. -/
theorem C30_repeat_forever_on (x : β) (ls : List (Lbl α ε)) (hq : Quiet (exec (repeatForeverPolicy x) ls))
    (hg : .gone ∉ (exec (repeatForeverPolicy x) ls).log) (he : ¬ Ended (exec (repeatForeverPolicy x) ls).log) :
    0 < attempts (exec (repeatForeverPolicy x) ls).log ∧
    (∀ t, .recv (.src (attempts (exec (repeatForeverPolicy x) ls).log)) (.term t) ∉ (exec (repeatForeverPolicy x) ls).log) ∧
    values (exec (repeatForeverPolicy x) ls).log = attemptValues (exec (repeatForeverPolicy x) ls).log := by
  have h := alive _ ls hq hg he
  obtain ⟨own, cur, ha⟩ := all (repeatForeverPolicy x) ls
  have h3 := values_eq (repeatForeverPolicy x) ls hq hg he
  rw [joined_plain rfl] at h3
  rcases h.2.2 with h2 | ⟨⟨e, h2⟩, -⟩
  · exact ⟨h.1, h2, h3⟩
  · exact absurd h2 ((ha.no_ntf (by simp [repeatForeverPolicy]) _).1 e)

/-! ## start_with

start_with.hpp 26-37: `start_with(os...)` applied to `o` is `source::concat(os..., o)`. -/

/-- The source is subscribed last, after all the observables put before it have completed. -/
theorem C30_start_with (os : List β) (o : β) (ls : List (Lbl α ε)) (pre post : List (Ev α β ε)) (x : β)
    (h : (exec (concatPolicy (os ++ [o])) ls).log = pre ++ .opened (os.length + 1) x :: post) :
    x = o ∧ (openings pre).map Prod.snd = os ∧ ∀ m, 0 < m → m ≤ os.length → .recv (.src m) (.term .completed) ∈ pre := by
  have h1 := C30_concat_order _ ls pre post _ x h
  obtain ⟨ls', rfl⟩ := history_prefix _ ls h
  have h2 := C30_concat_items (α := α) (ε := ε) (os ++ [o]) ls'
  have hn : attempts (exec (concatPolicy (os ++ [o])) ls').log = os.length := by omega
  rw [hn] at h1 h2
  refine ⟨?_, by rw [h2]; simp, fun m hm hn => h1.2.2 m hm (by omega)⟩
  have := h1.2.1
  simp at this; exact this.symm

/-! ## C31: retry

`S` is the number of values of `size_t`; `c < S` is the argument of `retry(c)`. -/

theorem stAt_retry {S c : Nat} (hS : c < S) : ∀ n, n ≤ c + 1 → stAt (retryPolicy S (some c) : Policy Unit ε _) n = some ((c + 1 - n) % S) := by
  intro n
  induction n with
  | zero => intro _; rfl
  | succ n ih =>
    intro hn
    rw [stAt, ih (by omega)]
    simp only [retryPolicy, Option.map_some, Option.some.injEq]
    rcases Nat.lt_or_ge (c + 1 - n) S with h | h
    · rw [Nat.mod_eq_of_lt h, Nat.mod_eq_of_lt (b := S) (a := c + 1 - (n + 1)) (by omega)]
      have : c + 1 - n + (S - 1) = c + 1 - (n + 1) + S := by omega
      rw [this, Nat.add_mod_right, Nat.mod_eq_of_lt (by omega)]
    · have h1 : c + 1 - n = S := by omega
      have h2 : c + 1 - (n + 1) = S - 1 := by omega
      rw [h1, h2, Nat.mod_self, Nat.zero_add]

theorem judge_retry {S c : Nat} (hS : c < S) {n : Nat} (h0 : 0 < n) (hn : n ≤ c + 1) (e : ε) :
    (retryPolicy S (some c) : Policy Unit ε _).judge (stAt (retryPolicy S (some c) : Policy Unit ε _) n) (.error e) = if n = c + 1 then .finish else .again := by
  rw [stAt_retry hS n hn, Nat.mod_eq_of_lt (by omega)]
  simp only [retryPolicy, Option.some.injEq]
  by_cases h : n = c + 1
  · simp [h]
  · have : c + 1 - n ≠ 0 := by omega
    simp [h, this]

theorem retry_judge_ask (S : Nat) (c : Option Nat) (st : Option Nat) (e : ε) : (retryPolicy S c : Policy Unit ε _).judge st (.error e) ≠ .ask := by
  simp only [retryPolicy]; split <;> simp

theorem retry_again {S : Nat} {c : Option Nat} {log : List (Ev α Unit ε)} {n : Nat} (h : Again (retryPolicy S c) log n) :
    ∃ e, .recv (.src n) (.term (.error e)) ∈ log ∧
      (retryPolicy S c : Policy Unit ε _).judge (stAt (retryPolicy S c : Policy Unit ε _) n) (.error e) = .again := by
  rcases h with ⟨t, h1, h2⟩ | ⟨e, v, h1, h2, h3, h4⟩
  · cases t with
    | completed => cases h2
    | error e => exact ⟨e, h1, h2⟩
  · exact absurd h2 (retry_judge_ask _ _ _ _)

/-- retry(c) subscribes at most c + 1 times. -/
theorem C31_at_most {S c : Nat} (hS : c < S) (ls : List (Lbl α ε)) : attempts (exec (retryPolicy S (some c)) ls).log ≤ c + 1 := by
  rcases Nat.lt_or_ge (c + 1) (attempts (exec (retryPolicy S (some c)) ls).log) with h | h
  · obtain ⟨own, cur, ha⟩ := all (retryPolicy S (some c)) ls
    rw [ha.S.attempts] at h
    obtain ⟨e, -, h2⟩ := retry_again (ha.J.handed _ (ha.J.before (c + 1) (by omega) h))
    rw [judge_retry hS (by omega) (Nat.le_refl _)] at h2
    simp at h2
  · exact h

/-- It subscribes again only after every earlier attempt has failed. -/
theorem C31_order (S : Nat) (c : Option Nat) (ls : List (Lbl α ε)) (pre post : List (Ev α Unit ε)) (n : Nat)
    (h : (exec (retryPolicy S c) ls).log = pre ++ .opened n () :: post) :
    n = attempts pre + 1 ∧ ∀ m, 0 < m → m < n → ∃ e, .recv (.src m) (.term (.error e)) ∈ pre := by
  have h1 := legal _ ls pre _ post h
  refine ⟨h1.1, fun m hm hn => ?_⟩
  obtain ⟨ls', rfl⟩ := history_prefix _ ls h
  obtain ⟨own, cur, ha⟩ := all (retryPolicy S c) ls'
  obtain ⟨e, h2, -⟩ := retry_again (ha.J.handed m (h1.2.2.1 m hm hn))
  exact ⟨e, h2⟩

/-- It completes only with the completion of the last attempt. -/
theorem C31_completes (S : Nat) (c : Option Nat) (ls : List (Lbl α ε)) (pre post : List (Ev α Unit ε)) (w : Who)
    (h : (exec (retryPolicy S c) ls).log = pre ++ .beg w (.term .completed) :: post) :
    .recv (.src (attempts pre)) (.term .completed) ∈ pre ∧ values pre = attemptValues pre := by
  have h1 := legal _ ls pre _ post h
  have h4 := h1.2.2.2.1
  rw [joined_plain rfl] at h4
  obtain ⟨ls', rfl⟩ := history_prefix _ ls h
  obtain ⟨own, cur, ha⟩ := all (retryPolicy S c) ls'
  rcases ha.origin_plain (retry_judge_ask S c) h1.2.2.2.2 with ⟨h2, -⟩ | ⟨e', h2, h3⟩ | ⟨-, h2, -⟩
  · exact ⟨h2, h4⟩
  · cases h2
  · cases h2

/-- An error is passed on only if it is the one of attempt c + 1 (or was thrown by `subscribe`).  For every argument, the greatest included. -/
theorem C31_error {S c : Nat} (hS : c < S) (ls : List (Lbl α ε)) (pre post : List (Ev α Unit ε)) (w : Who) (e : ε)
    (h : (exec (retryPolicy S (some c)) ls).log = pre ++ .beg w (.term (.error e)) :: post) :
    values pre = attemptValues pre ∧
    ((attempts pre = c + 1 ∧ .recv (.src (c + 1)) (.term (.error e)) ∈ pre) ∨ .threw (attempts pre) e ∈ pre) := by
  have h1 := legal _ ls pre _ post h
  have h4 := h1.2.2.2.1
  rw [joined_plain rfl] at h4
  obtain ⟨ls', rfl⟩ := history_prefix _ ls h
  obtain ⟨own, cur, ha⟩ := all (retryPolicy S (some c)) ls'
  refine ⟨h4, ?_⟩
  rcases ha.origin_plain (retry_judge_ask S (some c)) h1.2.2.2.2 with ⟨h2, h3⟩ | ⟨e', h2, h3⟩ | ⟨h2, -⟩
  · left
    have hn := terminated _ ls' h2
    rw [judge_retry hS hn.1 (C31_at_most hS ls')] at h3
    split at h3
    · next he => rw [he] at h2; exact ⟨he, h2⟩
    · exact absurd rfl h3
  · cases h2; exact .inr h3
  · cases h2

/-- It does not stop before: when nobody is at work, the last attempt has not ended, unless the downstream observer has been told the end or is disposed. -/
theorem C31_goes_on (S : Nat) (c : Option Nat) (ls : List (Lbl α ε)) (hq : Quiet (exec (retryPolicy S c) ls))
    (hg : .gone ∉ (exec (retryPolicy S c) ls).log) (he : ¬ Ended (exec (retryPolicy S c) ls).log) :
    0 < attempts (exec (retryPolicy S c) ls).log ∧
    (∀ t, .recv (.src (attempts (exec (retryPolicy S c) ls).log)) (.term t) ∉ (exec (retryPolicy S c) ls).log) ∧
    values (exec (retryPolicy S c) ls).log = attemptValues (exec (retryPolicy S c) ls).log := by
  have h := alive _ ls hq hg he
  obtain ⟨own, cur, ha⟩ := all (retryPolicy S c) ls
  have h3 := values_eq (retryPolicy S c) ls hq hg he
  rw [joined_plain rfl] at h3
  rcases h.2.2 with h2 | ⟨⟨e, h2⟩, -⟩
  · exact ⟨h.1, h2, h3⟩
  · exact absurd h2 ((ha.no_ntf (retry_judge_ask S c) _).1 e)

/-- retry() never gives up: it never passes the error of an attempt on. -/
theorem C31_forever (S : Nat) (ls : List (Lbl α ε)) (pre post : List (Ev α Unit ε)) (w : Who) (e : ε)
    (h : (exec (retryPolicy S none) ls).log = pre ++ .beg w (.term (.error e)) :: post) : .threw (attempts pre) e ∈ pre := by
  have h1 := legal _ ls pre _ post h
  obtain ⟨ls', rfl⟩ := history_prefix _ ls h
  obtain ⟨own, cur, ha⟩ := all (retryPolicy S none) ls'
  have hst : ∀ n, stAt (retryPolicy S none : Policy Unit ε _) n = none := by
    intro n; induction n with
    | zero => rfl
    | succ n ih => rw [stAt, ih]; rfl
  rcases ha.origin_plain (retry_judge_ask S none) h1.2.2.2.2 with ⟨h2, h3⟩ | ⟨e', h2, h3⟩ | ⟨h2, -⟩
  · rw [hst] at h3; exact absurd rfl h3
  · cases h2; exact h3
  · cases h2

/-- The output is always a beginning of the concatenation of the attempts' values. -/
theorem C31_prefix (S : Nat) (c : Option Nat) (ls : List (Lbl α ε)) :
    values (exec (retryPolicy S c) ls).log <+: attemptValues (exec (retryPolicy S c) ls).log := by
  have := values_pre (retryPolicy S c) ls
  rwa [joined_plain rfl] at this

/-! ## C33: on_error_resume_next -/

theorem resume_never_again {log : List (Ev α Unit ε)} {n : Nat} (h : Again resumeNextPolicy log n) : False := by
  rcases h with ⟨t, h1, h2⟩ | ⟨e, v, h1, h2, h3, h4, h5⟩
  · cases t <;> cases h2
  · cases h4

theorem resume_bound (ls : List (Lbl α ε)) : attempts (exec resumeNextPolicy ls).log ≤ 1 := by
  rcases Nat.lt_or_ge 1 (attempts (exec resumeNextPolicy ls : St α Unit ε Unit).log) with h | h
  · obtain ⟨own, cur, ha⟩ := all resumeNextPolicy ls
    rw [ha.S.attempts] at h
    exact (resume_never_again (ha.J.handed _ (ha.J.before 1 (by omega) h))).elim
  · exact h

theorem resume_joined (ls : List (Lbl α ε)) : joined resumeNextPolicy (attempts (exec resumeNextPolicy ls).log) (exec resumeNextPolicy ls).log =
    sent (.src 1) (exec resumeNextPolicy ls).log ++ sent (.ntf 1) (exec resumeNextPolicy ls).log := by
  have hb := resume_bound ls
  obtain ⟨own, cur, ha⟩ := all (resumeNextPolicy) ls
  have hn := ha.S.attempts
  rcases Nat.lt_or_ge (attempts (exec resumeNextPolicy ls : St α Unit ε Unit).log) 1 with h | h
  · have h0 : attempts (exec resumeNextPolicy ls : St α Unit ε Unit).log = 0 := by omega
    rw [h0]
    have h1 : (exec resumeNextPolicy ls : St α Unit ε Unit).active (.src 1) = false := by
      cases hx : (exec resumeNextPolicy ls : St α Unit ε Unit).active (.src 1) with
      | false => rfl
      | true => have := (ha.N.active 1).mp hx; omega
    have h2 : (exec resumeNextPolicy ls : St α Unit ε Unit).active (.ntf 1) = false := by
      cases hx : (exec resumeNextPolicy ls : St α Unit ε Unit).active (.ntf 1) with
      | false => rfl
      | true => have := ha.N.activeN 1 hx; omega
    rw [ha.V.unsent _ h1, ha.V.unsent _ h2]; rfl
  · have h0 : attempts (exec resumeNextPolicy ls : St α Unit ε Unit).log = 1 := by omega
    rw [h0]; simp [joined, resumeNextPolicy]

/-- The source is subscribed once. -/
theorem C33_once (ls : List (Lbl α ε)) (n : Nat) (h : .opened n () ∈ (exec resumeNextPolicy ls).log) : n = 1 := by
  have := opened_range _ ls h; have := resume_bound ls; omega

/-- The output is always a beginning of: the source's values, then those of the observable returned by the selector … -/
theorem C33_prefix (ls : List (Lbl α ε)) :
    values (exec resumeNextPolicy ls).log <+: sent (.src 1) (exec resumeNextPolicy ls).log ++ sent (.ntf 1) (exec resumeNextPolicy ls).log := by
  have := values_pre resumeNextPolicy ls
  rwa [resume_joined] at this

/-- … and all of it when nobody is at work. -/
theorem C33_values (ls : List (Lbl α ε)) (hq : Quiet (exec resumeNextPolicy ls)) (hg : .gone ∉ (exec resumeNextPolicy ls).log)
    (he : ¬ Ended (exec resumeNextPolicy ls).log) :
    values (exec resumeNextPolicy ls).log = sent (.src 1) (exec resumeNextPolicy ls).log ++ sent (.ntf 1) (exec resumeNextPolicy ls).log := by
  have := values_eq resumeNextPolicy ls hq hg he
  rwa [resume_joined] at this

/-- The selector is asked with the source's error, once, and only then. -/
theorem C33_selector (ls : List (Lbl α ε)) (pre post : List (Ev α Unit ε)) (n : Nat) (e : ε)
    (h : (exec resumeNextPolicy ls).log = pre ++ .asked n e :: post) :
    n = 1 ∧ .recv (.src 1) (.term (.error e)) ∈ pre ∧ ∀ e', .asked 1 e' ∉ pre := by
  have h1 := legal _ ls pre _ post h
  have hn : n = 1 := by
    have h2 := terminated _ ls (n := n) (t := .error e) (by rw [h]; simp [h1.2.1])
    have := resume_bound ls; omega
  subst hn
  exact ⟨rfl, h1.2⟩

/-- The end: the completion of the source; or the end of the observable returned by the selector; or what the selector (or subscribing to what it returned) has
thrown.  All values have been delivered before. -/
theorem C33_end (ls : List (Lbl α ε)) (pre post : List (Ev α Unit ε)) (w : Who) (t : Term ε)
    (h : (exec resumeNextPolicy ls).log = pre ++ .beg w (.term t) :: post) :
    values pre = sent (.src 1) pre ++ sent (.ntf 1) pre ∧
    ((t = .completed ∧ .recv (.src 1) (.term .completed) ∈ pre) ∨ .recv (.ntf 1) (.term t) ∈ pre ∨ ∃ e, t = .error e ∧ .denied 1 e ∈ pre) := by
  have h1 := legal _ ls pre _ post h
  obtain ⟨ls', rfl⟩ := history_prefix _ ls h
  obtain ⟨own, cur, ha⟩ := all resumeNextPolicy ls'
  have h4 := h1.2.2.2.1
  rw [resume_joined] at h4
  refine ⟨h4, ?_⟩
  have hb := resume_bound ls'
  have hpos : 0 < attempts (exec resumeNextPolicy ls').log := by
    rcases Nat.eq_zero_or_pos (attempts (exec resumeNextPolicy ls').log) with h0 | h0
    · have ho := h1.2.2.2.2
      rw [h0] at ho
      rcases ho with ⟨h2, -⟩ | h2 | ⟨e, -, h2 | h2⟩ | ⟨-, h2, -⟩
      · have := terminated _ ls' h2; omega
      · have h5 := ha.L.done _ _ h2
        cases hx : (exec resumeNextPolicy ls').active (.ntf 0) with
        | true => have := ha.N.activeN 0 hx; omega
        | false => rcases ha.I.fresh _ hx with h6 | h6
                   · rw [h5] at h6; cases h6
                   · cases h6
      · have := ha.J.caught _ _ h2; cases this
      · obtain ⟨e', h5, -⟩ := ha.J.denied _ _ h2
        have := terminated _ ls' h5; omega
      · cases h2
    · exact h0
  have h0 : attempts (exec resumeNextPolicy ls').log = 1 := by omega
  have ho := h1.2.2.2.2
  rw [h0] at ho
  rcases ho with ⟨h2, h3⟩ | h2 | ⟨e, h2, h3 | h3⟩ | ⟨-, h2, -⟩
  · left
    cases t with
    | completed => exact ⟨rfl, h2⟩
    | error e => rcases h3 with h3 | ⟨-, h3⟩ <;> cases h3
  · exact .inr (.inl h2)
  · have := ha.J.caught _ _ h3; cases this
  · exact .inr (.inr ⟨e, h2, h3⟩)
  · cases h2

/-- Nothing is forgotten: when nobody is at work and the downstream observer neither disposed nor ended, the source has not ended, or the selector has been asked
and the observable it returned has not ended. -/
theorem C33_goes_on (ls : List (Lbl α ε)) (hq : Quiet (exec resumeNextPolicy ls)) (hg : .gone ∉ (exec resumeNextPolicy ls).log)
    (he : ¬ Ended (exec resumeNextPolicy ls).log) :
    (∀ t, .recv (.src 1) (.term t) ∉ (exec resumeNextPolicy ls).log) ∨
    (∃ e, .asked 1 e ∈ (exec resumeNextPolicy ls).log ∧ .recv (.src 1) (.term (.error e)) ∈ (exec resumeNextPolicy ls).log) ∧
      ∀ t, .recv (.ntf 1) (.term t) ∉ (exec resumeNextPolicy ls).log := by
  have h := alive _ ls hq hg he
  obtain ⟨own, cur, ha⟩ := all resumeNextPolicy ls
  have hb := resume_bound ls
  have h0 : attempts (exec resumeNextPolicy ls).log = 1 := by omega
  rw [h0] at h
  rcases h.2.2 with h2 | ⟨⟨e, h2⟩, h3, -⟩
  · exact .inl h2
  · exact .inr ⟨⟨e, h2, (ha.J.asked 1 e h2).1⟩, h3⟩

/-! ## C34: retry_when -/

/-- A new attempt is made only when, for each earlier one, it has failed, the notifier was obtained with its error, and the notifier has emitted.  One attempt
per notifier. -/
theorem C34_order (ls : List (Lbl α ε)) (pre post : List (Ev α Unit ε)) (n : Nat)
    (h : (exec retryWhenPolicy ls).log = pre ++ .opened n () :: post) :
    n = attempts pre + 1 ∧ ∀ m, 0 < m → m < n →
      ∃ e v, .recv (.src m) (.term (.error e)) ∈ pre ∧ .asked m e ∈ pre ∧ .recv (.ntf m) (.next v) ∈ pre := by
  have h1 := legal _ ls pre _ post h
  refine ⟨h1.1, fun m hm hn => ?_⟩
  obtain ⟨ls', rfl⟩ := history_prefix _ ls h
  obtain ⟨own, cur, ha⟩ := all retryWhenPolicy ls'
  rcases ha.J.handed m (h1.2.2.1 m hm hn) with ⟨t, h1, h2⟩ | ⟨e, v, h1, h2, h3, h4, h5⟩
  · cases t <;> cases h2
  · exact ⟨e, v, h1, h3, h5⟩

/-- The notifier is obtained once per attempt, with the attempt's error. -/
theorem C34_notifier (ls : List (Lbl α ε)) (pre post : List (Ev α Unit ε)) (n : Nat) (e : ε)
    (h : (exec retryWhenPolicy ls).log = pre ++ .asked n e :: post) :
    n = attempts pre ∧ .recv (.src n) (.term (.error e)) ∈ pre ∧ ∀ e', .asked n e' ∉ pre := legal _ ls pre _ post h

/-- Only the first value of a notifier is listened to: nothing is received from it afterwards. -/
theorem C34_one_value (ls : List (Lbl α ε)) (pre post : List (Ev α Unit ε)) (n : Nat) (c : Sig α ε)
    (h : (exec retryWhenPolicy ls).log = pre ++ .recv (.ntf n) c :: post) : ∀ c', .recv (.ntf n) c' ∉ pre := by
  intro c' hc
  have h1 := legal _ ls pre _ post h
  cases c' with
  | next v => exact h1.2.2 rfl n v rfl hc
  | term t => exact h1.2.1 t hc

/-- When nobody is at work and it is not over, the last attempt has not ended, or its notifier has neither emitted nor ended. -/
theorem C34_goes_on (ls : List (Lbl α ε)) (hq : Quiet (exec retryWhenPolicy ls)) (hg : .gone ∉ (exec retryWhenPolicy ls).log)
    (he : ¬ Ended (exec retryWhenPolicy ls).log) :
    (∀ t, .recv (.src (attempts (exec retryWhenPolicy ls).log)) (.term t) ∉ (exec retryWhenPolicy ls).log) ∨
    (∃ e, .asked (attempts (exec retryWhenPolicy ls).log) e ∈ (exec retryWhenPolicy ls).log) ∧
      (∀ c, .recv (.ntf (attempts (exec retryWhenPolicy ls).log)) c ∉ (exec retryWhenPolicy ls).log) := by
  rcases (alive _ ls hq hg he).2.2 with h | ⟨h1, h2, h3⟩
  · exact .inl h
  · refine .inr ⟨h1, fun c => ?_⟩
    cases c with
    | next v => exact h3 rfl v
    | term t => exact h2 t

/-- The end: the completion of the last attempt; or the end of its notifier; or what the user's function, or a `subscribe`, has thrown. -/
theorem C34_end (ls : List (Lbl α ε)) (pre post : List (Ev α Unit ε)) (w : Who) (t : Term ε)
    (h : (exec retryWhenPolicy ls).log = pre ++ .beg w (.term t) :: post) :
    values pre = attemptValues pre ∧
    ((t = .completed ∧ .recv (.src (attempts pre)) (.term .completed) ∈ pre) ∨ .recv (.ntf (attempts pre)) (.term t) ∈ pre ∨
      ∃ e, t = .error e ∧ (.threw (attempts pre) e ∈ pre ∨ .denied (attempts pre) e ∈ pre)) := by
  have h1 := legal _ ls pre _ post h
  have h4 := h1.2.2.2.1
  rw [joined_plain rfl] at h4
  refine ⟨h4, ?_⟩
  rcases h1.2.2.2.2 with ⟨h2, h3⟩ | h2 | h2 | ⟨-, h2, -⟩
  · left
    cases t with
    | completed => exact ⟨rfl, h2⟩
    | error e => rcases h3 with h3 | ⟨-, h3⟩ <;> cases h3
  · exact .inr (.inl h2)
  · exact .inr (.inr h2)
  · cases h2

/-- The values of all attempts are forwarded in order. -/
theorem C34_prefix (ls : List (Lbl α ε)) : values (exec retryWhenPolicy ls).log <+: attemptValues (exec retryWhenPolicy ls).log := by
  have := values_pre retryWhenPolicy ls
  rwa [joined_plain rfl] at this

theorem C34_values (ls : List (Lbl α ε)) (hq : Quiet (exec retryWhenPolicy ls)) (hg : .gone ∉ (exec retryWhenPolicy ls).log)
    (he : ¬ Ended (exec retryWhenPolicy ls).log) : values (exec retryWhenPolicy ls).log = attemptValues (exec retryWhenPolicy ls).log := by
  have := values_eq retryWhenPolicy ls hq hg he
  rwa [joined_plain rfl] at this

end Rpp.Resub
