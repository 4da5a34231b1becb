import Verif.Resub.Legal

/-!
# C30 – C34: source::concat, repeat, start_with, retry, retry_when, on_error_resume_next

Attempts are numbered from 1: `opened n x` is the `n`-th subscription, to `x`; thread `src n` notifies on behalf of the `n`-th attempt, thread `ntf n` on
behalf of the observable that the user's function returned for its error.  Every theorem speaks of all interleavings of these threads at the granularity of
single atomic operations; `pre` is what has happened before the event in question.
-/

namespace Rpp.Resub

open Rpp.Comb (Sig Res)

variable {α β ε σ : Type}

/-- Every beginning of a history is a history. -/
theorem history_prefix (P : Policy β ε σ) (ls : List (Lbl α ε)) : ∀ {pre post : List (Ev α β ε)}, (exec P ls).log = pre ++ post →
    ∃ ls', (exec P ls').log = pre := by
  have hstep : ∀ (s : St α β ε σ) (l : Lbl α ε), (step P s l).log = s.log ∨ ∃ ev, (step P s l).log = s.log ++ [ev] := by
    intro s l
    rcases step_tr P s l with h | h
    · rw [h]; exact .inl rfl
    · generalize step P s l = s' at h ⊢
      cases h <;> first | exact .inl rfl | exact .inr ⟨_, rfl⟩
  have : ∀ (rs : List (Lbl α ε)) {pre post : List (Ev α β ε)}, (exec P rs.reverse).log = pre ++ post → ∃ ls', (exec P ls').log = pre := by
    intro rs
    induction rs with
    | nil =>
      intro pre post h
      refine ⟨[], ?_⟩
      have h : ([] : List (Ev α β ε)) = pre ++ post := h
      rw [(List.append_eq_nil_iff.mp h.symm).1]; rfl
    | cons l rs ih =>
      intro pre post h
      rw [List.reverse_cons, exec_snoc] at h
      rcases hstep (exec P rs.reverse) l with h1 | ⟨ev, h1⟩
      · rw [h1] at h; exact ih h
      · rw [h1] at h
        rcases List.eq_nil_or_concat post with rfl | ⟨post', x, rfl⟩
        · refine ⟨rs.reverse ++ [l], ?_⟩
          rw [exec_snoc, h1, h, List.append_nil]
        · rw [List.concat_eq_append, ← List.append_assoc] at h
          exact ih (List.append_inj_left' h rfl)
  intro pre post h
  have := @this ls.reverse pre post
  rw [List.reverse_reverse] at this
  exact this h

/-- The values of the attempts, one attempt after the other. -/
def attemptValues (log : List (Ev α β ε)) : List α := (List.range (attempts log)).flatMap fun k => sent (.src (k + 1)) log

theorem joined_plain {P : Policy β ε σ} (h : P.resume = false) (log : List (Ev α β ε)) : joined P (attempts log) log = attemptValues log := by
  simp [joined, attemptValues, h]

theorem mem_openings {log : List (Ev α β ε)} {n : Nat} {x : β} : (n, x) ∈ openings log ↔ .opened n x ∈ log := by
  unfold openings
  rw [List.mem_filterMap]
  constructor
  · rintro ⟨ev, h1, h2⟩
    cases ev <;> simp at h2
    obtain ⟨rfl, rfl⟩ := h2; exact h1
  · exact fun h => ⟨_, h, rfl⟩

theorem opened_range (P : Policy β ε σ) (ls : List (Lbl α ε)) {n : Nat} {x : β} (h : .opened n x ∈ (exec P ls).log) :
    0 < n ∧ n ≤ attempts (exec P ls).log ∧ itemAt P (n - 1) = some x := by
  rw [← mem_openings, openings_eq, List.mem_filterMap] at h
  obtain ⟨k, h1, h2⟩ := h
  cases hi : itemAt P k with
  | none => rw [hi] at h2; cases h2
  | some y =>
    rw [hi] at h2
    simp only [Option.map_some, Option.some.injEq, Prod.mk.injEq] at h2
    obtain ⟨rfl, rfl⟩ := h2
    have := List.mem_range.mp h1
    exact ⟨by omega, by omega, by simpa using hi⟩

/-- Notifiers exist only for policies that ask. -/
theorem All.no_ntf {P : Policy β ε σ} {s : St α β ε σ} {own : Option Who} {cur : Bool} (h : All P s own cur)
    (hP : ∀ st e, P.judge st (.error e) ≠ .ask) (n : Nat) :
    (∀ e, .asked n e ∉ s.log) ∧ (∀ e, .denied n e ∉ s.log) ∧ ∀ t, .recv (.ntf n) (.term t) ∉ s.log := by
  have h1 : ∀ e, .asked n e ∉ s.log := fun e he => hP _ _ (h.J.asked n e he).2
  refine ⟨h1, fun e he => ?_, fun t ht => ?_⟩
  · obtain ⟨e', -, h2⟩ := h.J.denied n e he; exact hP _ _ h2
  · have h4 := h.L.done _ _ ht
    cases hact : s.active (.ntf n) with
    | true =>
      obtain ⟨e, h5⟩ := (h.L.asked _).mp hact
      exact h1 e h5
    | false =>
      rcases h.I.fresh _ hact with h3 | h3
      · rw [h4] at h3; cases h3
      · cases h3

theorem All.origin_plain {P : Policy β ε σ} {s : St α β ε σ} {own : Option Who} {cur : Bool} (h : All P s own cur)
    (hP : ∀ st e, P.judge st (.error e) ≠ .ask) {n : Nat} {t : Term ε} (ho : Origin P s.log n t) :
    (.recv (.src n) (.term t) ∈ s.log ∧ P.judge (stAt P n) t ≠ .again) ∨ (∃ e, t = .error e ∧ .threw n e ∈ s.log) ∨
    (t = .completed ∧ itemAt P n = none ∧ (n = 0 ∨ .handed n ∈ s.log)) := by
  have hn := h.no_ntf hP n
  rcases ho with ⟨h1, h2⟩ | h2 | ⟨e, h2, h3 | h3⟩ | h2
  · exact .inl ⟨h1, by rcases h2 with h2 | ⟨h2, -⟩ <;> rw [h2] <;> simp⟩
  · exact absurd h2 (hn.2.2 t)
  · exact .inr (.inl ⟨e, h2, h3⟩)
  · exact absurd h3 (hn.2.1 e)
  · exact .inr (.inr h2)

/-- A source ends once. -/
theorem one_term (P : Policy β ε σ) (ls : List (Lbl α ε)) (w : Who) (t t' : Term ε) (h : .recv w (.term t) ∈ (exec P ls).log)
    (h' : .recv w (.term t') ∈ (exec P ls).log) : t = t' := by
  obtain ⟨pre, post, hs⟩ := mem_split h
  rw [hs, List.mem_append, List.mem_cons] at h'
  rcases h' with h' | h' | h'
  · exact absurd h' ((legal P ls pre _ post hs).2.1 t')
  · cases h'; rfl
  · obtain ⟨a, b, rfl⟩ := mem_split h'
    have := (legal P ls (pre ++ .recv w (.term t) :: a) (.recv w (.term t')) b (by rw [hs]; simp)).2.1 t
    exact absurd (by simp) this

theorem attempts_mono {l l' : List (Ev α β ε)} : attempts l ≤ attempts (l ++ l') := by
  simp [attempts, openings, List.filterMap_append]

theorem terminated (P : Policy β ε σ) (ls : List (Lbl α ε)) {n : Nat} {t : Term ε} (h : .recv (.src n) (.term t) ∈ (exec P ls).log) :
    0 < n ∧ n ≤ attempts (exec P ls).log := by
  obtain ⟨own, cur, ha⟩ := all P ls
  have h1 := ha.L.done _ _ h
  rw [ha.S.attempts]
  cases hact : (exec P ls).active (.src n) with
  | true => exact (ha.N.active n).mp hact
  | false =>
    rcases ha.I.fresh _ hact with h3 | h3
    · rw [h1] at h3; cases h3
    · cases h3

/-! ## C32: the hand-off is exact -/

/-- Never two: an attempt is started only when every earlier one has ended and been handed over; so there is never a second one for the same end.
Whatever the operator (`P` is any of the policies). -/
theorem C32_never_two (P : Policy β ε σ) (ls : List (Lbl α ε)) (pre post : List (Ev α β ε)) (n : Nat) (x : β)
    (h : (exec P ls).log = pre ++ .opened n x :: post) : n = attempts pre + 1 ∧ ∀ m, 0 < m → m < n → .handed m ∈ pre :=
  let h := legal P ls pre _ post h; ⟨h.1, h.2.2.1⟩

/-- The end of an attempt is handed over once, by that attempt while it is the last one. -/
theorem C32_handed_once (P : Policy β ε σ) (ls : List (Lbl α ε)) (pre post : List (Ev α β ε)) (n : Nat)
    (h : (exec P ls).log = pre ++ .handed n :: post) : .handed n ∉ pre ∧ .handed n ∉ post ∧ n = attempts pre := by
  have h1 := legal P ls pre _ post h
  refine ⟨h1.1, fun hp => ?_, h1.2.1⟩
  obtain ⟨a, b, hb⟩ := List.append_of_mem hp
  have := legal P ls (pre ++ .handed n :: a) (.handed n) b (by rw [h, hb]; simp)
  exact this.1 (by simp)

/-- Never zero: when no thread is at work, either the downstream observer has been told the end or is disposed, or there is an attempt, not handed over,
that has not ended (or, for the operators with a user's function, the observable it returned has not). -/
theorem C32_never_zero (P : Policy β ε σ) (ls : List (Lbl α ε)) (hq : Quiet (exec P ls)) (hg : .gone ∉ (exec P ls).log) (he : ¬ Ended (exec P ls).log) :
    0 < attempts (exec P ls).log ∧ .handed (attempts (exec P ls).log) ∉ (exec P ls).log ∧
    ((∀ t, .recv (.src (attempts (exec P ls).log)) (.term t) ∉ (exec P ls).log) ∨
     (∃ e, .asked (attempts (exec P ls).log) e ∈ (exec P ls).log) ∧ (∀ t, .recv (.ntf (attempts (exec P ls).log)) (.term t) ∉ (exec P ls).log) ∧
      (P.resume = false → ∀ v, .recv (.ntf (attempts (exec P ls).log)) (.next v) ∉ (exec P ls).log)) := alive P ls hq hg he

/-- So, when no thread is at work, every hand-over has led to exactly one attempt. -/
theorem C32_exactly_one (P : Policy β ε σ) (ls : List (Lbl α ε)) (hq : Quiet (exec P ls)) (hg : .gone ∉ (exec P ls).log) (he : ¬ Ended (exec P ls).log)
    (n : Nat) (h : .handed n ∈ (exec P ls).log) : ∃ x, .opened (n + 1) x ∈ (exec P ls).log ∧ ∀ y, .opened (n + 1) y ∈ (exec P ls).log → y = x := by
  obtain ⟨own, cur, ha⟩ := all P ls
  have hn := ha.N.handed n h
  have h2 := alive P ls hq hg he
  rw [← ha.S.attempts] at hn
  have hlt : n < attempts (exec P ls).log := by
    rcases Nat.lt_or_ge n (attempts (exec P ls).log) with h | h'
    · exact h
    · obtain rfl : n = attempts (exec P ls).log := by omega
      exact absurd h h2.2.1
  obtain ⟨x, hx⟩ := Option.isSome_iff_exists.mp (opened_of_lt P ls hlt)
  refine ⟨x, ?_, fun y hy => ?_⟩
  · rw [← mem_openings, openings_eq, List.mem_filterMap]
    exact ⟨n, by simpa using hlt, by simp [hx]⟩
  · have := (opened_range P ls hy).2.2
    simp only [Nat.add_sub_cancel, hx, Option.some.injEq] at this
    exact this.symm

/-- Concurrent attempts do not exist: what is notified comes from the last attempt (or what replaces it). -/
theorem C32_last_speaks (P : Policy β ε σ) (ls : List (Lbl α ε)) (pre post : List (Ev α β ε)) (w : Who) (c : Sig α ε)
    (h : (exec P ls).log = pre ++ .recv w c :: post) : w = .src (attempts pre) ∨ w = .ntf (attempts pre) :=
  (legal P ls pre _ post h).1

/-- The downstream observer gets one call at a time, and none after its end. -/
theorem C32_serialized (P : Policy β ε σ) (ls : List (Lbl α ε)) (pre post : List (Ev α β ε)) (w : Who) (o : Sig α ε)
    (h : (exec P ls).log = pre ++ .beg w o :: post) : busy pre = false ∧ .gone ∉ pre ∧ ¬ Ended pre := by
  have h := legal P ls pre _ post h
  cases o with
  | next v => exact ⟨h.1, h.2.1, h.2.2.1⟩
  | term t => exact ⟨h.1, h.2.1, h.2.2.1⟩

/-! ## C30: source::concat -/

theorem stAt_concat (xs : List β) (n : Nat) : stAt (concatPolicy xs : Policy β ε _) n = xs.drop n := by
  induction n with
  | zero => rfl
  | succ n ih =>
    rw [stAt, ih]
    cases h : xs.drop n with
    | nil =>
      have : xs.length ≤ n := by simpa using h
      simp only [concatPolicy]
      rw [List.drop_eq_nil_of_le (by omega)]
    | cons y ys => simp only [concatPolicy]; rw [← List.tail_drop, h, List.tail_cons]

theorem itemAt_concat (xs : List β) (n : Nat) : itemAt (concatPolicy xs : Policy β ε _) n = xs[n]? := by
  rw [itemAt, stAt_concat]
  cases h : xs.drop n with
  | nil =>
    have : xs.length ≤ n := by simpa using h
    simp [concatPolicy, this]
  | cons y ys =>
    have : xs[n]? = some y := by rw [← List.head?_drop, h]; rfl
    simp [concatPolicy, this]

theorem again_completed {P : Policy β ε σ} (hP : ∀ st t, P.judge st t = (match t with | .completed => .again | .error _ => .finish)) {log : List (Ev α β ε)} {n : Nat}
    (h : Again P log n) : .recv (.src n) (.term .completed) ∈ log := by
  rcases h with ⟨t, h1, h2⟩ | ⟨e, v, h1, h2, h3, h4⟩
  · rw [hP] at h2
    cases t with
    | completed => exact h1
    | error e => cases h2
  · rw [hP] at h2; cases h2

/-- The sources are subscribed in order, each once, each only after all before it have completed. -/
theorem C30_concat_order (xs : List β) (ls : List (Lbl α ε)) (pre post : List (Ev α β ε)) (n : Nat) (x : β)
    (h : (exec (concatPolicy xs) ls).log = pre ++ .opened n x :: post) :
    n = attempts pre + 1 ∧ xs[attempts pre]? = some x ∧ ∀ m, 0 < m → m < n → .recv (.src m) (.term .completed) ∈ pre := by
  have h1 := legal _ ls pre _ post h
  refine ⟨h1.1, by rw [← itemAt_concat (ε := ε)]; exact h1.2.1, fun m hm hn => ?_⟩
  obtain ⟨ls', h'⟩ := history_prefix _ ls h
  obtain ⟨own, cur, ha⟩ := all (concatPolicy xs) ls'
  rw [← h']
  exact again_completed (fun st t => by cases t <;> rfl) (ha.J.handed m (by rw [h']; exact h1.2.2.1 m hm hn))

/-- What has been subscribed to is a beginning of the list. -/
theorem C30_concat_items (xs : List β) (ls : List (Lbl α ε)) :
    (openings (exec (concatPolicy xs) ls).log).map Prod.snd = xs.take (attempts (exec (concatPolicy xs) ls).log) := by
  have h1 := openings_eq (concatPolicy xs) ls
  have h2 : ∀ k, k < attempts (exec (concatPolicy xs) ls).log → k < xs.length := fun k hk => by
    have := opened_of_lt (concatPolicy xs) ls hk
    rw [itemAt_concat] at this; simpa using this
  rw [h1]
  generalize attempts (exec (concatPolicy xs) ls).log = n at *
  clear h1
  induction n with
  | zero => rfl
  | succ n ih =>
    rw [List.range_succ, List.filterMap_append, List.map_append, ih (fun k hk => h2 k (by omega))]
    have := h2 n (by omega)
    rw [List.take_succ_eq_append_getElem this]
    simp [itemAt_concat, this]

/-- The output is always a beginning of the concatenation of their values … -/
theorem C30_concat_prefix (xs : List β) (ls : List (Lbl α ε)) :
    values (exec (concatPolicy xs) ls).log <+: attemptValues (exec (concatPolicy xs) ls).log := by
  have := values_pre (concatPolicy xs) ls
  rwa [joined_plain rfl] at this

/-- … and all of it when nobody is at work (unless the downstream observer has ended by itself) … -/
theorem C30_concat_values (xs : List β) (ls : List (Lbl α ε)) (hq : Quiet (exec (concatPolicy xs) ls)) (hg : .gone ∉ (exec (concatPolicy xs) ls).log)
    (he : ¬ Ended (exec (concatPolicy xs) ls).log) : values (exec (concatPolicy xs) ls).log = attemptValues (exec (concatPolicy xs) ls).log := by
  have := values_eq (concatPolicy xs) ls hq hg he
  rwa [joined_plain rfl] at this

/-- … and when the end is told. -/
theorem C30_concat_all_values (xs : List β) (ls : List (Lbl α ε)) (pre post : List (Ev α β ε)) (w : Who) (t : Term ε)
    (h : (exec (concatPolicy xs) ls).log = pre ++ .beg w (.term t) :: post) : values pre = attemptValues pre := by
  have := (legal _ ls pre _ post h).2.2.2.1
  rwa [joined_plain rfl] at this

/-- It completes only when all sources have been subscribed and have completed. -/
theorem C30_concat_completes_last (xs : List β) (ls : List (Lbl α ε)) (pre post : List (Ev α β ε)) (w : Who)
    (h : (exec (concatPolicy xs) ls).log = pre ++ .beg w (.term .completed) :: post) :
    (openings pre).map Prod.snd = xs ∧ ∀ m, 0 < m → m ≤ xs.length → .recv (.src m) (.term .completed) ∈ pre := by
  have h1 := legal _ ls pre _ post h
  obtain ⟨ls', rfl⟩ := history_prefix _ ls h
  obtain ⟨own, cur, ha⟩ := all (concatPolicy xs) ls'
  have hi := C30_concat_items (ε := ε) xs ls'
  have hex : ∀ m, .handed m ∈ (exec (concatPolicy xs) ls').log → .recv (.src m) (.term .completed) ∈ (exec (concatPolicy xs) ls').log := fun m hm =>
    again_completed (fun st t => by cases t <;> rfl) (ha.J.handed m hm)
  have hnone : xs.length ≤ attempts (exec (concatPolicy xs) ls').log ∧ (attempts (exec (concatPolicy xs) ls').log = 0 ∨
      .handed (attempts (exec (concatPolicy xs) ls').log) ∈ (exec (concatPolicy xs) ls').log) := by
    rcases ha.origin_plain (by simp [concatPolicy]) h1.2.2.2.2 with ⟨-, h2⟩ | ⟨e, h2, -⟩ | ⟨-, h2, h3⟩
    · exact absurd rfl h2
    · cases h2
    · rw [itemAt_concat] at h2
      exact ⟨by simpa using h2, h3⟩
  refine ⟨by rw [hi, List.take_of_length_le hnone.1], fun m hm hm' => hex m ?_⟩
  have hn := ha.S.attempts
  by_cases he : m = attempts (exec (concatPolicy xs) ls').log
  · rcases hnone.2 with h0 | h0
    · omega
    · rw [he]; exact h0
  · exact ha.J.before m hm (by omega)

/-- It does complete once all have completed (when nobody is at work). -/
theorem C30_concat_completes (xs : List β) (ls : List (Lbl α ε)) (hq : Quiet (exec (concatPolicy xs) ls))
    (hall : ∀ m, 0 < m → m ≤ xs.length → .recv (.src m) (.term .completed) ∈ (exec (concatPolicy xs) ls).log) :
    .gone ∈ (exec (concatPolicy xs) ls).log ∨ Ended (exec (concatPolicy xs) ls).log := by
  refine Classical.byContradiction fun hc => ?_
  have hc := not_or.mp hc
  obtain ⟨own, cur, ha⟩ := all (concatPolicy xs) ls
  have h := alive _ ls hq hc.1 hc.2
  have hle : attempts (exec (concatPolicy xs) ls).log ≤ xs.length := by
    have := opened_of_lt (concatPolicy xs) ls (k := attempts (exec (concatPolicy xs) ls).log - 1) (by omega)
    rw [itemAt_concat] at this
    have : attempts (exec (concatPolicy xs) ls).log - 1 < xs.length := by simpa using this
    omega
  rcases h.2.2 with h2 | ⟨⟨e, h2⟩, -⟩
  · exact h2 _ (hall _ h.1 hle)
  · have := (ha.J.asked _ e h2).2
    cases this

/-- An error told is the error of the last source subscribed, or was thrown by its `subscribe`. -/
theorem C30_concat_error_origin (xs : List β) (ls : List (Lbl α ε)) (pre post : List (Ev α β ε)) (w : Who) (e : ε)
    (h : (exec (concatPolicy xs) ls).log = pre ++ .beg w (.term (.error e)) :: post) :
    .recv (.src (attempts pre)) (.term (.error e)) ∈ pre ∨ .threw (attempts pre) e ∈ pre := by
  have h1 := legal _ ls pre _ post h
  obtain ⟨ls', rfl⟩ := history_prefix _ ls h
  obtain ⟨own, cur, ha⟩ := all (concatPolicy xs) ls'
  rcases ha.origin_plain (by simp [concatPolicy]) h1.2.2.2.2 with ⟨h2, -⟩ | ⟨e', h2, h3⟩ | ⟨h2, -⟩
  · exact .inl h2
  · cases h2; exact .inr h3
  · cases h2

/-- An error ends it: when nobody is at work, the downstream observer has been told (or is disposed); and nothing is subscribed afterwards
(`C30_concat_order`). -/
theorem C30_concat_error_ends (xs : List β) (ls : List (Lbl α ε)) (hq : Quiet (exec (concatPolicy xs) ls)) (n : Nat) (e : ε)
    (h : .recv (.src n) (.term (.error e)) ∈ (exec (concatPolicy xs) ls).log) :
    .gone ∈ (exec (concatPolicy xs) ls).log ∨ Ended (exec (concatPolicy xs) ls).log := by
  refine Classical.byContradiction fun hc => ?_
  have hc := not_or.mp hc
  obtain ⟨own, cur, ha⟩ := all (concatPolicy xs) ls
  have hal := alive _ ls hq hc.1 hc.2
  have hone := one_term (concatPolicy xs) ls
  obtain ⟨pre, post, hs⟩ := mem_split h
  have hok := legal _ ls pre _ post hs
  have hn := terminated (concatPolicy xs) ls h
  rcases hal.2.2 with h2 | ⟨⟨e', h2⟩, -⟩
  · by_cases hh : n = attempts (exec (concatPolicy xs) ls).log
    · subst hh; exact h2 _ h
    · have h3 := ha.J.before n hn.1 (by rw [← ha.S.attempts]; omega)
      have h4 := again_completed (fun st t => by cases t <;> rfl) (ha.J.handed n h3)
      have := hone _ _ _ h h4
      cases this
  · exact (ha.no_ntf (by simp [concatPolicy]) _).1 e' h2

end Rpp.Resub
