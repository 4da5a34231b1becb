import Verif.Time.DebounceEnd

/-!
# C38: `debounce`

The log (`Ev`) records arrivals, what the timer takes and when, the flush on completion and the
subscriber's callbacks.  The theorems hold for every number of source threads, every interleaving and
every scheduler, except where `Prompt` says that tasks run when they are due.
-/

namespace Rpp.Time.Debounce
variable {α ε : Type}

/-! ## Prefixes of a run -/

theorem Tr.log {d} {s s' : St α ε} (t : Tr d s s') :
    s'.log = s.log ∨ ∃ e, s'.log = s.log ++ [e] ∧ ∀ v n, e = .arrived v n → n = s.now := by
  cases t <;> first
    | exact .inl rfl
    | exact .inr ⟨_, rfl, by simp⟩
    | exact .inr ⟨_, rfl, by rintro v n ⟨⟩; rfl⟩

theorem exec_append (d) (ls ms : List (Lbl α ε)) : exec d (ls ++ ms) = ms.foldl (step d) (exec d ls) := by
  simp [exec]

theorem log_split (d) (ls : List (Lbl α ε)) (pre rest : List (Ev α ε)) (e : Ev α ε)
    (h : (exec d ls).log = pre ++ e :: rest) :
    ∃ ls1 ls2, ls = ls1 ++ ls2 ∧ (exec d ls1).log = pre ∧ ∀ v n, e = .arrived v n → n = (exec d ls1).now := by
  suffices hh : ∀ n (ls : List (Lbl α ε)), ls.length = n → ∀ rest, (exec d ls).log = pre ++ e :: rest →
      ∃ ls1 ls2, ls = ls1 ++ ls2 ∧ (exec d ls1).log = pre ∧ ∀ v n, e = .arrived v n → n = (exec d ls1).now from
    hh _ ls rfl rest h
  intro n
  induction n with
  | zero =>
    intro ls hn rest h
    rw [List.length_eq_zero_iff.mp hn] at h
    simp [exec] at h
  | succ n ih =>
    intro ls hn rest h
    rcases List.eq_nil_or_concat ls with rfl | ⟨ms, l, rfl⟩
    · cases hn
    · have hn' : ms.length = n := by simpa using hn
      simp only [List.concat_eq_append] at h ⊢
      rw [exec_append] at h
      simp only [List.foldl_cons, List.foldl_nil] at h
      have hcont : (∃ r, (exec d ms).log = pre ++ e :: r) → _ := fun ⟨r, hr⟩ => ih ms hn' r hr
      have hlog : (step d (exec d ms) l).log = (exec d ms).log ∨ ∃ e, (step d (exec d ms) l).log = (exec d ms).log ++ [e] ∧
          ∀ v n, e = .arrived v n → n = (exec d ms).now := by
        rcases step_tr d (exec d ms) l with h1 | h1
        · rw [h1]; exact .inl rfl
        · exact h1.log
      rcases hlog with h1 | ⟨f, h1, h2⟩
      · obtain ⟨a, b, h3, h4⟩ := hcont ⟨rest, by rw [← h1]; exact h⟩
        exact ⟨a, b ++ [l], by simp [h3], h4⟩
      · rw [h1] at h
        rcases split_snoc h with ⟨e1, -, e3⟩ | ⟨r, -, e2⟩
        · exact ⟨ms, [l], rfl, e3, fun v n hv => h2 v n (e1.trans hv)⟩
        · obtain ⟨a, b, h3, h4⟩ := hcont ⟨r, e2⟩
          exact ⟨a, b ++ [l], by simp [h3], h4⟩

theorem promptFrom_append (d) (s : St α ε) (ls ms : List (Lbl α ε)) (h : promptFrom d s (ls ++ ms) = true) :
    promptFrom d s ls = true := by
  induction ls generalizing s with
  | nil => rfl
  | cons l ls ih =>
    cases l with
    | tick k =>
      simp only [List.cons_append, promptFrom, Bool.and_eq_true] at h ⊢
      exact ⟨h.1, ih _ h.2⟩
    | _ => exact ih _ h

/-! ## The rule -/

/-- Values are emitted in source order, each at most once. -/
theorem C38_order (d : Nat) (ls : List (Lbl α ε)) :
    List.Sublist (values (exec d ls).log) (arrivals (exec d ls).log) :=
  (invV d ls).v1.out.trans (invV d ls).c1.out

/-- What the timer takes for emission, at any time `T`, is the newest value, not taken before, and it
arrived at least `d` before `T`. -/
theorem C38_quiet (d : Nat) (ls : List (Lbl α ε)) (pre rest : List (Ev α ε)) (v : α) (T : Nat)
    (h : (exec d ls).log = pre ++ .took v T :: rest) : ∃ t, pending pre = some (v, t) ∧ t + d ≤ T :=
  (invW d ls).took pre v T rest h

/-- Used in the statements and proofs of this file; models no code. -/
def NoArrival (l : List (Ev α ε)) : Prop := ∀ v t, .arrived v t ∉ l

theorem pending_mid (mid : List (Ev α ε)) (v : α) (t : Nat) (hn : NoArrival mid) (l : List (Ev α ε))
    (hl : pending l = some (v, t)) :
    pending (l ++ mid) = some (v, t) ∨ ∃ m1 e m2, mid = m1 ++ e :: m2 ∧
      pending (l ++ m1) = some (v, t) ∧ ((∃ u T, e = .took u T) ∨ ∃ o, e = .flush o) := by
  induction mid generalizing l with
  | nil => left; simpa using hl
  | cons e mid ih =>
    have hn' : NoArrival mid := fun v t h => hn v t (List.mem_cons_of_mem _ h)
    have hrec : pending (l ++ [e]) = some (v, t) → _ := fun h => ih hn' (l ++ [e]) h
    have hgo : pending (l ++ [e]) = some (v, t) → pending (l ++ e :: mid) = some (v, t) ∨ ∃ m1 e' m2,
        e :: mid = m1 ++ e' :: m2 ∧ pending (l ++ m1) = some (v, t) ∧
          ((∃ u T, e' = .took u T) ∨ ∃ o, e' = .flush o) := by
      intro h
      rcases hrec h with h1 | ⟨m1, e', m2, h1, h2, h3⟩
      · left; simpa using h1
      · exact .inr ⟨e :: m1, e', m2, by simp [h1], by simpa using h2, h3⟩
    cases e with
    | arrived u n => exact absurd List.mem_cons_self (hn u n)
    | took u T => exact .inr ⟨[], _, mid, rfl, by simpa using hl, .inl ⟨u, T, rfl⟩⟩
    | flush o => exact .inr ⟨[], _, mid, rfl, by simpa using hl, .inr ⟨o, rfl⟩⟩
    | left u => exact hgo (by rw [pending_left, hl])
    | recv x => exact hgo (by rw [pending_recv, hl])
    | beg x => exact hgo (by rw [pending_beg, hl])
    | fin x => exact hgo (by rw [pending_fin, hl])
    | gone => exact hgo (by rw [pending_gone, hl])

theorem pending_none (mid l : List (Ev α ε)) (hn : NoArrival mid) (hl : pending l = none) :
    pending (l ++ mid) = none := by
  induction mid generalizing l with
  | nil => simpa using hl
  | cons e mid ih =>
    have hn' : NoArrival mid := fun v t h => hn v t (List.mem_cons_of_mem _ h)
    have := ih (l ++ [e]) hn' (by
      cases e <;> first
        | exact pending_took _ _ _
        | exact pending_flush _ _
        | (rw [pending_snoc]; exact hl)
        | exact absurd List.mem_cons_self (hn _ _))
    simpa using this

/-- A value that is followed by a newer one in less than `d` is not taken by the timer. -/
theorem C38_superseded (d : Nat) (ls : List (Lbl α ε)) (pre mid rest : List (Ev α ε)) (v w : α) (t t' : Nat)
    (h : (exec d ls).log = pre ++ .arrived v t :: mid ++ .arrived w t' :: rest) (hn : NoArrival mid)
    (ht : t' < t + d) (u : α) (T : Nat) : .took u T ∉ mid := by
  intro hu
  obtain ⟨a, b, rfl⟩ := List.append_of_mem hu
  have hna : NoArrival a := fun v t h => hn v t (by simp [h])
  have hp0 : pending (pre ++ [.arrived v t]) = some (v, t) := pending_arrived _ _ _
  have hmono := (invW d ls).mono _ _ _ _ h
  have hT' : T ≤ t' := hmono u T (by simp)
  obtain ⟨t0, hq, hqt⟩ := C38_quiet d ls (pre ++ .arrived v t :: a) (b ++ .arrived w t' :: rest) u T (by simp [h])
  have hq' : pending (pre ++ [.arrived v t] ++ a) = some (u, t0) := by simpa using hq
  rcases pending_mid a v t hna _ hp0 with h1 | ⟨m1, e, m2, rfl, h2, h3⟩
  · rw [h1] at hq'; cases hq'; omega
  · rcases h3 with ⟨u1, T1, rfl⟩ | ⟨o, rfl⟩
    · have e1 : T1 ≤ t' := hmono u1 T1 (by simp)
      obtain ⟨t1, hr, hrt⟩ := C38_quiet d ls (pre ++ .arrived v t :: m1)
        (m2 ++ .took u T :: (b ++ .arrived w t' :: rest)) u1 T1 (by simp [h])
      have hr' : pending (pre ++ [.arrived v t] ++ m1) = some (u1, t1) := by simpa using hr
      rw [h2] at hr'; cases hr'; omega
    · have hn2 : NoArrival m2 := fun v t h => hna v t (by simp [h])
      have := pending_none m2 (pre ++ [.arrived v t] ++ m1 ++ [.flush o]) hn2 (pending_flush _ _)
      rw [show pre ++ [.arrived v t] ++ m1 ++ [.flush o] ++ m2 = pre ++ [.arrived v t] ++ (m1 ++ .flush o :: m2) by
        simp, hq'] at this
      cases this

/-- As long as the source has not ended and the subscriber has not left. -/
def Open (log : List (Ev α ε)) : Prop := log.any Ev.isStop = false

theorem never_stale (d : Nat) (ls : List (Lbl α ε)) (hp : Prompt d ls) (ho : Open (exec d ls).log)
    (v : α) (t : Nat) (hv : pending (exec d ls).log = some (v, t)) : (exec d ls).now ≤ t + d := by
  have hL := invL d ls
  have hK := invK d ls
  have hT := invT d ls
  have hP := invP d ls hp
  have hd := (hT.td _ _ hv).1
  have hf : (exec d ls).log.any Ev.isFlush = false := by
    cases hh : (exec d ls).log.any Ev.isFlush
    · rfl
    · have := hK.sf hh; rw [ho] at this; cases this
  have hdead : (exec d ls).dead = false := by
    cases hh : (exec d ls).dead
    · rfl
    · have := hK.st (hL.dg hh); rw [ho] at this; cases this
  have hlook := (hK.lf hf hdead (by rw [hd]; simp)).2
  cases ht : (exec d ls).tasks ((exec d ls).fresh - 1) with
  | waiting tp =>
    have h1 := hP.wait _ _ ht
    have h2 := hT.tw _ _ _ ht hd
    omega
  | started => exact hP.run _ _ ht hd
  | _ => rw [ht] at hlook; cases hlook

theorem took_or_waits (d : Nat) (ls : List (Lbl α ε)) (hp : Prompt d ls) (pre mid : List (Ev α ε)) (v : α) (t : Nat)
    (h : (exec d ls).log = pre ++ .arrived v t :: mid) (hn : NoArrival mid) (ho : Open (exec d ls).log) :
    .took v (t + d) ∈ mid ∨ (exec d ls).now ≤ t + d := by
  have hp0 : pending (pre ++ [.arrived v t]) = some (v, t) := pending_arrived _ _ _
  rcases pending_mid mid v t hn _ hp0 with h1 | ⟨m1, e, m2, rfl, h2, h3⟩
  · exact .inr (never_stale d ls hp ho v t (by rw [h]; simpa using h1))
  · rcases h3 with ⟨u1, T1, rfl⟩ | ⟨o, rfl⟩
    · left
      have hl : (exec d ls).log = (pre ++ .arrived v t :: m1) ++ .took u1 T1 :: m2 := by simp [h]
      obtain ⟨t1, hr, hrt⟩ := C38_quiet d ls _ _ _ _ hl
      have hr' : pending (pre ++ [.arrived v t] ++ m1) = some (u1, t1) := by simpa using hr
      have hT := (invP d ls hp).took _ _ _ _ hl _ _ hr
      rw [h2] at hr'; cases hr'
      have : T1 = t + d := by omega
      subst this
      simp
    · have := (invK d ls).sf (by rw [h]; simp [Ev.isFlush])
      rw [ho] at this; cases this

/-- With a prompt scheduler a value that is not followed by a newer one within `d` is taken by the
timer, exactly `d` after it arrived.  (`mid`: what happens until the next value arrives at `t'`.) -/
theorem C38_emits (d : Nat) (ls : List (Lbl α ε)) (hp : Prompt d ls) (pre mid rest : List (Ev α ε)) (v w : α)
    (t t' : Nat) (h : (exec d ls).log = pre ++ .arrived v t :: mid ++ .arrived w t' :: rest) (hn : NoArrival mid)
    (ho : Open (pre ++ .arrived v t :: mid)) (ht : t + d < t') : .took v (t + d) ∈ mid := by
  obtain ⟨ls1, ls2, h1, h2, h3⟩ := log_split d ls _ _ _ h
  have hp1 : Prompt d ls1 := promptFrom_append d {} ls1 ls2 (by rw [← h1]; exact hp)
  rcases took_or_waits d ls1 hp1 pre mid v t h2 hn (by rw [h2]; exact ho) with h4 | h4
  · exact h4
  · have := h3 w t' rfl; omega

/-- The same for the last value, once more than `d` has passed. -/
theorem C38_emits_last (d : Nat) (ls : List (Lbl α ε)) (hp : Prompt d ls) (pre mid : List (Ev α ε)) (v : α)
    (t : Nat) (h : (exec d ls).log = pre ++ .arrived v t :: mid) (hn : NoArrival mid)
    (ho : Open (exec d ls).log) (ht : t + d < (exec d ls).now) : .took v (t + d) ∈ mid := by
  rcases took_or_waits d ls hp pre mid v t h hn ho with h4 | h4
  · exact h4
  · omega

/-- Whatever the scheduler: as long as the source has not ended and the subscriber has not left, the
newest value, if not taken yet, has a task that waits for it, no later than `d` after it arrived, or
that is looking at the clock. -/
theorem C38_timer (d : Nat) (ls : List (Lbl α ε)) (ho : Open (exec d ls).log) (v : α) (t : Nat)
    (hv : pending (exec d ls).log = some (v, t)) :
    ∃ k, (∃ tp, (exec d ls).tasks k = .waiting tp ∧ tp ≤ t + d) ∨ (exec d ls).tasks k = .started := by
  have hL := invL d ls
  have hK := invK d ls
  have hT := invT d ls
  have hd := (hT.td _ _ hv).1
  have hf : (exec d ls).log.any Ev.isFlush = false := by
    cases hh : (exec d ls).log.any Ev.isFlush
    · rfl
    · have := hK.sf hh; rw [ho] at this; cases this
  have hdead : (exec d ls).dead = false := by
    cases hh : (exec d ls).dead
    · rfl
    · have := hK.st (hL.dg hh); rw [ho] at this; cases this
  have hlook := (hK.lf hf hdead (by rw [hd]; simp)).2
  refine ⟨(exec d ls).fresh - 1, ?_⟩
  cases ht : (exec d ls).tasks ((exec d ls).fresh - 1) with
  | waiting tp => exact .inl ⟨tp, rfl, hT.tw _ _ _ ht hd⟩
  | started => exact .inr rfl
  | _ => rw [ht] at hlook; cases hlook

/-- What the timer takes is delivered: when no task is running, the source has not ended and the
subscriber has not left, the callbacks so far are exactly those of the values taken, in order. -/
theorem C38_delivered (d : Nat) (ls : List (Lbl α ε)) (ho : Open (exec d ls).log)
    (hw : (exec d ls).worker = none) : values (exec d ls).log = chosen (exec d ls).log := by
  have hL := invL d ls
  have hK := invK d ls
  have hV := invV d ls
  refine (hV.eq2 (fun t => ?_) ?_ ?_).symm
  · cases hv : ((exec d ls).tasks t).val? with
    | none => rfl
    | some v =>
      have : ((exec d ls).tasks t).active = true := by
        revert hv; cases (exec d ls).tasks t <;> simp [TPc.val?, TPc.active]
      have := hL.wk t this
      rw [hw] at this; cases this
  · cases hh : (exec d ls).gone
    · rfl
    · have := hK.st hh; rw [ho] at this; cases this
  · cases hh : (exec d ls).log.any Ev.isFlush
    · rfl
    · have := hK.sf hh; rw [ho] at this; cases this

/-! ## The end of the source -/

/-- Completion: before the completion callback, the newest value, if the timer has not taken it, is
delivered, and nothing else in between.  If the timer was not just delivering a value (`onWay`), all
it ever took has been delivered, too. -/
theorem C38_flush_partial (d : Nat) (ls : List (Lbl α ε)) (pre rest : List (Ev α ε))
    (h : (exec d ls).log = pre ++ .beg .done :: rest) :
    ∃ p q, pre = p ++ .flush ((pending p).map (·.1)) :: q ∧ values q = ((pending p).map (·.1)).toList ∧
      (onWay p = 0 → values p = chosen p) := by
  obtain ⟨p, o, q, h1, h2, h3⟩ := (invG d ls).cd pre rest h
  have ho := (invW d ls).flush p o (q ++ .beg .done :: rest) (by simp [h, h1])
  subst ho
  exact ⟨p, q, h1, by simpa using h2, h3⟩

/-- Error: no value is delivered any more, the newest one is dropped. -/
theorem C38_error_drops (d : Nat) (ls : List (Lbl α ε)) (pre rest : List (Ev α ε)) (e : ε)
    (h : (exec d ls).log = pre ++ .recv (.err e) :: rest) : values rest = [] :=
  (invZ d ls).z2 pre e rest h

/-- Nothing is delivered after a terminal event. -/
theorem C38_terminal_last (d : Nat) (ls : List (Lbl α ε)) (pre rest : List (Ev α ε)) (x : Item α ε)
    (h : (exec d ls).log = pre ++ .beg x :: rest) (hx : x.term = true) : delivered rest = [] :=
  (invZ d ls).z1 pre x rest h hx

/-- The subscriber's callbacks never overlap. -/
theorem C38_serial (d : Nat) (ls : List (Lbl α ε)) :
    running (exec d ls).log = 0 ∨ running (exec d ls).log = 1 := by
  have hE := invE d ls
  by_cases h1 : ∃ i, ((exec d ls).calls i).calling = true
  · obtain ⟨i, hi⟩ := h1; exact .inr (hE.r1 i hi)
  · by_cases h2 : ∃ t, ((exec d ls).tasks t).calling = true
    · obtain ⟨t, ht⟩ := h2; exact .inr (hE.r2 t ht)
    · left
      apply hE.r0
      · intro i; cases hh : ((exec d ls).calls i).calling
        · rfl
        · exact absurd ⟨i, hh⟩ h1
      · intro i; cases hh : ((exec d ls).tasks i).calling
        · rfl
        · exact absurd ⟨i, hh⟩ h2

/-! ## The race -/

/-- A value that was quiet for `d`, and that the timer took before the source completed, is delivered
before the completion. -/
def NoLoss (α ε : Type) : Prop :=
  ∀ (d : Nat) (ls : List (Lbl α ε)) (pre rest : List (Ev α ε)) (v : α) (T : Nat),
    (exec d ls).log = pre ++ .beg .done :: rest → .gone ∉ pre → .took v T ∈ pre → v ∈ values pre

/-- It is not: between taking the value (`m_mutex`) and locking the observer, the completion can come
first; the value is lost. -/
theorem C38_race_refutes : ¬ NoLoss Nat Nat := by
  intro h
  have := h 5 [.arrive 0 (.val 7), .call 0, .tick 5, .task 0, .task 0, .arrive 0 .done, .call 0, .call 0, .call 0]
    [.arrived 7 0, .took 7 5, .recv .done, .flush none] [] 7 5 (by decide) (by decide) (by decide)
  exact absurd this (by decide)

/-! ## Concrete runs -/

/-- Period 5; values 1 at 0, 2 at 3 (supersedes 1), emitted at 8; 3 at 20; completion at 21 flushes it. -/
def demo : List (Lbl Nat Nat) :=
  [.arrive 0 (.val 1), .call 0, .tick 3, .arrive 0 (.val 2), .call 0, .tick 2, .task 0, .task 0, .tick 3,
   .task 0, .task 0, .task 0, .task 0, .task 0, .task 0, .tick 12, .arrive 0 (.val 3), .call 0, .tick 1,
   .arrive 0 .done, .call 0, .call 0, .call 0, .call 0, .call 0, .call 0, .call 0]

example : (exec 5 demo).log = [.arrived 1 0, .arrived 2 3, .took 2 8, .beg (.val 2), .fin (.val 2), .left 2,
    .arrived 3 20, .recv .done, .flush (some 3), .beg (.val 3), .fin (.val 3), .beg .done, .fin .done] := by decide

example : Prompt 5 demo := by unfold Prompt; decide

/-- `C38_superseded` and `C38_emits` apply. -/
example : (exec 5 demo).log = [] ++ .arrived 1 0 :: [] ++ .arrived 2 3 :: [.took 2 8, .beg (.val 2), .fin (.val 2),
      .left 2, .arrived 3 20, .recv .done, .flush (some 3), .beg (.val 3), .fin (.val 3), .beg .done, .fin .done] ∧
    (3 : Nat) < 0 + 5 := by decide

example : (exec 5 demo).log = [.arrived 1 0] ++ .arrived 2 3 :: [.took 2 8, .beg (.val 2), .fin (.val 2), .left 2] ++
      .arrived 3 20 :: [.recv .done, .flush (some 3), .beg (.val 3), .fin (.val 3), .beg .done, .fin .done] ∧
    NoArrival ([.took 2 8, .beg (.val 2), .fin (.val 2), .left 2] : List (Ev Nat Nat)) ∧
    Open ([.arrived 1 0] ++ .arrived 2 3 :: [.took 2 8, .beg (.val 2), .fin (.val 2), .left 2] : List (Ev Nat Nat)) ∧
    3 + 5 < 20 :=
  ⟨by decide, by intro v t; simp, by unfold Open; decide, by decide⟩

/-- `C38_emits_last`, `C38_delivered`: before the third value arrives. -/
example : Prompt 5 (demo.take 16) ∧ (exec 5 (demo.take 16)).now = 20 ∧ (exec 5 (demo.take 16)).worker = none ∧
    (exec 5 (demo.take 16)).log = [.arrived 1 0] ++ .arrived 2 3 :: [.took 2 8, .beg (.val 2), .fin (.val 2), .left 2] ∧
    Open (exec 5 (demo.take 16)).log := by unfold Open Prompt; decide

/-- `C38_timer`: after the second value. -/
example : Open (exec 5 (demo.take 5)).log ∧ pending (exec 5 (demo.take 5)).log = some (2, 3) ∧
    (exec 5 (demo.take 5)).tasks 0 = .waiting 5 := by unfold Open; decide

/-- An error drops the value that is waiting. -/
example : (exec 5 [.arrive 0 (.val 1), .call 0, .arrive 0 (.err 9), .call 0, .call 0, .call 0, .call 0, .call 0,
    .tick 9, .task 0, .task 0] : St Nat Nat).log =
    [.arrived 1 0, .recv (.err 9), .beg (.err 9), .fin (.err 9)] := by decide

end Rpp.Time.Debounce
