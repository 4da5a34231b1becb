import Verif.Source.Interval

/-!
# `interval` on each scheduler: proofs

The logs of the scheduler models seen as timelines, and the argument of `Interval.notEarly_of` for each of them.
-/

namespace Rpp.Interval

open Rpp.Sched

/-! ## new_thread -/

/-- The timeline of a `new_thread` worker (also of each thread of a thread pool). -/
def ntEv : NT.Ev → Option PEv
  | .call i d => some (.call i d)
  | .ctcall i d => some (.call i d)
  | .start e t => some (.start e.id t)
  | .rerun e t => some (.start e.id t)
  | .fin i _ r => some (.fin i r)
  | _ => none

/-- Used in the proofs; models no code. -/
def ntLine (l : List NT.Ev) : List PEv := l.filterMap ntEv

theorem ntLine_snoc (l : List NT.Ev) (ev : NT.Ev) : ntLine (l ++ [ev]) = ntLine l ++ (ntEv ev).toList := by
  simp only [ntLine, List.filterMap_append, List.filterMap_cons, List.filterMap_nil]
  cases ntEv ev <;> rfl

/-- Task being run. -/
def ntRun (id : Nat) : NT.Mode → Nat
  | .run e => if e.id = id then 1 else 0
  | _ => 0

/-- Invariant of the proofs; models no code. -/
structure NTInv (id : Nat) (s : NT.St) : Prop where
  alt : Alt id (ntLine s.log)
  bal : runs id (ntLine s.log) = fins id (ntLine s.log) + ntRun id s.mode

theorem NTInv.quiet {id : Nat} {s s' : NT.St} (h : NTInv id s) (ev : NT.Ev) (hl : s'.log = s.log ++ [ev])
    (he : ntEv ev = none ∨ ∃ i d, ntEv ev = some (.call i d)) (hm : ntRun id s'.mode = ntRun id s.mode) :
    NTInv id s' := by
  rcases he with he | ⟨i, d, he⟩
  · constructor <;> simp only [hl, ntLine_snoc, he, Option.toList, List.append_nil, hm]
    · exact h.alt
    · exact h.bal
  · constructor <;> simp only [hl, ntLine_snoc, he, Option.toList, hm]
    · exact h.alt.snoc (by simp) (by simp)
    · simp only [runs_snoc, fins_snoc, Nat.add_zero]; exact h.bal

theorem NTInv.same {id : Nat} {s s' : NT.St} (h : NTInv id s) (hl : s'.log = s.log)
    (hm : ntRun id s'.mode = ntRun id s.mode) : NTInv id s' := by
  constructor
  · rw [hl]; exact h.alt
  · rw [hl, hm]; exact h.bal

theorem NTInv.start {id : Nat} {s s' : NT.St} (h : NTInv id s) (ev : NT.Ev) (e : Ent) (t : Int)
    (hl : s'.log = s.log ++ [ev]) (he : ntEv ev = some (.start e.id t)) (hm : ntRun id s.mode = 0)
    (hm' : s'.mode = .run e) : NTInv id s' := by
  have hb := h.bal
  rw [hm] at hb
  constructor <;> simp only [hl, ntLine_snoc, he, Option.toList, hm']
  · exact h.alt.snoc (fun u hu => hb) (by simp)
  · simp only [runs_snoc, fins_snoc, Nat.add_zero, ntRun]; omega

theorem NTInv.fin {id : Nat} {s s' : NT.St} (h : NTInv id s) (e : Ent) (t : Int) (r : Res)
    (hl : s'.log = s.log ++ [.fin e.id t r]) (hm : s.mode = .run e) (hm' : ntRun id s'.mode = 0) : NTInv id s' := by
  have hb := h.bal
  rw [hm] at hb
  simp only [ntRun] at hb
  constructor <;> simp only [hl, ntLine_snoc, ntEv, Option.toList, hm']
  · refine h.alt.snoc (by simp) (fun u hu => ?_)
    simp only [PEv.fin.injEq] at hu
    rw [if_pos hu.1] at hb; exact hb
  · simp only [runs_snoc, fins_snoc, Nat.add_zero]; omega

theorem NTInv.step {c : NT.Cfg} {id : Nat} {s : NT.St} (h : NTInv id s) (l : NT.Lbl) : NTInv id (NT.step c s l) := by
  cases l with
  | tick d => exact h.same rfl rfl
  | defer tp =>
    have h1 : NTInv id (s.emit (.call s.next tp)) := h.quiet _ rfl (.inr ⟨_, _, rfl⟩) rfl
    exact h1.quiet (.sched ⟨tp, s.next⟩ s.now) rfl (.inl rfl) rfl
  | store i =>
    simp only [NT.step]; split
    · exact h.quiet _ rfl (.inl rfl) rfl
    · exact h
  | ctDefer tp =>
    simp only [NT.step]; split
    · have h1 : NTInv id ({ s.emit (.ctcall s.next tp) with next := s.next + 1 }) := h.quiet (.ctcall s.next tp) rfl (.inr ⟨_, _, rfl⟩) rfl
      split
      · exact h1
      · exact h1.quiet (.sched ⟨tp, s.next⟩ s.now) rfl (.inl rfl) rfl
    · exact h
  | dispose x => exact h.quiet (.disp x) rfl (.inl rfl) rfl
  | stop => exact h.quiet .stop rfl (.inl rfl) rfl
  | work =>
    simp only [NT.step]
    split
    · rename_i hm
      simp only [NT.loopStep]
      split
      · split
        · exact h.quiet .exit rfl (.inl rfl) (by simp [NT.St.emit, hm, ntRun])
        · exact h
      · split
        · exact h.quiet (.drop _) rfl (.inl rfl) rfl
        · split
          · exact h.same rfl (by simp [hm, ntRun])
          · exact h.start (.start _ s.now) _ s.now rfl rfl (by simp [hm, ntRun]) rfl
    · rename_i dl hm
      simp only [NT.waitStep]
      split
      · exact h.same rfl (by simp [hm, ntRun])
      · split
        · exact h.same rfl (by simp [hm, ntRun])
        · split
          · exact h.same rfl (by simp [hm, ntRun])
          · exact h.same rfl rfl
    · exact h
  | ret r =>
    simp only [NT.step]
    split
    · rename_i e hm
      have h1 : NTInv id { s.emit (.fin e.id s.now r) with mode := .loop } := h.fin e s.now r rfl hm rfl
      simp only [NT.retStep]
      cases r with
      | stop => exact h1
      | throw => exact h1.quiet (.err e.id) rfl (.inl rfl) rfl
      | again v =>
        simp only
        split
        · exact h1
        · split
          · exact h1.start (.rerun ⟨_, e.id⟩ s.now) ⟨_, e.id⟩ s.now rfl rfl rfl rfl
          · exact h1.quiet (.sched ⟨_, e.id⟩ s.now) rfl (.inl rfl) rfl
    · exact h

theorem NTInv.exec {c : NT.Cfg} {id : Nat} (ls : List NT.Lbl) : NTInv id (NT.exec c ls) := by
  unfold NT.exec
  suffices h : ∀ s, NTInv id s → NTInv id (ls.foldl (NT.step c) s) from
    h _ ⟨⟨by simp [ntLine], by simp [ntLine]⟩, rfl⟩
  induction ls with
  | nil => exact fun s h => h
  | cons l ls ih => exact fun s h => ih _ (h.step l)

theorem nt_base {k : Nat → Kind} {id : Nat} {p : Int} (hk : k id = .fromThis) (l : List NT.Ev)
    (hp : ∀ r, .fin id r ∈ ntLine l → r = .again p) : NT.requested k l id = base id p (ntLine l) := by
  induction l using snoc_ind with
  | h0 => rfl
  | h1 l ev ih =>
    rw [NT.requested_snoc, ntLine_snoc]
    have hp' : ∀ r, .fin id r ∈ ntLine l → r = .again p := fun r hr => hp r (by rw [ntLine_snoc]; simp [hr])
    rw [ih hp']
    cases ev with
    | fin i t r =>
      simp only [ntEv, Option.toList, base_snoc]
      by_cases hi : i = id
      · subst hi
        have := hp r (by rw [ntLine_snoc]; simp [ntEv])
        subst this
        simp [NT.reqStep, hk]
      · cases r <;> simp [NT.reqStep, hi]
    | _ => simp [ntEv, NT.reqStep, base_snoc]

theorem nt_notEarly {c : NT.Cfg} (ls : List NT.Lbl) (id : Nat) (t0 p : Int) (hk : c.kind id = .fromThis)
    (hi : IsInterval id t0 p (ntLine (NT.exec c ls).log)) : NotEarly id t0 p (ntLine (NT.exec c ls).log) := by
  refine notEarly_of hi (NTInv.exec ls).alt ?_
  intro pre t post he
  obtain ⟨a, x, b, h1, h2, rfl, rfl⟩ := split_filterMap he
  have hper : ∀ r, .fin id r ∈ ntLine a → r = .again p := fun r hr => hi.period r (by
    rw [h1, ntLine, List.filterMap_append]; exact List.mem_append_left _ hr)
  have hx : (∃ e, x = .start e t ∧ e.id = id) ∨ ∃ e, x = .rerun e t ∧ e.id = id := by
    cases x <;> simp [ntEv] at h2
    · exact .inl ⟨_, by rw [h2.2], h2.1⟩
    · exact .inr ⟨_, by rw [h2.2], h2.1⟩
  have hn : ∃ e : Ent, e.id = id ∧ NT.requested c.kind a e.id = some e.tp ∧ e.tp ≤ t := by
    rcases hx with ⟨e, rfl, hid⟩ | ⟨e, rfl, hid⟩
    · exact ⟨e, hid, NT.C61_not_early ls a b e t (.inl h1)⟩
    · exact ⟨e, hid, NT.C61_not_early ls a b e t (.inr h1)⟩
  obtain ⟨e, hid, hr, hle⟩ := hn
  subst hid
  exact ⟨e.tp, by rw [← hr, nt_base hk a hper]; rfl, hle⟩

/-! ## run_loop -/

/-- The timeline of a run loop. -/
def rlEv : RunLoop.Ev → Option PEv
  | .call i d => some (.call i d)
  | .start _ e t => some (.start e.id t)
  | .fin _ i _ r => some (.fin i r)
  | _ => none

/-- Used in the proofs; models no code. -/
def rlLine (l : List RunLoop.Ev) : List PEv := l.filterMap rlEv

theorem rlLine_snoc (l : List RunLoop.Ev) (ev : RunLoop.Ev) :
    rlLine (l ++ [ev]) = rlLine l ++ (rlEv ev).toList := by
  simp only [rlLine, List.filterMap_append, List.filterMap_cons, List.filterMap_nil]
  cases rlEv ev <;> rfl

/-- The call is running task `id`. -/
def rlRun (id : Nat) : RunLoop.Call → Bool
  | .run e => e.id == id
  | _ => false

/-- Invariant of the proofs; models no code. -/
structure RLInv (id : Nat) (s : RunLoop.St) : Prop where
  alt : Alt id (rlLine s.log)
  idle : (∀ k, rlRun id (s.calls k) = false) → runs id (rlLine s.log) = fins id (rlLine s.log)
  busy : ∀ k, rlRun id (s.calls k) = true → runs id (rlLine s.log) = fins id (rlLine s.log) + 1

theorem RLInv.same {id : Nat} {s s' : RunLoop.St} (h : RLInv id s) (hl : s'.log = s.log)
    (hc : ∀ k, rlRun id (s'.calls k) = rlRun id (s.calls k)) : RLInv id s' := by
  constructor
  · rw [hl]; exact h.alt
  · rw [hl]; intro hk; exact h.idle fun k => by rw [← hc]; exact hk k
  · rw [hl]; intro k hk; exact h.busy k (by rw [← hc]; exact hk)

theorem RLInv.quiet {id : Nat} {s s' : RunLoop.St} (h : RLInv id s) (ev : RunLoop.Ev) (hl : s'.log = s.log ++ [ev])
    (he : rlEv ev = none ∨ ∃ i d, rlEv ev = some (.call i d))
    (hc : ∀ k, rlRun id (s'.calls k) = rlRun id (s.calls k)) : RLInv id s' := by
  have hidle : (∀ k, rlRun id (s'.calls k) = false) → runs id (rlLine s.log) = fins id (rlLine s.log) :=
    fun hk => h.idle fun k => by rw [← hc]; exact hk k
  have hbusy : ∀ k, rlRun id (s'.calls k) = true → runs id (rlLine s.log) = fins id (rlLine s.log) + 1 :=
    fun k hk => h.busy k (by rw [← hc]; exact hk)
  rcases he with he | ⟨i, d, he⟩
  · constructor <;> simp only [hl, rlLine_snoc, he, Option.toList, List.append_nil]
    · exact h.alt
    · exact hidle
    · exact hbusy
  · constructor <;> simp only [hl, rlLine_snoc, he, Option.toList]
    · exact h.alt.snoc (by simp) (by simp)
    · simp only [runs_snoc, fins_snoc, Nat.add_zero]; exact hidle
    · simp only [runs_snoc, fins_snoc, Nat.add_zero]; exact hbusy

theorem RLInv.step {c : RunLoop.Cfg} {id : Nat} {s : RunLoop.St} (hI : RunLoop.Inv c s) (h : RLInv id s)
    (l : RunLoop.Lbl) : RLInv id (RunLoop.step c s l) := by
  have hnew : ∀ k, s.nextCall ≤ k → rlRun id (s.calls k) = false := fun k hk => by
    rw [(hI.new k hk).1]; rfl
  have hset : ∀ (k0 : Nat) (x : RunLoop.Call), rlRun id x = rlRun id (s.calls k0) → ∀ k,
      rlRun id (if k = k0 then x else s.calls k) = rlRun id (s.calls k) := by
    intro k0 x hx k
    by_cases hk : k = k0
    · simp [hk, hx]
    · simp [hk]
  cases l with
  | tick d => exact h.same rfl fun _ => rfl
  | schedule tp =>
    exact h.quiet (.call s.nextId tp) rfl (.inr ⟨_, _, rfl⟩)
      (hset s.nextCall _ (by rw [hnew _ (Nat.le_refl _)]; rfl))
  | dispatch w =>
    exact h.quiet (.dispatch s.nextCall) rfl (.inl rfl) (hset s.nextCall _ (by rw [hnew _ (Nat.le_refl _)]; rfl))
  | disposeHandler x => exact h.quiet (.hdisp x) rfl (.inl rfl) fun _ => rfl
  | disposeLoop =>
    simp only [RunLoop.step]; split
    · exact h
    · exact h.quiet .ldisp rfl (.inl rfl) (hset s.nextCall _ (by rw [hnew _ (Nat.le_refl _)]; rfl))
  | step k0 =>
    simp only [RunLoop.step, RunLoop.callStep]
    split
    · rename_i e hk
      split
      · exact h.same rfl (hset k0 _ (by rw [hk]; rfl))
      · exact h.same rfl (hset k0 _ (by rw [hk]; rfl))
    · rename_i e hk
      exact h.quiet (.sched e) rfl (.inl rfl) (hset k0 _ (by rw [hk]; rfl))
    · rename_i w hk
      simp only [RunLoop.popStep]
      split
      · exact h.quiet (.none k0 s.now) rfl (.inl rfl) (hset k0 _ (by rw [hk]; rfl))
      · split
        · split
          · exact h
          · exact h.quiet (.none k0 s.now) rfl (.inl rfl) (hset k0 _ (by rw [hk]; rfl))
        · split
          · exact h.quiet (.take k0 _ s.now) rfl (.inl rfl) (hset k0 _ (by rw [hk]; rfl))
          · split
            · exact h
            · exact h.quiet (.none k0 s.now) rfl (.inl rfl) (hset k0 _ (by rw [hk]; rfl))
    · rename_i e hk
      split
      · exact h.quiet (.skip k0 e) rfl (.inl rfl) (hset k0 _ (by rw [hk]; rfl))
      · -- the run starts: nobody else has the task
        by_cases hid : e.id = id
        · have hno : ∀ k, rlRun id (s.calls k) = false := by
            intro k
            cases hk' : s.calls k with
            | run f =>
              by_cases hf : f.id = id
              · have := hI.uniq k k0 f e (by simp [hk', RunLoop.Call.holds]) (by simp [hk, RunLoop.Call.holds])
                  (by omega)
                subst this; rw [hk'] at hk; cases hk
              · simp [rlRun, hf]
            | _ => rfl
          have hb := h.idle hno
          constructor <;>
            simp only [RunLoop.St.set, RunLoop.St.emit, rlLine_snoc, rlEv, Option.toList]
          · exact h.alt.snoc (fun _ _ => hb) (by simp)
          · intro hk'
            have := hk' k0
            simp [rlRun, hid] at this
          · intro k _
            simp only [runs_snoc, fins_snoc, Nat.add_zero, hid, if_true]; omega
        · have hc := hset k0 (.run e) (by rw [hk]; simp [rlRun, hid])
          constructor <;>
            simp only [RunLoop.St.set, RunLoop.St.emit, rlLine_snoc, rlEv, Option.toList]
          · exact h.alt.snoc (by simp [hid]) (by simp)
          · intro hk'
            simp only [runs_snoc, fins_snoc, Nat.add_zero, hid, if_false]
            exact h.idle fun k => by rw [← hc]; exact hk' k
          · intro k hk'
            simp only [runs_snoc, fins_snoc, Nat.add_zero, hid, if_false]
            exact h.busy k (by rw [← hc]; exact hk')
    · rename_i hk
      exact h.quiet .cleared rfl (.inl rfl) (hset k0 _ (by rw [hk]; rfl))
    · exact h
    · exact h
  | ret k0 r =>
    simp only [RunLoop.step, RunLoop.retStep]
    split
    · rename_i e hk
      have h1 : ∀ x, (∀ id, rlRun id x = false) → RLInv id ((s.emit (.fin k0 e.id s.now r)).set k0 x) := by
        intro x hx
        by_cases hid : e.id = id
        · have hb := h.busy k0 (by simp [hk, rlRun, hid])
          have hno : ∀ k, k ≠ k0 → rlRun id (s.calls k) = false := by
            intro k hne
            cases hk' : s.calls k with
            | run f =>
              by_cases hf : f.id = id
              · exact absurd (hI.uniq k k0 f e (by simp [hk', RunLoop.Call.holds])
                  (by simp [hk, RunLoop.Call.holds]) (by omega)) hne
              · simp [rlRun, hf]
            | _ => rfl
          constructor <;>
            simp only [RunLoop.St.set, RunLoop.St.emit, rlLine_snoc, rlEv, Option.toList]
          · exact h.alt.snoc (by simp) (fun _ _ => hb)
          · intro _; simp only [runs_snoc, fins_snoc, Nat.add_zero, hid, if_true]; omega
          · intro k hk'
            by_cases hkk : k = k0
            · simp [hkk, hx] at hk'
            · simp [hkk, hno k hkk] at hk'
        · have hc := hset k0 x (by rw [hk, hx]; simp [rlRun, hid])
          constructor <;>
            simp only [RunLoop.St.set, RunLoop.St.emit, rlLine_snoc, rlEv, Option.toList]
          · exact h.alt.snoc (by simp) (by simp [hid])
          · intro hk'
            simp only [runs_snoc, fins_snoc, Nat.add_zero, hid, if_false]
            exact h.idle fun k => by rw [← hc]; exact hk' k
          · intro k hk'
            simp only [runs_snoc, fins_snoc, Nat.add_zero, hid, if_false]
            exact h.busy k (by rw [← hc]; exact hk')
      cases r with
      | stop => exact h1 .done fun _ => rfl
      | throw => exact (h1 .done fun _ => rfl).quiet (.err e.id) rfl (.inl rfl) fun _ => rfl
      | again v => exact h1 _ fun _ => rfl
    · exact h

theorem RLInv.exec {c : RunLoop.Cfg} {id : Nat} (ls : List RunLoop.Lbl) : RLInv id (RunLoop.exec c ls) := by
  induction ls using snoc_ind with
  | h0 => exact ⟨⟨by simp [RunLoop.exec, rlLine], by simp [RunLoop.exec, rlLine]⟩, fun _ => rfl, by simp [RunLoop.exec, rlRun]⟩
  | h1 ls l ih =>
    have : RunLoop.exec c (ls ++ [l]) = RunLoop.step c (RunLoop.exec c ls) l := by simp [RunLoop.exec]
    rw [this]; exact RLInv.step (RunLoop.Inv.exec ls) ih l

theorem rl_base {k : Nat → Kind} {id : Nat} {p : Int} (hk : k id = .fromThis) (l : List RunLoop.Ev)
    (hp : ∀ r, .fin id r ∈ rlLine l → r = .again p) : RunLoop.requested k l id = base id p (rlLine l) := by
  induction l using snoc_ind with
  | h0 => rfl
  | h1 l ev ih =>
    rw [RunLoop.requested_snoc, rlLine_snoc]
    have hp' : ∀ r, .fin id r ∈ rlLine l → r = .again p := fun r hr => hp r (by rw [rlLine_snoc]; simp [hr])
    rw [ih hp']
    cases ev with
    | fin kk i t r =>
      simp only [rlEv, Option.toList, base_snoc]
      by_cases hi : i = id
      · subst hi
        have := hp r (by rw [rlLine_snoc]; simp [rlEv])
        subst this
        simp [RunLoop.reqStep, hk]
      · cases r <;> simp [RunLoop.reqStep, hi]
    | _ => simp [rlEv, RunLoop.reqStep, base_snoc]

theorem rl_notEarly {c : RunLoop.Cfg} (ls : List RunLoop.Lbl) (id : Nat) (t0 p : Int) (hk : c.kind id = .fromThis)
    (hi : IsInterval id t0 p (rlLine (RunLoop.exec c ls).log)) : NotEarly id t0 p (rlLine (RunLoop.exec c ls).log) := by
  refine notEarly_of hi (RLInv.exec ls).alt ?_
  intro pre t post he
  obtain ⟨a, x, b, h1, h2, rfl, rfl⟩ := split_filterMap he
  have hper : ∀ r, .fin id r ∈ rlLine a → r = .again p := fun r hr => hi.period r (by
    rw [h1, rlLine, List.filterMap_append]; exact List.mem_append_left _ hr)
  have hx : ∃ k e, x = .start k e t ∧ e.id = id := by
    cases x <;> simp [rlEv] at h2
    exact ⟨_, _, by rw [h2.2], h2.1⟩
  obtain ⟨k, e, rfl, hid⟩ := hx
  obtain ⟨hr, t', _, h3, h4⟩ := RunLoop.C60_not_early ls a b k e t h1
  subst hid
  exact ⟨e.tp, by rw [← hr, rl_base hk a hper]; rfl, by omega⟩

/-! ## test_scheduler -/

/-- The timeline of the test scheduler. -/
def tsEv : Test.Ev → Option PEv
  | .call i d => some (.call i d)
  | .start e t => some (.start e.id t)
  | .fin i _ r => some (.fin i r)
  | _ => none

/-- Used in the proofs; models no code. -/
def tsLine (l : List Test.Ev) : List PEv := l.filterMap tsEv

theorem tsLine_snoc (l : List Test.Ev) (ev : Test.Ev) : tsLine (l ++ [ev]) = tsLine l ++ (tsEv ev).toList := by
  simp only [tsLine, List.filterMap_append, List.filterMap_cons, List.filterMap_nil]
  cases tsEv ev <;> rfl

/-- How often task `id` is on the call stack. -/
def tsRun (id : Nat) (st : List Test.Frame) : Nat := (Test.ids st).countP fun e => e.id == id

/-- Invariant of the proofs; models no code. -/
structure TSInv (id : Nat) (s : Test.St) : Prop where
  alt : Alt id (tsLine s.log)
  bal : runs id (tsLine s.log) = fins id (tsLine s.log) + tsRun id s.stack

theorem TSInv.quiet {id : Nat} {s s' : Test.St} (h : TSInv id s) (ev : Test.Ev) (hl : s'.log = s.log ++ [ev])
    (he : tsEv ev = none ∨ ∃ i d, tsEv ev = some (.call i d)) (hm : tsRun id s'.stack = tsRun id s.stack) :
    TSInv id s' := by
  rcases he with he | ⟨i, d, he⟩
  · constructor <;> simp only [hl, tsLine_snoc, he, Option.toList, List.append_nil, hm]
    · exact h.alt
    · exact h.bal
  · constructor <;> simp only [hl, tsLine_snoc, he, Option.toList, hm]
    · exact h.alt.snoc (by simp) (by simp)
    · simp only [runs_snoc, fins_snoc, Nat.add_zero]; exact h.bal

theorem TSInv.same {id : Nat} {s s' : Test.St} (h : TSInv id s) (hl : s'.log = s.log)
    (hm : tsRun id s'.stack = tsRun id s.stack) : TSInv id s' := by
  constructor
  · rw [hl]; exact h.alt
  · rw [hl, hm]; exact h.bal

theorem TSInv.doAct {id : Nat} {s : Test.St} (h : TSInv id s) (a : Test.Act) : TSInv id (Test.doAct s a) := by
  cases a with
  | call d =>
    have h1 : TSInv id ({ s.emit (.call s.next (s.cur + d)) with next := s.next + 1 }) :=
      h.quiet (.call s.next (s.cur + d)) rfl (.inr ⟨_, _, rfl⟩) rfl
    exact h1.quiet (.sched ⟨s.cur + d, s.next⟩) rfl (.inl rfl) rfl
  | advance d => exact h.quiet (.clock d) rfl (.inl rfl) rfl
  | skew d =>
    have h1 : TSInv id ({ s with cur := s.cur + d }.emit (.clock d)) := h.quiet (.clock d) rfl (.inl rfl) rfl
    exact h1.quiet .skewed rfl (.inl rfl) rfl
  | dispose x => exact h.quiet (.disp x) rfl (.inl rfl) rfl

theorem TSInv.step {c : Test.Cfg} {t0 : Int} {id : Nat} {s : Test.St} (hI : Test.Inv c t0 s) (h : TSInv id s)
    (l : Test.Lbl) : TSInv id (Test.step c s l) := by
  cases l with
  | user a =>
    simp only [Test.step]; split
    · exact h.doAct a
    · exact h
  | run =>
    simp only [Test.step]
    split
    · exact h
    · rename_i rest hst
      have hsame : tsRun id rest = tsRun id s.stack := by rw [hst]; rfl
      simp only [Test.drainStep]
      split
      · exact h.quiet .ret rfl (.inl rfl) hsame
      · rename_i top q hq
        split
        · exact h.quiet .ret rfl (.inl rfl) hsame
        · split
          · exact h.quiet (.drop top) rfl (.inl rfl) rfl
          · have hb := h.bal
            by_cases hid : top.id = id
            · have hz : tsRun id s.stack = 0 := by
                have hnd := hI.nd
                rw [hq] at hnd
                simp only [List.cons_append, List.map_cons, List.nodup_cons, List.mem_map, List.mem_append] at hnd
                simp only [tsRun, List.countP_eq_zero, beq_iff_eq]
                intro f hf hh
                exact hnd.1 ⟨f, .inr hf, by omega⟩
              rw [hz] at hb
              constructor <;> simp only [Test.St.push, Test.St.emit, tsLine_snoc, tsEv, Option.toList]
              · exact h.alt.snoc (fun _ _ => hb) (by simp)
              · simp only [runs_snoc, fins_snoc, Nat.add_zero, hid, if_true, tsRun, Test.ids, List.countP_cons, beq_self_eq_true]
                simp only [tsRun] at hz; omega
            · constructor <;> simp only [Test.St.push, Test.St.emit, tsLine_snoc, tsEv, Option.toList]
              · exact h.alt.snoc (by simp [hid]) (by simp)
              · simp only [runs_snoc, fins_snoc, Nat.add_zero, hid, if_false, tsRun, Test.ids, List.countP_cons]
                simp only [tsRun] at hb
                simp [hid, hb]
    · rename_i e r rest hst
      have hb := h.bal
      have h1 : TSInv id ({ s with stack := rest }.emit (.fin e.id s.cur r)) := by
        rw [hst] at hb
        by_cases hid : e.id = id
        · have hz : tsRun id rest = 0 := by
            have hnd := hI.nd
            rw [hst] at hnd
            simp only [Test.ids, List.map_append, List.map_cons, List.nodup_append, List.nodup_cons, List.mem_map] at hnd
            simp only [tsRun, List.countP_eq_zero, beq_iff_eq]
            intro f hf hh
            exact hnd.2.1.1 ⟨f, hf, by omega⟩
          simp only [tsRun, Test.ids, List.countP_cons, hid, beq_self_eq_true, if_true] at hb hz
          rw [hz] at hb
          constructor <;> simp only [Test.St.emit, tsLine_snoc, tsEv, Option.toList]
          · exact h.alt.snoc (by simp) (fun _ _ => hb)
          · simp only [runs_snoc, fins_snoc, Nat.add_zero, hid, if_true, tsRun, hz]; exact hb
        · simp only [tsRun, Test.ids, List.countP_cons, beq_iff_eq, hid, if_false, Nat.add_zero] at hb
          constructor <;> simp only [Test.St.emit, tsLine_snoc, tsEv, Option.toList]
          · exact h.alt.snoc (by simp) (by simp [hid])
          · simp only [runs_snoc, fins_snoc, Nat.add_zero, hid, if_false, tsRun]; exact hb
      simp only [Test.finish]
      cases r with
      | stop => exact h1
      | throw => exact h1.quiet (.err e.id) rfl (.inl rfl) rfl
      | again v =>
        simp only
        split
        · exact h1
        · exact h1.quiet (.sched ⟨_, e.id⟩) rfl (.inl rfl) rfl
    · rename_i e a as r rest hst
      have h1 : TSInv id { s with stack := .run e as r :: rest } := h.same rfl (by rw [hst]; rfl)
      exact h1.doAct a

theorem TSInv.exec {c : Test.Cfg} {t0 : Int} {id : Nat} (ls : List Test.Lbl) : TSInv id (Test.exec c t0 ls) := by
  induction ls using snoc_ind with
  | h0 => exact ⟨⟨by simp [Test.exec, tsLine], by simp [Test.exec, tsLine]⟩, rfl⟩
  | h1 ls l ih =>
    have : Test.exec c t0 (ls ++ [l]) = Test.step c (Test.exec c t0 ls) l := by simp [Test.exec]
    rw [this]; exact TSInv.step (Test.Inv.exec ls) ih l

theorem ts_base {k : Nat → Kind} {id : Nat} {p : Int} (hk : k id = .fromThis) (l : List Test.Ev)
    (hp : ∀ r, .fin id r ∈ tsLine l → r = .again p) :
    ∀ tp, Test.requested k l id = some tp → ∃ b, base id p (tsLine l) = some b ∧ b ≤ tp := by
  induction l using snoc_ind with
  | h0 => intro tp h; cases h
  | h1 l ev ih =>
    intro tp
    rw [Test.requested_snoc, tsLine_snoc]
    have hp' : ∀ r, .fin id r ∈ tsLine l → r = .again p := fun r hr => hp r (by rw [tsLine_snoc]; simp [hr])
    have ih := ih hp'
    cases ev with
    | call i d =>
      simp only [tsEv, Option.toList, base_snoc, Test.reqStep]
      split
      · rintro ⟨⟩; exact ⟨_, rfl, Int.le_refl _⟩
      · exact ih tp
    | fin i t r =>
      simp only [tsEv, Option.toList, base_snoc]
      by_cases hi : i = id
      · subst hi
        have := hp r (by rw [tsLine_snoc]; simp [tsEv])
        subst this
        simp only [Test.reqStep, if_true, hk]
        intro h
        obtain ⟨q, hq, rfl⟩ := Option.map_eq_some_iff.1 h
        obtain ⟨b, hb, hle⟩ := ih q hq
        exact ⟨b + p, by simp [hb], by omega⟩
      · intro h
        have : Test.requested k l id = some tp := by cases r <;> simpa [Test.reqStep, hi] using h
        simp only [hi, if_false]; exact ih tp this
    | _ => simpa [tsEv, Test.reqStep, base_snoc] using ih tp

theorem ts_notEarly {c : Test.Cfg} {s0 : Int} (ls : List Test.Lbl) (id : Nat) (t0 p : Int)
    (hk : c.kind id = .fromThis) (hi : IsInterval id t0 p (tsLine (Test.exec c s0 ls).log)) :
    NotEarly id t0 p (tsLine (Test.exec c s0 ls).log) := by
  refine notEarly_of hi (TSInv.exec ls).alt ?_
  intro pre t post he
  obtain ⟨a, x, b, h1, h2, rfl, rfl⟩ := split_filterMap he
  have hper : ∀ r, .fin id r ∈ tsLine a → r = .again p := fun r hr => hi.period r (by
    rw [h1, tsLine, List.filterMap_append]; exact List.mem_append_left _ hr)
  have hx : ∃ e, x = .start e t ∧ e.id = id := by
    cases x <;> simp [tsEv] at h2
    exact ⟨_, by rw [h2.2], h2.1⟩
  obtain ⟨e, rfl, hid⟩ := hx
  have k := (Test.Inv.exec (c := c) (t0 := s0) ls).legal _ _ _ h1
  subst hid
  obtain ⟨b', hb, hle⟩ := ts_base hk a hper e.tp k.2.2.2.2.2
  exact ⟨b', hb, by have := k.2.1; omega⟩

end Rpp.Interval
