import Verif.Subject.Share

/-! # C115, proofs -/

namespace Rpp.Shared

open Rpp.Subj

variable {α ε σ : Type} [DecidableEq α] [DecidableEq ε]

theorem Inv.pre {C : Cfg α ε σ} {m : Bool} {s : St α ε σ} (h : Inv C m s) : Pre C m s :=
  ⟨h.run, fun ha k h1 h2 => (h.refs ha k).2 ⟨h1, h2⟩, fun ha k hk => ((h.refs ha k).1 hk).1, h.hand, h.used, h.idle, h.conn, h.ok, h.made⟩

/-- The connection is open only while the source goes on; used in the proofs, models no code. -/
def Going (s : St α ε σ) : Prop := s.conn = true → ¬ Over s.log

theorem run_step (C : Subj.Cfg α ε σ) (h : List (Int × Subj.Op α ε)) (o : Int × Subj.Op α ε) : Subj.run C (h ++ [o]) = (Subj.run C h).step C o := by
  simp [Subj.run, List.foldl_append]

theorem dispose_disposed (u : UserSt α ε) : u.dispose.disposed = true := by
  unfold UserSt.dispose
  have : ∀ (l : List Nat) (v : UserSt α ε), v.disposed = true → (l.foldl (fun s d => s.release d) v).disposed = true := by
    intro l
    induction l with
    | nil => exact fun _ h => h
    | cons d l ih => intro v hv; exact ih _ (by rw [Rpp.UserSt.release_disposed]; exact hv)
  exact this _ _ rfl

/-- Who is disposed of stays so. -/
theorem stays {C : Subj.Cfg α ε σ} {s : Subj.St α ε σ} (h : Settled s) (o : Int × Subj.Op α ε) (k : Nat) (hk : k ∈ s.subs)
    (hd : (s.obs k).disposed = true) : ((s.step C o).obs k).disposed = true := by
  rw [(step_facts C h o).2.2.2 k hk]
  obtain ⟨t, o⟩ := o
  have hl := userObs_lawful (cap := C.cap) (ov := C.ov) (react := C.react k)
  have hc : ∀ c, ((userObs C.cap C.ov (C.react k)).call c (s.obs k)).disposed = true := fun c => by
    have := hl.stays (s.obs k) c (by simpa using hd)
    simpa using this
  cases o <;> simp only [effect] <;> (try split) <;> simp [userRun, hd, hc, dispose_disposed]

theorem Inv.settled {C : Cfg α ε σ} {m : Bool} {s : St α ε σ} (h : Inv C m s) : Settled s.subj := by
  rw [h.run]; exact (run_facts C.toCfg (ops s.log)).1

theorem settle_log (t : Int) (s : St α ε σ) : (s.settle t).log = s.log ∨ (s.settle t).log = s.log ++ [(t, .down)] ∧ (s.settle t).conn = false := by
  unfold St.settle St.close; dsimp only
  split
  · split
    · exact .inr ⟨rfl, rfl⟩
    · exact .inl rfl
  · exact .inl rfl

theorem close_log (t : Int) (s : St α ε σ) : (s.close t).log = s.log ∨ (s.close t).log = s.log ++ [(t, .down)] ∧ (s.close t).conn = false := by
  unfold St.close
  split
  · exact .inr ⟨rfl, rfl⟩
  · exact .inl rfl

theorem close_conn (t : Int) (s : St α ε σ) : (s.close t).conn = false := by
  unfold St.close
  split
  · rfl
  · rename_i h; exact Bool.eq_false_iff.2 h

theorem settle_going {s : St α ε σ} (h : Going s) (t : Int) : Going (s.settle t) := by
  intro hc
  rcases settle_log t s with e | ⟨_, e⟩
  · rw [e]
    refine h ?_
    revert hc
    unfold St.settle St.close; dsimp only
    split
    · split
      · intro hx; cases hx
      · exact id
    · exact id
  · rw [e] at hc; cases hc

/-- The subject's part of an operation that is not a subscription. -/
theorem step_pre {C : Cfg α ε σ} {s : St α ε σ} (h : Inv C false s) (t : Int) (o : Subj.Op α ε) (e : Ev α ε) (ho : ops [(t, e)] = [(t, o)])
    (hs : ∀ k, o ≠ .subscribe k) (hu : e ≠ .up ∧ e ≠ .down) (he : Ok s.log e) :
    Pre C false { s with subj := s.subj.step C.toCfg (t, o), log := s.log ++ [(t, e)] } := by
  obtain ⟨_, _, f3, _⟩ := step_facts C.toCfg h.settled (t, o)
  have hm : ∀ k, k ∈ (s.subj.step C.toCfg (t, o)).subs ↔ k ∈ s.subj.subs := fun k => by
    rw [f3]; simp [hs k]
  refine ⟨?_, ?_, ?_, h.hand, h.used, h.idle, ?_, ok_snoc h.ok t e he, ?_⟩
  · show s.subj.step C.toCfg (t, o) = _
    rw [ops_append, ho, run_step, ← h.run]
  · intro ha k hk hd
    refine (h.refs ha k).2 ⟨(hm k).1 hk, ?_⟩
    cases hx : (s.subj.obs k).disposed with
    | false => rfl
    | true =>
      have hs := stays h.settled (C := C.toCfg) (t, o) k ((hm k).1 hk) hx
      dsimp only at hd
      rw [hs] at hd; cases hd
  · intro ha k hk
    exact (hm k).2 ((h.refs ha k).1 hk).1
  · dsimp only
    rw [connected_append, ← h.conn]
    cases e <;> first | rfl | exact absurd rfl hu.1 | exact absurd rfl hu.2
  · dsimp only
    rw [h.made, List.filter_append, List.length_append]
    cases e <;> first | rfl | exact absurd rfl hu.1 | exact absurd rfl hu.2

theorem pass_inv {C : Cfg α ε σ} {s : St α ε σ} (h : Inv C false s) (hg : Going s) (t : Int) (c : Call α ε) :
    Inv C false (s.pass C t c) ∧ Going (s.pass C t c) := by
  unfold St.pass
  split
  · rename_i hc
    split
    · exact ⟨h, hg⟩
    · rename_i o ho
      have hev : c.isEvent = true := by cases c <;> simp_all [opOf, Call.isEvent]
      have hp := step_pre h t o (.src c) (by simp [ops, ho]) (by intro k e; rw [e] at ho; cases c <;> cases ho) ⟨by simp, by simp⟩ ⟨by rw [← h.conn]; exact hc, hg hc, hev⟩
      dsimp only
      split
      · rename_i ht
        have hi := settle_inv hp t
        refine ⟨close_inv hi.pre t ?_, fun hx => by rw [close_conn] at hx; cases hx⟩
        cases ha : C.auto with
        | false => exact hi.hand ha
        | true =>
          apply List.eq_nil_iff_forall_not_mem.2
          intro k hk
          have hk' := (hi.refs ha k).1 hk
          have := hi.gone (by
            have ho : Over (s.log ++ [(t, .src c)]) := over_snoc.2 (.inr ⟨c, rfl, ht⟩)
            rcases settle_log t ({ s with subj := s.subj.step C.toCfg (t, o), log := s.log ++ [(t, .src c)] } : St α ε σ) with e | ⟨e, _⟩
            · rw [e]; exact ho
            · rw [e]; exact over_snoc.2 (.inl ho)) k hk'.1
          rw [this] at hk'; exact absurd hk'.2 (by simp)
      · rename_i ht
        refine ⟨settle_inv hp t, settle_going (fun hx => ?_) t⟩
        rw [over_snoc]
        rintro (h1 | ⟨c', h1, h2⟩)
        · exact hg hc h1
        · cases h1; exact ht h2
  · exact ⟨h, hg⟩

theorem passes_inv {C : Cfg α ε σ} (cs : List (Int × Call α ε)) {s : St α ε σ} (h : Inv C false s) (hg : Going s) :
    Inv C false (cs.foldl (fun s c => s.pass C c.1 c.2) s) ∧ Going (cs.foldl (fun s c => s.pass C c.1 c.2) s) := by
  induction cs generalizing s with
  | nil => exact ⟨h, hg⟩
  | cons c cs ih => exact ih (pass_inv h hg c.1 c.2).1 (pass_inv h hg c.1 c.2).2

/-- The state right after the source was subscribed. -/
theorem opened_inv {C : Cfg α ε σ} {m : Bool} {s : St α ε σ} (h : Inv C m s) (hr : C.auto = true → s.refs ≠ []) (t : Int)
    (hd : ¬ s.subj.down = true) (hc : ¬ s.conn = true) :
    Inv C false { s with conn := true, made := s.made + 1, log := s.log ++ [(t, .up)] } ∧
    Going { s with conn := true, made := s.made + 1, log := s.log ++ [(t, .up)] } := by
  have ho : ¬ Over s.log := fun ho => hd (h.down.2 ho)
  refine ⟨⟨?_, h.refs, h.hand, ?_, (fun hx => by cases hx), ?_, ?_, ?_⟩, ?_⟩
  · rw [ops_up]; exact h.run
  · intro ha _; dsimp only; simp [hr ha]
  · rw [connected_append]
  · refine ok_snoc h.ok t _ ⟨?_, ho⟩
    rw [← h.conn]; exact Bool.eq_false_iff.2 hc
  · dsimp only; rw [h.made, List.filter_append, List.length_append]; rfl
  · intro _
    rw [over_snoc]
    rintro (h1 | ⟨c', h1, h2⟩)
    · exact ho h1
    · cases h1

theorem connect_inv {C : Cfg α ε σ} {m : Bool} {s : St α ε σ} (h : Inv C m s) (hg : Going s) (hr : C.auto = true → s.refs ≠ [] ∧ m = true)
    (hm : C.auto = false → m = false) (t : Int) : Inv C false (s.connect C t) ∧ Going (s.connect C t) := by
  unfold St.connect
  split
  · rename_i hd
    cases ha : C.auto with
    | false => rw [hm ha] at h; exact ⟨h, hg⟩
    | true =>
      obtain ⟨k, hk⟩ := List.exists_mem_of_ne_nil _ (hr ha).1
      have hk' := (h.refs ha k).1 hk
      have := h.gone (h.down.1 hd) k hk'.1
      rw [this] at hk'; exact absurd hk'.2 (by simp)
  · rename_i hd
    split
    · rename_i hc
      cases ha : C.auto with
      | false => rw [hm ha] at h; exact ⟨h, hg⟩
      | true => have := h.idle (hr ha).2; rw [this] at hc; cases hc
    · rename_i hc
      have := opened_inv h (fun ha => (hr ha).1) t hd hc
      exact passes_inv _ this.1 this.2

theorem sub_pre {C : Cfg α ε σ} {s : St α ε σ} (h : Inv C false s) (t : Int) (k : Nat) (hk : k ∉ s.subj.subs) :
    Pre C (C.auto && s.refs.isEmpty)
      { s with refs := if C.auto then s.refs ++ [k] else s.refs, subj := s.subj.step C.toCfg (t, .subscribe k), log := s.log ++ [(t, .join k)] } := by
  obtain ⟨_, _, f3, f4⟩ := step_facts C.toCfg h.settled (t, .subscribe k)
  refine ⟨?_, ?_, ?_, ?_, ?_, ?_, ?_, ok_snoc h.ok t _ ?_, ?_⟩
  · dsimp only
    rw [ops_append, ← show [(t, Op.subscribe k)] = ops [(t, Ev.join (α := α) (ε := ε) k)] from rfl, run_step, ← h.run]
  · intro ha j hj hd
    dsimp only at hj hd ⊢
    rw [ha, if_pos rfl]
    rcases (f3 j).1 hj with hj | e
    · refine List.mem_append_left _ ((h.refs ha j).2 ⟨hj, ?_⟩)
      cases hx : (s.subj.obs j).disposed with
      | false => rfl
      | true => rw [stays h.settled (C := C.toCfg) (t, .subscribe k) j hj hx] at hd; cases hd
    · injection e with e; exact List.mem_append_right _ (by rw [e]; exact List.mem_singleton.2 rfl)
  · intro ha j hj
    dsimp only at hj ⊢
    rw [ha, if_pos rfl] at hj
    rcases List.mem_append.1 hj with hj | hj
    · exact (f3 j).2 (.inl ((h.refs ha j).1 hj).1)
    · rw [List.mem_singleton] at hj; exact (f3 j).2 (.inr (by rw [hj]))
  · intro ha; dsimp only; rw [ha, if_neg (by simp)]; exact h.hand ha
  · intro ha hm
    dsimp only
    rw [ha, if_pos rfl, h.used ha rfl]
    have : s.refs ≠ [] := by intro e; rw [ha, e] at hm; cases hm
    simp [this]
  · intro hm
    have ha : C.auto = true := by cases hx : C.auto <;> simp_all
    have hr : s.refs = [] := by rw [ha] at hm; simpa using hm
    cases hx : s.conn with
    | false => rfl
    | true => exact absurd hr ((h.used ha rfl).1 hx)
  · dsimp only; rw [connected_append, h.conn]
  · intro t' hm; exact hk ((h.mem k).2 ⟨t', hm⟩)
  · dsimp only; rw [h.made, List.filter_append, List.length_append]; rfl

theorem sub_inv {C : Cfg α ε σ} {s : St α ε σ} (h : Inv C false s) (hg : Going s) (t : Int) (k : Nat) :
    Inv C false (s.sub C t k) ∧ Going (s.sub C t k) := by
  unfold St.sub
  split
  · exact ⟨h, hg⟩
  · rename_i hk
    have hi := settle_inv (sub_pre h t k hk) t
    have hgo : Going (St.settle t ({ s with refs := if C.auto then s.refs ++ [k] else s.refs, subj := s.subj.step C.toCfg (t, .subscribe k), log := s.log ++ [(t, .join k)] } : St α ε σ)) :=
      settle_going (fun hx => by
        rw [over_snoc]
        rintro (h1 | ⟨c', h1, h2⟩)
        · exact hg hx h1
        · cases h1) t
    dsimp only
    generalize St.settle t _ = s2 at *
    split
    · rename_i hc
      refine connect_inv hi hgo (fun ha => ⟨hc.2.2, by rw [ha, hc.2.1]; rfl⟩) (fun ha => ?_) t
      rw [hc.1] at ha; cases ha
    · rename_i hc
      refine ⟨⟨hi.run, hi.refs, hi.hand, ?_, (fun hx => by cases hx), hi.conn, hi.ok, hi.made⟩, hgo⟩
      intro ha _
      by_cases hr : s.refs = []
      · have h2 : s2.refs = [] := Classical.byContradiction fun hn => hc ⟨ha, hr, hn⟩
        have := hi.idle (by rw [ha, hr]; rfl)
        simp [this, h2]
      · exact hi.used ha (by rw [ha]; cases hx : s.refs with | nil => exact absurd hx hr | cons _ _ => rfl)

theorem step_inv {C : Cfg α ε σ} {s : St α ε σ} (h : Inv C false s) (hg : Going s) (l : Int × Lbl α ε) :
    Inv C false (step C s l) ∧ Going (step C s l) := by
  obtain ⟨t, l⟩ := l
  cases l with
  | sub k => exact sub_inv h hg t k
  | leave k =>
    refine ⟨settle_inv (step_pre h t (.dispose k) (.leave k) rfl (by simp) ⟨by simp, by simp⟩ trivial) t, settle_going (fun hx => ?_) t⟩
    rw [over_snoc]
    rintro (h1 | ⟨c', h1, h2⟩)
    · exact hg hx h1
    · cases h1
  | connect =>
    unfold step; dsimp only
    split
    · exact ⟨h, hg⟩
    · rename_i ha; exact connect_inv h hg (fun hx => absurd hx ha) (fun _ => rfl) t
  | disconnect =>
    unfold step; dsimp only
    split
    · exact ⟨h, hg⟩
    · rename_i ha
      exact ⟨close_inv h.pre t (h.hand (Bool.eq_false_iff.2 ha)), fun hx => by rw [close_conn] at hx; cases hx⟩
  | call c => exact pass_inv h hg t c

theorem foldl_inv (C : Cfg α ε σ) (ls : List (Int × Lbl α ε)) {s : St α ε σ} (h : Inv C false s) (hg : Going s) :
    Inv C false (ls.foldl (step C) s) ∧ Going (ls.foldl (step C) s) := by
  induction ls generalizing s with
  | nil => exact ⟨h, hg⟩
  | cons l ls ih => exact ih (step_inv h hg l).1 (step_inv h hg l).2

theorem exec_inv (C : Cfg α ε σ) (ls : List (Int × Lbl α ε)) : Inv C false (exec C ls) ∧ Going (exec C ls) := by
  refine foldl_inv C ls ⟨rfl, ?_, fun _ => rfl, ?_, (fun hx => by cases hx), rfl, ?_, rfl⟩ (fun hx => by cases hx)
  · intro _ k
    constructor
    · intro hx; cases hx
    · rintro ⟨hx, _⟩; cases hx
  · intro _ _; simp
  · intro pre t e post hx; cases pre <;> cases hx

/-- What a call of the source does to somebody who has subscribed through `ref_count()`. -/
theorem pass_obs {C : Cfg α ε σ} (ha : C.auto = true) {s : St α ε σ} (h : Inv C false s) (hg : Going s) (t : Int) (c : Call α ε) (k : Nat) (hk : k ∈ s.subj.subs) :
    (s.pass C t c).subj.obs k = if c.isEvent then (userObs C.cap C.ov (C.react k)).call c (s.subj.obs k) else s.subj.obs k := by
  cases hc : s.conn with
  | false =>
    unfold St.pass; rw [hc, if_neg (by simp)]
    split
    · rename_i hev
      refine (call_ignored ?_ hev).symm
      cases hx : (s.subj.obs k).disposed with
      | true => rfl
      | false =>
        have := List.ne_nil_of_mem ((h.refs ha k).2 ⟨hk, hx⟩)
        rw [← h.used ha rfl, hc] at this; cases this
    · rfl
  | true =>
    have hend : s.subj.phase.over = none := by
      obtain ⟨_, he, _⟩ := run_facts C.toCfg (ops s.log)
      rw [← h.run] at he
      rw [he]
      cases hx : ending (ops s.log) with
      | none => rfl
      | some x => exact absurd (ops_over _ _ hx).2 (hg hc)
    have key : ∀ o, (s.subj.step C.toCfg (t, o)).obs k = userRun C.cap C.ov (C.react k) (s.subj.obs k) (effect k true o) := fun o => by
      have := (step_facts C.toCfg h.settled (t, o)).2.2.2 k hk
      rw [hend] at this; exact this
    unfold St.pass; rw [hc, if_pos rfl]
    cases c with
    | up d => rfl
    | next v =>
      simp only [opOf, Call.isTerm, settle_subj, Call.isEvent, key, if_true, Bool.false_eq_true, if_false]
      rfl
    | error e => simp only [opOf, Call.isTerm, settle_subj, close_subj, Call.isEvent, key, if_true]; rfl
    | completed => simp only [opOf, Call.isTerm, settle_subj, close_subj, Call.isEvent, key, if_true]; rfl

end Rpp.Shared
