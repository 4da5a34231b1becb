import Verif.Net.MachineProofs

/-! When an operator is at rest and has not ended, nothing is missing. -/

namespace Rpp.Net

open Comb (Sig sigVals ofTaken row combineLatestSpec withLatestSpec)

variable {α β ε σ : Type}

/-! ## The observer's callbacks do not throw -/

/-- The observer has not thrown; invariant of the proofs, models no code. -/
def Tame (s : Comb.St α β ε σ) : Prop := (∀ i e, s.calls i ≠ .err e) ∧ ∀ i e, .own i e ∉ s.log

theorem tame_goto {s : Comb.St α β ε σ} (h : Tame s) (i p) (hp : ∀ e, p ≠ .err e) (x : σ) (l : Option Nat) (g : Bool) (d a : Nat → Bool) :
    Tame ({ s with st := x, lock := l, gone := g, done := d, active := a }.goto i p) := by
  refine ⟨fun j e => ?_, h.2⟩
  show (if j = i then p else s.calls j) ≠ _
  split
  · exact hp e
  · exact h.1 j e

theorem tame_emit {s : Comb.St α β ε σ} (h : Tame s) (ev) (hv : ∀ i e, ev ≠ .own i e) : Tame (s.emit ev) := by
  refine ⟨h.1, fun j e hm => ?_⟩
  rcases List.mem_append.1 hm with hm | hm
  · exact h.2 j e hm
  · exact hv j e (List.mem_singleton.1 hm).symm

theorem tame_process (H : Comb.Hub α β ε σ) {s : Comb.St α β ε σ} (h : Tame s) (i c ev) (hv : ∀ i e, ev ≠ .own i e) : Tame (s.process H i c ev) := by
  have key : ∀ p l, (∀ e, p ≠ .err e) → Tame (({ s with st := (H.act i c s.st).2, lock := l }.emit ev).goto i p) := fun p l hp =>
    tame_goto (s := s.emit ev) (tame_emit h ev hv) i p hp _ l s.gone s.done s.active
  unfold Comb.St.process
  dsimp only
  split
  · split <;> exact key _ s.lock (fun e he => by cases he)
  · split
    · exact h
    · split <;> exact key _ _ (fun e he => by cases he)

theorem tame_run (H : Comb.Hub α β ε σ) {s : Comb.St α β ε σ} (h : Tame s) (i : Nat) : Tame (Comb.step H s (.run i)) := by
  have key : ∀ p l g, (∀ e, p ≠ .err e) → Tame ({ s with lock := l, gone := g }.goto i p) := fun p l g hp =>
    tame_goto h i p hp s.st l g s.done s.active
  simp only [Comb.step]
  unfold Comb.St.advance
  split
  · exact h
  · exact h
  · exact h
  · exact tame_process H h _ _ _ (fun j c h => by cases h)
  · split
    · exact key _ s.lock s.gone (fun e he => by cases he)
    · exact tame_process H h _ _ _ (fun j c h => by cases h)
  · split
    · exact h
    · exact key _ _ s.gone (fun e he => by cases he)
  · split
    · exact key _ s.lock s.gone (fun e he => by cases he)
    · exact tame_emit (key _ s.lock s.gone (fun e he => by cases he)) _ (fun j c h => by cases h)
  · next e he => exact absurd he (h.1 i e)
  · exact key _ s.lock _ (fun e he => by cases he)
  · exact key _ _ s.gone (fun e he => by cases he)
  · exact key _ _ s.gone (fun e he => by cases he)
  · exact key _ s.lock s.gone (fun e he => by cases he)

theorem tame_ret (H : Comb.Hub α β ε σ) {s : Comb.St α β ε σ} (h : Tame s) (i : Nat) : Tame (Comb.step H s (.ret i .ok)) := by
  have key : ∀ p, (∀ e, p ≠ .err e) → Tame ((s.goto i p).emit (.fin i)) := fun p hp =>
    tame_emit (tame_goto h i p hp s.st s.lock s.gone s.done s.active) _ (fun j c h => by cases h)
  simp only [Comb.step]
  split
  · exact key _ (fun e he => by cases he)
  · next hr => cases hr
  · exact key _ (fun e he => by cases he)
  · exact key _ (fun e he => by cases he)
  · exact h

theorem hub_tame (H : Comb.Hub α β ε σ) (n : Nat) (port : Nat → Nat) {s : Comb.St α β ε σ} (h : (hubMachine H n port).Reach s) : Tame s := by
  refine reach_ind (M := hubMachine H n port) (P := fun s => Tame (α := α) (β := β) (ε := ε) (σ := σ) s) ?_
    (fun (s : Comb.St α β ε σ) i x _ hr ih => ?_) (fun (s : Comb.St α β ε σ) a _ ih => ?_) h
  · exact ⟨fun i e he => (by cases he), fun i e he => (by cases he)⟩
  · obtain ⟨e, -⟩ := feed_step H n port s i x hr
    show Tame (Comb.step H s (lbl (port i) x))
    rw [e]
    exact tame_emit (tame_goto ih _ _ (fun e he => by cases he) s.st s.lock s.gone _ s.active) _ (fun j c h => by cases h)
  · cases a with
    | run i => exact tame_run H ih i
    | ret i => exact tame_ret H ih i
    | gone =>
      show Tame (Comb.step H s .gone)
      simp only [Comb.step]; split
      · exact ih
      · exact tame_emit (s := { s with gone := true }) ih _ (fun j c h => by cases h)
    | shut =>
      show Tame (Comb.step H s .shut)
      simp only [Comb.step]; split
      · exact ih
      · exact ih
    | opn k =>
      show Tame (if k < n then Comb.step H s (.opn (port k)) else s)
      split
      · simp only [Comb.step]; split
        · exact tame_emit (tame_goto ih _ _ (fun e he => by cases he) _ s.lock s.gone s.done _) _ (fun j c h => by cases h)
        · exact ih
      · exact ih
    | outer =>
      show Tame (if H.dyn && (List.range n).all (fun k => s.active (port k)) then Comb.step H s (.term 0 .completed) else s)
      split
      · simp only [Comb.step]; split
        · exact tame_emit (tame_goto ih _ _ (fun e he => by cases he) s.st s.lock s.gone _ s.active) _ (fun j c h => by cases h)
        · exact ih
      · exact ih

theorem not_ended (H : Comb.Hub α β ε σ) (n : Nat) (port : Nat → Nat) {s : Comb.St α β ε σ} (h : (hubMachine H n port).Reach s)
    (hf : (seqOf ((hubMachine H n port).told s)).fin = none) : ¬ Comb.Ended s.log := by
  rintro (⟨i, t, hb⟩ | ⟨i, e, ho⟩)
  · obtain ⟨ls, rfl⟩ := hub_exec H n port h
    have := seqOf_ended ((hubMachine H n port).told (Comb.exec H ls)) (begs_last (Comb.inv2 H ls).legal) (t := t)
      (List.mem_map.2 ⟨(i, .term t), Comb.mem_begs.2 hb, rfl⟩)
    rw [hf] at this; cases this
  · exact (hub_tame H n port h).2 i e ho

/-! ## The operators -/

theorem zip_next {n : Nat} (hn : 0 < n) (sel : List α → Except ε β) (l : List (Comb.Ev α β ε))
    (hz : Comb.ZipInv n sel (fun j => sigVals (Comb.processed j l)) (Comb.replay (Comb.zipHub n sel) l).2
      (Comb.nexts (Comb.replay (Comb.zipHub n sel) l).1)) (j : Nat) (hj : j < n)
    (ih : (sigVals (Comb.processed j l)).length = (Comb.nexts (Comb.replay (Comb.zipHub n sel) l).1).length) (i : Nat) (v : α) :
    (∃ j < n, (sigVals (Comb.processed j (l ++ [.act i (.next v)]))).length =
      (Comb.nexts (Comb.replayStep (Comb.zipHub n sel) (Comb.replay (Comb.zipHub n sel) l) (.act i (.next v))).1).length) ∨
    ∃ e, ((Comb.zipHub n sel).act i (.next v) (Comb.replay (Comb.zipHub n sel) l).2).1 = .throw e := by
  have hz' := Comb.zip_made hn sel (l ++ [.act i (.next v)])
  rw [Comb.replay_snoc] at hz'
  have hlen : (sigVals (Comb.processed j (l ++ [.act i (.next v)]))).length ≤ (sigVals (Comb.processed j l)).length + 1 := by
    rw [Comb.processed_snoc, Comb.sigVals_append, List.length_append]
    simp only; split <;> simp [sigVals]
  generalize hr : Comb.replay (Comb.zipHub n sel) l = r at *
  obtain ⟨outs, x⟩ := r
  rcases hz'.full with hl | ⟨-, hl⟩
  · exact .inl hl
  · refine .inr ?_
    have hp := hz'.pend
    simp only [Comb.replayStep] at hl hp ⊢
    simp only [Comb.zipHub] at hl hp ⊢
    by_cases hall : (List.range n).all (fun j => !(Comb.update x.pend i (x.pend i ++ [v]) j).isEmpty) = true
    · simp only [hall, if_true] at hl hp ⊢
      cases hs : sel ((List.range n).filterMap fun j => (Comb.update x.pend i (x.pend i ++ [v]) j).head?) with
      | error e => exact ⟨e, rfl⟩
      | ok b =>
        rw [hs] at hl
        have := hl j hj
        simp only [Comb.nexts_append, List.length_append] at this ih
        simp only [Comb.nexts, List.filterMap_cons, List.filterMap_nil, List.length_cons, List.length_nil] at this ih
        omega
    · simp only [hall, if_false, Bool.false_eq_true] at hl hp ⊢
      refine absurd (List.all_eq_true.2 fun k hk => ?_) hall
      have hk := List.mem_range.1 hk
      have h1 := hl k hk
      rw [(hp k hk).2]
      simp only [Bool.not_eq_true', List.isEmpty_eq_false_iff, ne_eq, List.drop_eq_nil_iff]
      omega

theorem zip_full {n : Nat} (hn : 0 < n) (sel : List α → Except ε β) (log : List (Comb.Ev α β ε)) :
    (∃ j < n, (sigVals (Comb.processed j log)).length = (Comb.nexts (Comb.replay (Comb.zipHub n sel) log).1).length) ∨
    ∃ i e, Comb.Threw (Comb.zipHub n sel) log i e := by
  induction log using Comb.snocInduct with
  | h0 => exact .inl ⟨0, hn, rfl⟩
  | hs l ev ih =>
    have hz := Comb.zip_made hn sel l
    rcases ih with ⟨j, hj, ih⟩ | ⟨i, e, ih⟩
    · rw [Comb.replay_snoc]
      have hno : (∀ i v, ev ≠ .act i (.next v)) → ∀ j, sigVals (Comb.processed j (l ++ [ev])) = sigVals (Comb.processed j l) := by
        intro he j
        rw [Comb.processed_snoc, Comb.sigVals_append]
        cases ev with
        | act i c =>
          cases c with
          | next v => exact absurd rfl (he i v)
          | term t => simp only; split <;> simp [sigVals]
        | _ => simp [sigVals]
      cases ev with
      | act i c =>
        cases c with
        | term t =>
          refine .inl ⟨j, hj, ?_⟩
          rw [hno (by simp), ih]
          generalize Comb.replay (Comb.zipHub n sel) l = r
          obtain ⟨outs, x⟩ := r
          rcases t with e | _
          · simp [Comb.replayStep, Comb.zipHub, Comb.nexts]
          · by_cases h1 : x.need = 1 <;> simp [Comb.replayStep, Comb.zipHub, Comb.nexts, h1]
        | next v =>
          refine (zip_next hn sel l hz j hj ih i v).imp_right fun ⟨e, he⟩ => ⟨i, e, l, [], .next v, .act i (.next v), rfl, .inl rfl, he⟩
      | actE i e => refine .inl ⟨j, hj, ?_⟩; rw [hno (by simp), ih]; simp [Comb.replayStep, Comb.zipHub, Comb.nexts]
      | _ => refine .inl ⟨j, hj, ?_⟩; rw [hno (by simp), ih]; rfl
    · exact .inr ⟨i, e, ih.snoc ev⟩

theorem zip_all (n : Nat) (sel : List α → Except ε β) {s} (h : (Join.zip n sel).machine.Reach s) (hr : (Join.zip n sel).Rest s)
    (hc : ¬ (Join.zip n sel).Cut s) (hf : (seqOf ((Join.zip n sel).machine.told s)).fin = none) :
    (Join.zip n sel).MakesAll ((Join.zip n sel).machine.got s) (seqOf ((Join.zip n sel).machine.told s)).vals := by
  have hm := zip_makes n sel h
  have he := not_ended _ _ _ h hf
  obtain ⟨hv, -⟩ := told_seq _ _ _ h
  obtain ⟨ls, rfl⟩ := hub_exec _ _ _ h
  have hg : ∀ i ≤ n, (Join.zip n sel).machine.got (Comb.exec (Comb.zipHub (n + 1) sel) ls) i = Comb.received i (Comb.exec (Comb.zipHub (n + 1) sel) ls).log :=
    fun i hi => got_eq _ _ _ _ (Nat.lt_succ_of_le hi)
  have stop : ¬ (.gone ∈ (Comb.exec (Comb.zipHub (n + 1) sel) ls).log ∨ Comb.Ended (Comb.exec (Comb.zipHub (n + 1) sel) ls).log) :=
    fun h => h.elim hc he
  refine ⟨hm.1, ?_, fun i hi e hme => ?_, ?_⟩
  · rcases zip_full (Nat.succ_pos n) sel (Comb.exec (Comb.zipHub (n + 1) sel) ls).log with ⟨j, hj, hl⟩ | ⟨i, e, ht⟩
    · refine ⟨j, Nat.le_of_lt_succ hj, ?_⟩
      rw [hg j (Nat.le_of_lt_succ hj), ← Comb.processed_eq ls (hr j)]
      refine Eq.trans ?_ hl.symm
      obtain ⟨rest, h1, h2⟩ := Comb.values_order _ (Comb.zip_late (n + 1) sel) ls
      rw [h2 (Comb.not_gone ls hc he)] at h1
      rw [h1]
      have : (Comb.exec (Comb.zipHub (n + 1) sel) ls).atDoor = [] := by
        unfold Comb.St.atDoor
        cases (Comb.exec (Comb.zipHub (n + 1) sel) ls).lock with
        | none => rfl
        | some i => simp [hr i]
      rw [this]
      simp only [List.map_nil, List.append_nil]
      exact congrArg List.length hv
    · exact absurd (Comb.C24_error_ends _ sel ls i e (.inr ht) (hr i)) stop
  · rw [hg i hi] at hme
    exact stop (Comb.C24_error_ends _ sel ls i e (.inl (Comb.mem_received.1 hme)) (hr i))
  · refine Classical.byContradiction fun hn => stop ?_
    refine Comb.completes_when (Comb.zip_counting _ sel) (by simp [Comb.zipHub]) ls hr fun k hk => ?_
    rcases hk with hk | hk
    · have hk : k ≤ n := by simpa [Comb.zipHub, Nat.lt_succ_iff] using hk
      refine Comb.mem_received.1 (Classical.byContradiction fun hm => hn ⟨k, hk, ?_⟩)
      rw [hg k hk]; exact hm
    · exact absurd hk (Comb.no_opened rfl ls k)

theorem combineLatest_all (n : Nat) (sel : List α → Except ε β) {s} (h : (Join.combineLatest n sel).machine.Reach s) (hr : (Join.combineLatest n sel).Rest s)
    (hc : ¬ (Join.combineLatest n sel).Cut s) (hf : (seqOf ((Join.combineLatest n sel).machine.told s)).fin = none) :
    (Join.combineLatest n sel).MakesAll ((Join.combineLatest n sel).machine.got s) (seqOf ((Join.combineLatest n sel).machine.told s)).vals := by
  have he := not_ended _ _ _ h hf
  obtain ⟨hv, -⟩ := told_seq _ _ _ h
  obtain ⟨ls, rfl⟩ := hub_exec _ _ _ h
  have hg : ∀ i ≤ n, (Join.combineLatest n sel).machine.got (Comb.exec (Comb.combineLatestHub (n + 1) sel) ls) i =
      Comb.received i (Comb.exec (Comb.combineLatestHub (n + 1) sel) ls).log :=
    fun i hi => got_eq _ _ _ _ (Nat.lt_succ_of_le hi)
  have stop : ¬ (.gone ∈ (Comb.exec (Comb.combineLatestHub (n + 1) sel) ls).log ∨ Comb.Ended (Comb.exec (Comb.combineLatestHub (n + 1) sel) ls).log) :=
    fun h => h.elim hc he
  refine ⟨⟨Comb.taken (Comb.exec (Comb.combineLatestHub (n + 1) sel) ls).log, fun j hj => ?_, ?_⟩, fun i hi e hme => ?_, ?_⟩
  · rw [hg j hj]; exact (Comb.C25_taken _ sel ls j).2 (hr j)
  · exact hv.trans (Comb.C25_exact _ (Nat.succ_pos n) sel ls (.inl ⟨hr, hc, he⟩))
  · rw [hg i hi] at hme
    exact stop (Comb.C25_error_ends _ sel ls i e (.inl (Comb.mem_received.1 hme)) (hr i))
  · refine Classical.byContradiction fun hn => stop ?_
    refine Comb.completes_when (Comb.cl_counting _ sel) (by simp [Comb.combineLatestHub]) ls hr fun k hk => ?_
    rcases hk with hk | hk
    · have hk : k ≤ n := by simpa [Comb.combineLatestHub, Nat.lt_succ_iff] using hk
      refine Comb.mem_received.1 (Classical.byContradiction fun hm => hn ⟨k, hk, ?_⟩)
      rw [hg k hk]; exact hm
    · exact absurd hk (Comb.no_opened rfl ls k)

theorem withLatest_all (n : Nat) (sel : α → List α → Except ε β) {s} (h : (Join.withLatest n sel).machine.Reach s) (hr : (Join.withLatest n sel).Rest s)
    (hc : ¬ (Join.withLatest n sel).Cut s) (hf : (seqOf ((Join.withLatest n sel).machine.told s)).fin = none) :
    (Join.withLatest n sel).MakesAll ((Join.withLatest n sel).machine.got s) (seqOf ((Join.withLatest n sel).machine.told s)).vals := by
  have he := not_ended _ _ _ h hf
  obtain ⟨hv, -⟩ := told_seq _ _ _ h
  obtain ⟨ls, rfl⟩ := hub_exec _ _ _ h
  have hg : ∀ i ≤ n, (Join.withLatest n sel).machine.got (Comb.exec (Comb.withLatestHub n sel) ls) i =
      Comb.received i (Comb.exec (Comb.withLatestHub n sel) ls).log :=
    fun i hi => got_eq _ _ _ _ (Nat.lt_succ_of_le hi)
  have stop : ¬ (.gone ∈ (Comb.exec (Comb.withLatestHub n sel) ls).log ∨ Comb.Ended (Comb.exec (Comb.withLatestHub n sel) ls).log) :=
    fun h => h.elim hc he
  refine ⟨⟨Comb.taken (Comb.exec (Comb.withLatestHub n sel) ls).log, fun j hj => ?_, ?_⟩, fun i hi e hme => ?_, fun hme => ?_⟩
  · rw [hg j hj]; exact (Comb.C26_taken _ sel ls j).2 (hr j)
  · exact hv.trans (Comb.C26_exact n sel ls (hr 0) hc he)
  · rw [hg i hi] at hme
    exact stop (Comb.C26_ends n sel ls i (hr i) (.inr ⟨e, .inl (Comb.mem_received.1 hme)⟩))
  · rw [hg 0 (Nat.zero_le _)] at hme
    exact stop (Comb.C26_ends n sel ls 0 (hr 0) (.inl ⟨rfl, Comb.mem_received.1 hme⟩))

theorem takeUntil_all {s} (h : (Join.takeUntil : Join ε α α).machine.Reach s) (hr : (Join.takeUntil : Join ε α α).Rest s)
    (hc : ¬ (Join.takeUntil : Join ε α α).Cut s) (hf : (seqOf ((Join.takeUntil : Join ε α α).machine.told s)).fin = none) :
    (Join.takeUntil : Join ε α α).MakesAll ((Join.takeUntil : Join ε α α).machine.got s) (seqOf ((Join.takeUntil : Join ε α α).machine.told s)).vals := by
  have he := not_ended _ _ _ h hf
  have ht := (hub_tame _ _ _ h).2
  obtain ⟨hv, -⟩ := told_seq _ _ _ h
  obtain ⟨ls, rfl⟩ := hub_exec _ _ _ h
  have hg : ∀ i < 2, (Join.takeUntil : Join ε α α).machine.got (Comb.exec Comb.takeUntilHub ls) i =
      Comb.received i (Comb.exec Comb.takeUntilHub ls).log :=
    fun i hi => got_eq _ _ _ _ hi
  have h1 : ∀ c, .recv 1 c ∉ (Comb.exec (Comb.takeUntilHub : Comb.Hub α α ε _) ls).log := fun c hm =>
    (Comb.C35_notifier_ends ls c hm (hr 0) (hr 1)).elim hc he
  have hx := Comb.C35_mirror_exact ls h1 (hr 0) hc ht
  refine ⟨?_, fun t hm => ?_, ?_⟩
  · rw [hg 0 (by decide), ← hx]
    refine hv.trans ?_
    rw [Comb.values_eq]
    exact Comb.nexts_of_zero fun i v h => Comb.C35_values ls i v (Comb.mem_begs.1 h)
  · rw [hg 0 (by decide), ← hx] at hm
    exact he (.inl ⟨0, t, Comb.mem_begs.1 (Comb.mem_ofSrc.1 hm)⟩)
  · rw [hg 1 (by decide)]
    exact List.eq_nil_iff_forall_not_mem.2 fun c hm => h1 c (Comb.mem_received.1 hm)

theorem merge_all (n : Nat) {s} (h : (Join.merge n : Join ε α α).machine.Reach s) (hr : (Join.merge n : Join ε α α).Rest s)
    (hc : ¬ (Join.merge n : Join ε α α).Cut s) (hf : (seqOf ((Join.merge n : Join ε α α).machine.told s)).fin = none) :
    (Join.merge n : Join ε α α).MakesAll ((Join.merge n : Join ε α α).machine.got s) (seqOf ((Join.merge n : Join ε α α).machine.told s)).vals := by
  have hI := merge_inv n h
  have he := not_ended _ _ _ h hf
  have ht := (hub_tame _ _ _ h).2
  obtain ⟨hv, -⟩ := told_seq _ _ _ h
  obtain ⟨ls, rfl⟩ := hub_exec _ _ _ h
  obtain ⟨hr, h0⟩ := hr
  have h0 : .recv 0 (.term .completed) ∈ (Comb.exec (Comb.mergeHub : Comb.Hub α α ε Nat) ls).log := by
    refine h0.resolve_right fun hs => ?_
    have := (Comb.inv1 _ ls).shut hs
    rw [Comb.not_gone ls hc he] at this; cases this
  have hg : ∀ i ≤ n, (Join.merge n : Join ε α α).machine.got (Comb.exec Comb.mergeHub ls) i = Comb.received (i + 1) (Comb.exec Comb.mergeHub ls).log :=
    fun i hi => got_eq _ _ _ _ (Nat.lt_succ_of_le hi)
  have hlt : ∀ i c, .recv i c ∈ (Comb.exec (Comb.mergeHub : Comb.Hub α α ε Nat) ls).log → i ≤ n + 1 := fun i c hr =>
    hI.ports i (((Comb.inv1 _ ls).active i).2 (Comb.recv_active (Comb.inv2 _ ls) hr))
  have hb : ∀ v, (0, .next v) ∉ Comb.begs (Comb.exec (Comb.mergeHub : Comb.Hub α α ε Nat) ls).log := fun v hm =>
    (Comb.C23_origin ls 0 v (Comb.mem_begs.1 hm)).1 rfl
  refine ⟨⟨(Comb.nextsP (Comb.begs (Comb.exec (Comb.mergeHub : Comb.Hub α α ε Nat) ls).log)).map fun p => (p.1 - 1, p.2), ?_, ?_, ?_⟩, ?_, ?_⟩
  · refine hv.trans ?_
    rw [Comb.values_eq, Comb.nexts_eq, List.map_map]; rfl
  · intro p hp
    obtain ⟨⟨i, v⟩, hm, rfl⟩ := List.mem_map.1 hp
    have : .beg i (.next v) ∈ (Comb.exec (Comb.mergeHub : Comb.Hub α α ε Nat) ls).log := by
      refine Comb.mem_begs.1 ?_
      simp only [Comb.nextsP, List.mem_filterMap] at hm
      obtain ⟨⟨j, o⟩, hm, e⟩ := hm
      cases o <;> simp at e
      obtain ⟨rfl, rfl⟩ := e; exact hm
    have := hlt _ _ (Comb.C23_origin ls i v this).2
    simp only; omega
  · intro i hi
    rw [ofTaken_begs _ hb, hg i hi]
    exact Comb.C23_lossless ls (i + 1) (Nat.succ_ne_zero i) (hr _) hc he
  · intro i hi e hm
    rw [hg i hi] at hm
    exact (Comb.C23_error_ends ls (i + 1) e (Comb.mem_received.1 hm) (hr _)).elim hc he
  · refine Classical.byContradiction fun hn => ?_
    have hK : ∀ k, .opened k ∈ (Comb.exec (Comb.mergeHub : Comb.Hub α α ε Nat) ls).log →
        .recv k (.term .completed) ∈ (Comb.exec (Comb.mergeHub : Comb.Hub α α ε Nat) ls).log := fun k hk => by
      have h1 := hI.ports k (((Comb.inv1 _ ls).active k).2 (.inr hk))
      have h2 : k ≠ 0 := by
        rintro rfl
        obtain ⟨p, q, e⟩ := List.append_of_mem hk
        exact ((Comb.inv2 Comb.mergeHub ls).legal p _ q e).1 (by simp [Comb.mergeHub])
      obtain ⟨k, rfl⟩ : ∃ i, k = i + 1 := ⟨k - 1, by omega⟩
      refine Comb.mem_received.1 (Classical.byContradiction fun hm => hn ⟨k, by omega, ?_⟩)
      rw [hg k (by omega)]; exact hm
    obtain ⟨i, hi⟩ := Comb.C23_completes ls hr h0 hK hc ht
    exact he (.inl ⟨i, _, hi⟩)

open Time.Delay in
theorem upToTerm_all (l : List (Item α ε)) (h : ∀ x ∈ upToTerm l, x.term = false) : upToTerm l = l := by
  induction l with
  | nil => rfl
  | cons x l ih =>
    unfold upToTerm at h ⊢
    by_cases hx : x.term = true
    · rw [if_pos hx] at h; rw [h x (by simp)] at hx; cases hx
    · rw [if_neg hx] at h ⊢
      rw [ih fun y hy => h y (by simp [hy])]

open Time.Delay in
theorem delay_all (d : Nat) {s} (h : (Join.delay d : Join ε α α).machine.Reach s) (hr : (Join.delay d : Join ε α α).Rest s)
    (hc : ¬ (Join.delay d : Join ε α α).Cut s) (hf : (seqOf ((Join.delay d : Join ε α α).machine.told s)).fin = none) :
    (Join.delay d : Join ε α α).MakesAll ((Join.delay d : Join ε α α).machine.got s) (seqOf ((Join.delay d : Join ε α α).machine.told s)).vals := by
  have hI := delay_inv d h
  obtain ⟨h1, -⟩ := prefix_last (delay_told d h) hI.last
  have hv := seqOf_vals _ h1
  obtain ⟨ls, hls⟩ := hI.run
  have hr : Quiescent (exec (α := α) (ε := ε) false d ls) := by rw [← hls]; exact hr
  have hc : .gone ∉ (exec (α := α) (ε := ε) false d ls).log := by rw [← hls]; exact hc
  have hL := C36_lossless d ls hr hc
  have hfed := hI.fed
  have hnt : ∀ x ∈ upToTerm ((arrivals (exec (α := α) (ε := ε) false d ls).log).map (·.1)), x.term = false := by
    intro x hx
    rw [← hL] at hx
    obtain ⟨p, hp, rfl⟩ := List.mem_map.1 hx
    refine Bool.eq_false_iff.2 fun ht => ?_
    have hm : ofItem p.1 ∈ (Join.delay d : Join ε α α).machine.told s := by
      refine List.mem_map.2 ⟨p, ?_, rfl⟩
      rw [hls]; exact hp
    obtain ⟨t, e⟩ : ∃ t, ofItem p.1 = .term t := by
      rcases p with ⟨x, t⟩
      cases x with
      | val v => cases ht
      | err e => exact ⟨_, rfl⟩
      | done => exact ⟨_, rfl⟩
    rw [e] at hm
    have := seqOf_ended _ h1 hm
    rw [hf] at this; cases this
  have hall := upToTerm_all _ hnt
  have htold : (Join.delay d : Join ε α α).machine.told s = (show List (Sig α ε) from s.2) := by
    have e1 : (Join.delay d : Join ε α α).machine.told s = ((delivered s.1.log).map (·.1)).map ofItem := by
      rw [List.map_map]; rfl
    rw [e1]
    refine Eq.trans ?_ hfed.symm
    have e2 : pending (s.1.calls 0) = [] := by rw [hls, hr.1 0]; rfl
    rw [e2, List.append_nil, hls, hL, hall, List.map_map]; rfl
  refine ⟨?_, fun t hm => ?_⟩
  · rw [hv, htold]; rfl
  · have hm : .term t ∈ (Join.delay d : Join ε α α).machine.told s := by rw [htold]; exact hm
    have := seqOf_ended _ h1 hm
    rw [hf] at this; cases this

theorem join_all : {α β : Type} → (j : Join ε α β) → {s : j.machine.S} → j.machine.Reach s → j.Rest s → ¬ j.Cut s →
    (seqOf (j.machine.told s)).fin = none → j.MakesAll (j.machine.got s) (seqOf (j.machine.told s)).vals
  | _, _, .merge n, _, h => merge_all n h
  | _, _, .zip n sel, _, h => zip_all n sel h
  | _, _, .combineLatest n sel, _, h => combineLatest_all n sel h
  | _, _, .withLatest n sel, _, h => withLatest_all n sel h
  | _, _, .takeUntil, _, h => takeUntil_all h
  | _, _, .delay d, _, h => delay_all d h

end Rpp.Net
