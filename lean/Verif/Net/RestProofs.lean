import Verif.Net.AllProofs
import Verif.Net.TreeProofs

/-! At rest, nothing is missing in the whole expression. -/

namespace Rpp.Net

open Comb (Sig)

variable {ε : Type}

theorem trans_term {α β σ : Type} {P : OpStrategy α β ε σ} (hP : P.OK) (cs : List (Call α ε)) (h : cs.any Call.isTerm = true) :
    ∀ s, (P.trans s cs).any Call.isTerm = true := by
  induction cs with
  | nil => cases h
  | cons c cs ih =>
    intro s
    rw [OpStrategy.trans, List.any_append]
    cases hc : c.isTerm with
    | true => rw [OpStrategy.feed_term hP s c hc, Bool.true_or]
    | false =>
      rw [List.any_cons, hc, Bool.false_or] at h
      rw [ih h, Bool.or_true]

theorem pipe_term : {α γ : Type} → (p : Pipe ε α γ) → (cs : List (Call α ε)) → cs.any Call.isTerm = true → (p.trans cs).any Call.isTerm = true
  | _, _, .nil, _, h => h
  | _, _, .cons o p, _, h => pipe_term p _ (any_isTerm_append_right _ _ (trans_term o.ok _ h _))

theorem fin_iff {α : Type} (cs : List (Call α ε)) : (traceOf cs).fin = none ↔ cs.any Call.isTerm = false := by
  induction cs with
  | nil => simp [traceOf]
  | cons c cs ih => cases c <;> simp [traceOf, Call.isTerm, ih]

theorem fin_back {α γ : Type} (p : Pipe ε α γ) (cs : List (Call α ε)) (h : (traceOf (p.trans cs)).fin = none) : (traceOf cs).fin = none := by
  rw [fin_iff] at h ⊢
  cases hc : cs.any Call.isTerm with
  | false => rfl
  | true => rw [pipe_term p cs hc] at h; cases h

/-! ## Nothing is refused -/

variable {α β σ : Type}

theorem hub_ready (H : Comb.Hub α β ε σ) (n : Nat) (port : Nat → Nat) {s : Comb.St α β ε σ} (h : (hubMachine H n port).Reach s)
    (hr : ∀ i, s.calls i = .idle) (hc : .gone ∉ s.log) (hf : (seqOf ((hubMachine H n port).told s)).fin = none) (i : Nat) (hi : i < n)
    (ha : s.active (port i) = true) (hn : (hubMachine H n port).ready s i = false) : ∃ t, .term t ∈ (hubMachine H n port).got s i := by
  have he := not_ended H n port h hf
  obtain ⟨ls, rfl⟩ := hub_exec H n port h
  have hg := Comb.not_gone ls hc he
  have hs : (Comb.exec H ls).shut = false := by
    cases hs : (Comb.exec H ls).shut with
    | false => rfl
    | true => rw [(Comb.inv1 H ls).shut hs] at hg; cases hg
  have hn : ((Comb.St.calls (Comb.exec H ls) (port i)).isIdle && (Comb.exec H ls).active (port i) && !(Comb.exec H ls).done (port i) &&
    !(Comb.exec H ls).shut && decide (i < n)) = false := hn
  rw [hr, ha, hs] at hn
  simp only [Comb.Pc.isIdle, hi, decide_true, Bool.not_false, Bool.true_and, Bool.and_true, Bool.not_eq_false'] at hn
  obtain ⟨t, ht⟩ := ((Comb.inv1 H ls).done (port i)).1 hn
  refine ⟨t, ?_⟩
  rw [got_eq _ _ _ _ hi]
  exact Comb.mem_received.2 ht

theorem join_ready : {α β : Type} → (j : Join ε α β) → {s : j.machine.S} → j.machine.Reach s → j.Rest s → ¬ j.Cut s →
    (seqOf (j.machine.told s)).fin = none → (i : Nat) → i < j.arity → j.machine.ready s i = false → ∃ t, .term t ∈ j.machine.got s i
  | _, _, .merge n, s, h, hr, hc, hf, i, hi => by
    refine hub_ready _ _ _ h hr.1 hc hf i hi ?_
    refine (merge_inv n h).outer ?_ (i + 1) (Nat.succ_le_succ (Nat.le_of_lt_succ hi))
    have he := not_ended _ _ _ h hf
    obtain ⟨ls, rfl⟩ := hub_exec _ _ _ h
    have h0 := hr.2.resolve_right fun hs => by
      have := (Comb.inv1 _ ls).shut hs
      rw [Comb.not_gone ls hc he] at this; cases this
    exact ((Comb.inv1 _ ls).done 0).2 ⟨_, h0⟩
  | _, _, .zip n sel, s, h, hr, hc, hf, i, hi => by
    refine hub_ready _ _ _ h hr hc hf i hi ?_
    obtain ⟨ls, rfl⟩ := hub_exec _ _ _ h
    exact ((Comb.inv1 _ ls).active i).2 (.inl (List.mem_range.2 hi))
  | _, _, .combineLatest n sel, s, h, hr, hc, hf, i, hi => by
    refine hub_ready _ _ _ h hr hc hf i hi ?_
    obtain ⟨ls, rfl⟩ := hub_exec _ _ _ h
    exact ((Comb.inv1 _ ls).active i).2 (.inl (List.mem_range.2 hi))
  | _, _, .withLatest n sel, s, h, hr, hc, hf, i, hi => by
    refine hub_ready _ _ _ h hr hc hf i hi ?_
    obtain ⟨ls, rfl⟩ := hub_exec _ _ _ h
    exact ((Comb.inv1 _ ls).active i).2 (.inl (List.mem_range.2 hi))
  | _, _, .takeUntil, s, h, hr, hc, hf, i, hi => by
    refine hub_ready _ _ _ h hr hc hf i hi ?_
    obtain ⟨ls, rfl⟩ := hub_exec _ _ _ h
    have hi : i < 2 := hi
    refine ((Comb.inv1 _ ls).active i).2 (.inl ?_)
    show i ∈ [0, 1]
    simp; omega
  | α, _, .delay d, s, h, hr, hc, hf, i, hi => fun hn => by
    have hi : i < 1 := hi
    have hi : i = 0 := by omega
    subst hi
    have hI := delay_inv d h
    obtain ⟨h1, -⟩ := prefix_last (delay_told d h) hI.last
    have hd : s.1.disposed = false := by
      cases hd : s.1.disposed with
      | false => rfl
      | true =>
        obtain ⟨ls, hls⟩ := hI.run
        have hT : Time.Delay.InvT s.1 := by rw [hls]; exact (Time.Delay.all_inv (α := α) (ε := ε) false d ls).2.2.2.2
        rcases hT.t2 hd with ht | hg
        · obtain ⟨b, hb, ht⟩ := List.any_eq_true.1 ht
          have hm : ofItem b.1 ∈ (Join.delay d : Join ε α α).machine.told s := List.mem_map.2 ⟨b, hb, rfl⟩
          obtain ⟨t, e⟩ : ∃ t, ofItem b.1 = .term t := by
            rcases b with ⟨x, t⟩
            cases x with
            | val v => cases ht
            | err e => exact ⟨_, rfl⟩
            | done => exact ⟨_, rfl⟩
          rw [e] at hm
          have := seqOf_ended _ h1 hm
          rw [hf] at this; cases this
        · obtain ⟨b, hb, hg⟩ := List.any_eq_true.1 hg
          cases b <;> first | exact absurd hb hc | cases hg
    have hn : (decide (0 = 0) && idle (s.1.calls 0) && !s.1.disposed && !(show List (Sig α ε) from s.2).any Sig.isTerm) = false := hn
    have hq : s.1.calls 0 = .idle := hr.1 0
    rw [hq, hd] at hn
    simp only [decide_true, idle, Bool.true_and, Bool.not_false, Bool.not_eq_false'] at hn
    obtain ⟨x, hx, ht⟩ := List.any_eq_true.1 hn
    cases x with
    | next v => cases ht
    | term t => exact ⟨t, hx⟩

theorem got_all {α β : Type} (j : Join ε α β) {s : j.machine.S} (h : j.machine.Reach s) (hr : j.Rest s) (hc : ¬ j.Cut s)
    (hf : (seqOf (j.machine.told s)).fin = none) (i : Nat) (hi : i < j.arity) (o : Trace α ε) (hp : j.machine.got s i <+: notes o)
    (hs : push j.machine s i o = s) : j.machine.got s i = notes o := by
  cases hx : (notes o)[(j.machine.got s i).length]? with
  | none =>
    obtain ⟨r, hr⟩ := hp
    rw [← hr] at hx ⊢
    cases r with
    | nil => simp
    | cons y r => simp at hx
  | some x =>
    cases hn : j.machine.ready s i with
    | false =>
      obtain ⟨t, ht⟩ := join_ready j h hr hc hf i hi hn
      exact notes_end hp ht
    | true =>
      unfold push at hs
      rw [hx] at hs
      simp only [hn, if_true] at hs
      have := ((join_fair j).feed s i x hn).1
      rw [hs] at this
      have := congrArg List.length this
      simp at this

/-- At rest `merge` has got all of the outer observable … -/
theorem outer_all {ι Z : Type} {key : Z → ι} {says : Z → Trace α ε} {h : Comb.St α α ε Nat} {o : Trace ι ε} {zs : List Z}
    (hg : FGood key says h o zs) (hr : ∀ i, h.calls i = .idle) (hc : .gone ∉ h.log) (hf : (seqOf (flatTold h)).fin = none)
    (hn : outerNext h (zs.map key) o = none) : (⟨zs.map key, outerFin h⟩ : Trace ι ε) = o := by
  refine notes_inj ?_
  have hs := flat_open hg.inv hc hf
  have ha := (hg.inv.ports 0).2 (Nat.zero_le _)
  unfold outerNext at hn
  cases hd : h.done 0 with
  | true =>
    obtain ⟨t, ht⟩ := flat_done hg.inv.run 0 hd
    refine notes_end hg.pre (f := t) ?_
    rw [(outerFin_iff hg.inv t).2 (Comb.mem_received.1 ht)]
    simp [notes]
  | false =>
    have : outerReady h = true := by simp [outerReady, hr, ha, hd, hs, Comb.Pc.isIdle]
    rw [this] at hn
    obtain ⟨r, e⟩ := hg.pre
    rw [← e] at hn ⊢
    cases r with
    | nil => simp
    | cons y r => simp at hn

/-- … and of the inner ones. -/
theorem inner_all {ι Z : Type} {key : Z → ι} {says : Z → Trace α ε} {h : Comb.St α α ε Nat} {o : Trace ι ε} {zs : List Z}
    (hg : FGood key says h o zs) (hr : ∀ i, h.calls i = .idle) (hc : .gone ∉ h.log) (hf : (seqOf (flatTold h)).fin = none)
    (k : Nat) (z : Z) (hz : zs[k]? = some z) (hn : pushInner h k (says z) = h) : Comb.received (k + 1) h.log = notes (says z) := by
  have hs := flat_open hg.inv hc hf
  have hk : k < zs.length := (List.getElem?_eq_some_iff.1 hz).1
  have ha := (hg.inv.ports (k + 1)).2 hk
  cases hd : h.done (k + 1) with
  | true =>
    obtain ⟨t, ht⟩ := flat_done hg.inv.run (k + 1) hd
    exact notes_end (hg.kids k z hz) ht
  | false =>
    have hR : innerReady h k = true := by simp [innerReady, hr, ha, hd, hs, Comb.Pc.isIdle]
    cases hx : (notes (says z))[(Comb.received (k + 1) h.log).length]? with
    | none =>
      obtain ⟨r, e⟩ := hg.kids k z hz
      rw [← e] at hx ⊢
      cases r with
      | nil => simp
      | cons y r => simp at hx
    | some x =>
      unfold pushInner at hn
      rw [hx] at hn
      simp only [hR, if_true] at hn
      have := (inner_step hg.inv hR x).2.2.1
      rw [hn] at this
      have := congrArg List.length this
      simp at this

theorem canAll_seq : {γ : Type} → (n : Net ε γ) → n.WF → (s : n.State) → Good n s → n.Rest s → n.Kept s → n.CanAll (n.given s) (n.seq s)
  | _, .src p, hw, s, _, _, _ => p.trans_spec hw s
  | _, .join j kids p, hw, s, h, hr, hk => by
    refine ⟨j.machine.got s.1, seqOf (j.machine.told s.1),
      fun i _ => ⟨_, can_seq (kids i) (hw.1 i) (s.2 i) (h.2 i).2, (h.2 i).1⟩, join_makes j h.1, p.trans_spec hw.2 _, fun hf => ?_⟩
    obtain ⟨hc, hk⟩ := hk hf
    have hu : (seqOf (j.machine.told s.1)).fin = none := fin_back p _ hf
    refine ⟨join_all j h.1 hr.1 hc hu, fun i hi => ⟨_, canAll_seq (kids i) (hw.1 i) (s.2 i) (h.2 i).2 (hr.2 i hi).2 (hk i hi), ?_⟩⟩
    exact got_all j h.1 hr.1 hc hu i hi _ (h.2 i).1 (hr.2 i hi).1
  | _, .flat eq q f p, hw, s, h, hr, hk => by
    have hget : ∀ (k : Nat) z, (s.2.2.map fun z => (⟨z.1, (f z.1).given z.2⟩ : Σ x, (f x).Inp))[k]? = some z →
        ∃ w, s.2.2[k]? = some w ∧ z = ⟨w.1, (f w.1).given w.2⟩ := by
      intro k z hk
      rw [List.getElem?_map] at hk
      obtain ⟨w, hw, e⟩ := Option.map_eq_some_iff.1 hk
      exact ⟨w, hw, e.symm⟩
    have hlen : (s.2.2.map fun z => (⟨z.1, (f z.1).given z.2⟩ : Σ x, (f x).Inp)).length = s.2.2.length := List.length_map ..
    refine ⟨q.seq s.2.1, ⟨s.2.2.map (·.1), outerFin s.1⟩, fun k => Comb.received (k + 1) s.1.log, seqOf (flatTold s.1),
      can_seq q hw.1 _ h.2.1, h.1.pre, ?_, fun k z hk => ?_, ?_, p.trans_spec hw.2.2 _, fun hf => ?_⟩
    · show s.2.2.map (·.1) = (s.2.2.map fun z => (⟨z.1, (f z.1).given z.2⟩ : Σ x, (f x).Inp)).map (·.1)
      rw [List.map_map]; rfl
    · obtain ⟨w, hw', rfl⟩ := hget k z hk
      exact ⟨_, can_seq (f w.1) (hw.2.1 w.1) w.2 (h.2.2 k w hw'), h.1.kids k w hw'⟩
    · have := flat_makes h.1.inv
      show FlatMakes (s.2.2.map fun z => (⟨z.1, (f z.1).given z.2⟩ : Σ x, (f x).Inp)).length _ _ _
      rw [hlen]; exact this
    · obtain ⟨hc, hkq, hkk⟩ := hk hf
      have hu : (seqOf (flatTold s.1)).fin = none := fin_back p _ hf
      refine ⟨?_, ?_, fun k z hk => ?_⟩
      · show FlatAll (s.2.2.map fun z => (⟨z.1, (f z.1).given z.2⟩ : Σ x, (f x).Inp)).length _ _ _
        rw [hlen]; exact flat_all h.1.inv hr.1 hc hu
      · rw [outer_all h.1 hr.1 hc hu hr.2.1]
        exact canAll_seq q hw.1 _ h.2.1 hr.2.2.1 hkq
      · obtain ⟨w, hw', rfl⟩ := hget k z hk
        exact ⟨_, canAll_seq (f w.1) (hw.2.1 w.1) w.2 (h.2.2 k w hw') (hr.2.2.2 k w hw').2 (hkk k w hw'),
          inner_all h.1 hr.1 hc hu k w hw' (hr.2.2.2 k w hw').1⟩
  | _, .follow eq ks sw p, hw, s, h, hr, hk => by
    obtain ⟨vs, g, h1, h2, h3, h4, h5⟩ := folgood_seq h.1
    have hseq : Net.seq (.follow eq ks sw p) s = p.spec ⟨vs ++ g.vals, g.fin⟩ := by rw [← h5]; exact p.trans_spec hw.2 _
    refine ⟨s.1.ends, vs, (ks s.1.ends).seq (s.2 s.1.ends), g, h1.mono fun i o t _ ho _ => ?_, can_seq (ks s.1.ends) (hw.1 _) _ (h.2 _), h3, h4, hseq,
      fun hf => ?_⟩
    · subst ho
      exact can_seq (ks i) (hw.1 i) (s.2 i) (h.2 i)
    · obtain ⟨hc, hkk⟩ := hk hf
      have hu : (seqOf s.1.told).fin = none := fin_back p _ hf
      have hg : g = (ks s.1.ends).seq (s.2 s.1.ends) := notes_inj (by rw [← h2]; exact follow_all h.1.pre hc hr.1)
      refine ⟨h1.mono fun i o t hi ho _ => ?_, ?_, by rw [h5] at hu; exact hu⟩
      · subst ho
        have hi : i <+: s.1.ends := (List.prefix_append ..).trans hi
        exact canAll_seq (ks i) (hw.1 i) (s.2 i) (h.2 i) (hr.2 i hi) (hkk i hi)
      · rw [hg]
        exact canAll_seq (ks s.1.ends) (hw.1 _) _ (h.2 _) (hr.2 _ (List.prefix_refl _)) (hkk _ (List.prefix_refl _))

end Rpp.Net
