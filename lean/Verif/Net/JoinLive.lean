import Verif.Net.HubLive

/-! Every operator can always come to rest. -/

namespace Rpp.Net

open Comb (Sig)

variable {α β ε σ : Type}

theorem zip_goes (n : Nat) (sel : List α → Except ε β) {s : Comb.St α β ε (Comb.ZipSt α)} (h : (Join.zip n sel).machine.Reach s) :
    Goes (Join.zip n sel).machine HubAct.safe s (fun s' => (Join.zip n sel).machine.Reach s' ∧ (Join.zip n sel).Rest s') :=
  (hub_quiet (Comb.zipHub (n + 1) sel) _ _ (fun i e x e' h => by cases h) h).bind fun s' hs => .here ⟨hs.1, hs.2.1⟩

theorem combineLatest_goes (n : Nat) (sel : List α → Except ε β) {s : Comb.St α β ε (Comb.LatestSt α)} (h : (Join.combineLatest n sel).machine.Reach s) :
    Goes (Join.combineLatest n sel).machine HubAct.safe s
      (fun s' => (Join.combineLatest n sel).machine.Reach s' ∧ (Join.combineLatest n sel).Rest s') :=
  (hub_quiet (Comb.combineLatestHub (n + 1) sel) _ _ (fun i e x e' h => by cases h) h).bind fun s' hs => .here ⟨hs.1, hs.2.1⟩

theorem withLatest_goes (n : Nat) (sel : α → List α → Except ε β) {s : Comb.St α β ε (Nat → Option α)} (h : (Join.withLatest n sel).machine.Reach s) :
    Goes (Join.withLatest n sel).machine HubAct.safe s
      (fun s' => (Join.withLatest n sel).machine.Reach s' ∧ (Join.withLatest n sel).Rest s') :=
  (hub_quiet (Comb.withLatestHub n sel) _ _ (fun i e x e' h => by cases h) h).bind fun s' hs => .here ⟨hs.1, hs.2.1⟩

theorem takeUntil_goes {s : Comb.St α α ε Bool} (h : (Join.takeUntil : Join ε α α).machine.Reach s) :
    Goes (Join.takeUntil : Join ε α α).machine HubAct.safe s
      (fun s' => (Join.takeUntil : Join ε α α).machine.Reach s' ∧ (Join.takeUntil : Join ε α α).Rest s') :=
  (hub_quiet Comb.takeUntilHub _ _ (fun i e x e' h => by cases x <;> cases h) h).bind fun s' hs => .here ⟨hs.1, hs.2.1⟩

/-- `merge_with` can subscribe to the operands that are left. -/
theorem merge_opens (n : Nat) (ks : List Nat) : (∀ k ∈ ks, k < n + 1) → ∀ s : Comb.St α α ε Nat,
    (Join.merge n : Join ε α α).machine.Reach s → (∀ i, s.calls i = .idle) → s.shut = false → s.done 0 = false →
    Goes (Join.merge n : Join ε α α).machine HubAct.safe s (fun s' : Comb.St α α ε Nat => (Join.merge n : Join ε α α).machine.Reach s' ∧
      (∀ i, s'.calls i = .idle) ∧ s'.shut = false ∧ s'.done 0 = false ∧ (∀ j, s.active j = true → s'.active j = true) ∧
      ∀ k ∈ ks, s'.active (k + 1) = true) := by
  induction ks with
  | nil => exact fun _ s h hq hs hd => .here ⟨h, hq, hs, hd, fun _ h => h, fun _ h => by cases h⟩
  | cons k ks ih =>
    intro hks s h hq hs hd
    have hks' : ∀ k ∈ ks, k < n + 1 := fun j hj => hks j (List.mem_cons_of_mem _ hj)
    cases ha : s.active (k + 1) with
    | true =>
      refine (ih hks' s h hq hs hd).bind fun s' ⟨h1, h2, h3, h4, h5, h6⟩ => .here ⟨h1, h2, h3, h4, h5, fun j hj => ?_⟩
      rcases List.mem_cons.1 hj with rfl | hj
      · exact h5 _ ha
      · exact h6 j hj
    | false =>
      have h0 : s.active 0 = true := by
        obtain ⟨ls, rfl⟩ := hub_exec _ _ _ h
        exact ((Comb.inv1 _ ls).active 0).2 (.inl (by simp [Comb.mergeHub]))
      let s1 : Comb.St α α ε Nat := { s with st := s.st + 1, shut := false, active := fun j => if j = k + 1 then true else s.active j }.goto 0 .opening |>.emit (.opened (k + 1))
      have e1 : (Join.merge n : Join ε α α).machine.act s (.opn k) = s1 := by
        show (if k < n + 1 then Comb.step Comb.mergeHub s (.opn (k + 1)) else s) = s1
        rw [if_pos (hks k (by simp))]
        simp only [Comb.step, hq 0, h0, hd, hs, ha, Comb.Pc.isIdle, Comb.mergeHub, Bool.not_false, Bool.and_true, if_true]
        rfl
      let s2 : Comb.St α α ε Nat := s1.goto 0 .idle
      have e2 : (Join.merge n : Join ε α α).machine.act s1 (.run 0) = s2 := rfl
      have r2 : (Join.merge n : Join ε α α).machine.Reach s2 := by
        rw [← e2, ← e1]; exact .act _ (.act _ h)
      have q2 : ∀ i, s2.calls i = .idle := by
        intro i
        show (if i = 0 then Comb.Pc.idle else if i = 0 then Comb.Pc.opening else s.calls i) = _
        split
        · rfl
        · exact hq i
      refine .step (HubAct.opn k) rfl ?_
      rw [e1]
      refine .step (HubAct.run 0) rfl ?_
      rw [e2]
      have hact : ∀ j, s2.active j = if j = k + 1 then true else s.active j := fun _ => rfl
      refine (ih hks' s2 r2 q2 rfl hd).bind fun s' ⟨h1, h2, h3, h4, h5, h6⟩ => .here ⟨h1, h2, h3, h4, fun j hj => h5 j ?_, fun j hj => ?_⟩
      · rw [hact]; split
        · rfl
        · exact hj
      · rcases List.mem_cons.1 hj with rfl | hj
        · exact h5 _ (by rw [hact, if_pos rfl])
        · exact h6 j hj

theorem merge_goes (n : Nat) {s : Comb.St α α ε Nat} (h : (Join.merge n : Join ε α α).machine.Reach s) :
    Goes (Join.merge n : Join ε α α).machine HubAct.safe s
      (fun s' => (Join.merge n : Join ε α α).machine.Reach s' ∧ (Join.merge n : Join ε α α).Rest s') := by
  have hE : ∀ i e x e', ((Comb.mergeHub : Comb.Hub α α ε Nat).act i (.term (.error e)) x).1 ≠ .throw e' := fun i e x e' h => by cases h
  refine (hub_quiet Comb.mergeHub (n + 1) (· + 1) hE h).bind fun (s1 : Comb.St α α ε Nat) ⟨h1, q1, _⟩ => ?_
  cases hs : s1.shut with
  | true => exact .here ⟨h1, q1, .inr hs⟩
  | false =>
    cases hd : s1.done 0 with
    | true =>
      refine .here ⟨h1, q1, .inl ?_⟩
      have hI := merge_inv n h1
      obtain ⟨ls, rfl⟩ := hub_exec _ _ _ h1
      obtain ⟨t, ht⟩ := ((Comb.inv1 _ ls).done 0).1 hd
      have := hI.only _ (Comb.mem_received.2 ht)
      rw [← this]; exact ht
    | false =>
      refine (merge_opens n (List.range (n + 1)) (fun k hk => List.mem_range.1 hk) s1 h1 q1 hs hd).bind
        fun (s2 : Comb.St α α ε Nat) ⟨h2, q2, hs2, hd2, _, ha2⟩ => ?_
      have h0 : s2.active 0 = true := by
        obtain ⟨ls, rfl⟩ := hub_exec _ _ _ h2
        exact ((Comb.inv1 _ ls).active 0).2 (.inl (by simp [Comb.mergeHub]))
      let s3 : Comb.St α α ε Nat := { s2 with shut := false, done := fun j => if j = 0 then true else s2.done j }.goto 0 (.pre (.term .completed)) |>.emit (.recv 0 (.term .completed))
      have e3 : (Join.merge n : Join ε α α).machine.act s2 .outer = s3 := by
        show (if Comb.mergeHub.dyn && (List.range (n + 1)).all (fun k => s2.active (k + 1)) then Comb.step Comb.mergeHub s2 (.term 0 .completed) else s2) = s3
        have : (List.range (n + 1)).all (fun k => s2.active (k + 1)) = true := List.all_eq_true.2 ha2
        rw [this]
        simp only [Comb.step, q2 0, h0, hd2, hs2, Comb.Pc.isIdle, Comb.mergeHub, Bool.not_false, Bool.and_true, if_true]
        rfl
      have h3 : (Join.merge n : Join ε α α).machine.Reach s3 := by rw [← e3]; exact .act _ h2
      refine .step HubAct.outer rfl ?_
      rw [e3]
      refine (hub_quiet Comb.mergeHub (n + 1) (· + 1) hE h3).bind fun (s4 : Comb.St α α ε Nat) ⟨h4, q4, c4⟩ => .here ⟨h4, q4, .inl ?_⟩
      refine Comb.mem_received.1 ?_
      rw [c4.recv]
      exact Comb.mem_received.2 (List.mem_append.2 (.inr (by simp)))

open Time.Delay in
theorem delay_goes (d : Nat) {s} (h : (Join.delay d : Join ε α α).machine.Reach s) :
    Goes (Join.delay d : Join ε α α).machine DelayAct.safe s
      (fun s' => (Join.delay d : Join ε α α).machine.Reach s' ∧ (Join.delay d : Join ε α α).Rest s') := by
  have own : ∀ s : St α ε × List (Sig α ε), (Join.delay d : Join ε α α).machine.Reach s → ∃ own, InvO false s.1 own := by
    intro s h
    obtain ⟨ls, hls⟩ := (delay_inv d h).run
    rw [hls]
    exact (all_inv (α := α) (ε := ε) false d ls).2.1
  -- let the call in progress return
  have idl : ∀ (m : Nat) (s : St α ε × List (Sig α ε)), (Join.delay d : Join ε α α).machine.Reach s → Stages.wc (s.1.calls 0) = m →
      Goes (Join.delay d : Join ε α α).machine DelayAct.safe s
        (fun s' : St α ε × List (Sig α ε) => (Join.delay d : Join ε α α).machine.Reach s' ∧ ∀ i, s'.1.calls i = .idle) := by
    intro m
    induction m using Nat.strongRecOn with
    | ind m ih =>
      intro s h hm
      by_cases hc : s.1.calls 0 = .idle
      · refine .here ⟨h, fun i => ?_⟩
        by_cases hi : i = 0
        · rw [hi]; exact hc
        · exact (delay_inv d h).one i hi
      · obtain ⟨own, ho⟩ := own s h
        have hl : s.1.mutex = none ∨ (s.1.calls 0).locks = true := by
          cases hm : s.1.mutex with
          | none => exact .inl rfl
          | some i =>
            have h1 := ho.mtx' i hm
            by_cases hi : i = 0
            · subst hi; exact .inr h1
            · rw [(delay_inv d h).one i hi] at h1; cases h1
        refine .step DelayAct.call rfl (ih _ ?_ _ (.act DelayAct.call h) rfl)
        rw [← hm]
        exact Stages.wc_call false d s.1 hl hc
  -- let the task run dry
  have dry : ∀ (m : Nat) (s : St α ε × List (Sig α ε)) (t : Nat), Stages.weight s.1 t = m → (Join.delay d : Join ε α α).machine.Reach s →
      (∀ i, s.1.calls i = .idle) → s.1.mutex = none → Stages.Ripe s.1 → (∀ v, v ≠ t → (s.1.tasks v).live = false) →
      Goes (Join.delay d : Join ε α α).machine DelayAct.safe s
        (fun s' => (Join.delay d : Join ε α α).machine.Reach s' ∧ (Join.delay d : Join ε α α).Rest s') := by
    intro m
    induction m using Nat.strongRecOn with
    | ind m ih =>
      intro s t hm h hc hx hr hv
      cases ht : (s.1.tasks t).live with
      | false =>
        refine .here ⟨h, hc, fun v => ?_⟩
        have : (s.1.tasks v).live = false := by
          by_cases hvt : v = t
          · rw [hvt]; exact ht
          · exact hv v hvt
        revert this
        cases s.1.tasks v <;> simp [TPc.live]
      | true =>
        obtain ⟨h1, h2, h3, h4, h5⟩ := Stages.task_step false d s.1 t hx hr ht
        refine .step (DelayAct.task t) rfl (ih _ ?_ _ t rfl (.act (DelayAct.task t) h) (fun i => ?_) h4 h2 (fun v hvt => ?_))
        · rw [← hm]; exact h1
        · show (step false d s.1 (.task t)).calls i = _
          rw [h3]; exact hc i
        · show ((step false d s.1 (.task t)).tasks v).live = _
          rw [h5 v hvt]; exact hv v hvt
  refine (idl _ s h rfl).bind fun (s1 : St α ε × List (Sig α ε)) ⟨h1, q1⟩ => ?_
  obtain ⟨own, ho⟩ := own s1 h1
  have hx : s1.1.mutex = none := by
    cases hm : s1.1.mutex with
    | none => rfl
    | some i => have := ho.mtx' i hm; rw [q1 i] at this; cases this
  have hK : ∀ q : List (Item α ε × Nat), ∃ K, ∀ b ∈ q, b.2 ≤ K := by
    intro q
    induction q with
    | nil => exact ⟨0, fun _ h => by cases h⟩
    | cons b q ih =>
      obtain ⟨K, hK⟩ := ih
      refine ⟨K + b.2, fun c hc => ?_⟩
      rcases List.mem_cons.1 hc with rfl | hc
      · omega
      · have := hK c hc; omega
  obtain ⟨K, hK⟩ := hK s1.1.queue
  have hex : ∃ t, ∀ v, v ≠ t → (s1.1.tasks v).live = false := by
    by_cases hh : ∃ t, (s1.1.tasks t).live = true
    · obtain ⟨t, ht⟩ := hh
      refine ⟨t, fun v hv => ?_⟩
      cases hl : (s1.1.tasks v).live with
      | false => rfl
      | true =>
        have h1 := ho.live t ht
        have h2 := ho.live v hl
        rw [h1] at h2
        cases h2
        exact absurd rfl hv
    · refine ⟨0, fun v _ => ?_⟩
      cases hl : (s1.1.tasks v).live with
      | false => rfl
      | true => exact absurd ⟨v, hl⟩ hh
  obtain ⟨t, ht⟩ := hex
  refine .step (DelayAct.tick K) rfl (dry _ _ t rfl (.act (DelayAct.tick K) h1) q1 hx (fun b hb => ?_) ht)
  have := hK b hb
  show b.2 ≤ s1.1.now + K
  omega

/-- Not a disposal from outside; a test on the constructor. -/
def Join.safe : {α β : Type} → (j : Join ε α β) → j.machine.A → Bool
  | _, _, .merge _ => HubAct.safe
  | _, _, .zip _ _ => HubAct.safe
  | _, _, .combineLatest _ _ => HubAct.safe
  | _, _, .withLatest _ _ => HubAct.safe
  | _, _, .takeUntil => HubAct.safe
  | _, _, .delay _ => DelayAct.safe

theorem join_goes : {α β : Type} → (j : Join ε α β) → {s : j.machine.S} → j.machine.Reach s →
    Goes j.machine j.safe s (fun s' => j.machine.Reach s' ∧ j.Rest s')
  | _, _, .merge n, _, h => merge_goes n h
  | _, _, .zip n sel, _, h => zip_goes n sel h
  | _, _, .combineLatest n sel, _, h => combineLatest_goes n sel h
  | _, _, .withLatest n sel, _, h => withLatest_goes n sel h
  | _, _, .takeUntil, _, h => takeUntil_goes h
  | _, _, .delay d, _, h => delay_goes d h

end Rpp.Net
