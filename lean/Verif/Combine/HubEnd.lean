import Verif.Combine.HubOrder

/-!
# How a combining operator ends
-/

namespace Rpp.Comb

variable {α β ε σ : Type}

/-- Invariant of the proofs; models no code. -/
structure Inv3 (s : St α β ε σ) : Prop where
  why : s.gone = true → .gone ∈ s.log ∨ Ended s.log
  ending : ∀ i, (s.calls i).ending = true → Ended s.log
  fresh : ∀ i c, s.calls i = .pre c → ∀ t, .act i (.term t) ∉ s.log

theorem Ended.snoc {log : List (Ev α β ε)} (h : Ended log) (ev : Ev α β ε) : Ended (log ++ [ev]) := by
  rcases h with ⟨i, t, h⟩ | ⟨i, e, h⟩
  · exact .inl ⟨i, t, List.mem_append_left _ h⟩
  · exact .inr ⟨i, e, List.mem_append_left _ h⟩

theorem mem_processed {i : Nat} {c : Sig α ε} {log : List (Ev α β ε)} : c ∈ processed i log ↔ .act i c ∈ log := by
  unfold processed
  rw [List.mem_filterMap]
  constructor
  · rintro ⟨ev, h1, h2⟩
    cases ev <;> simp at h2
    obtain ⟨rfl, rfl⟩ := h2; exact h1
  · intro h; exact ⟨_, h, by simp⟩

theorem act_recv {H : Hub α β ε σ} {s : St α β ε σ} (h : Inv1 H s) {i : Nat} {c : Sig α ε} (ha : .act i c ∈ s.log) : .recv i c ∈ s.log := by
  rw [← mem_received, h.recv, List.mem_append]; exact .inl (mem_processed.2 ha)

theorem recv_act {H : Hub α β ε σ} {s : St α β ε σ} (h : Inv1 H s) {i : Nat} {c : Sig α ε} (ha : .recv i c ∈ s.log)
    (hi : s.calls i = .idle) : .act i c ∈ s.log := by
  rw [← mem_received, h.recv, hi] at ha
  exact mem_processed.1 (by simpa [Pc.pend] using ha)

theorem Inv3.tr {H : Hub α β ε σ} {s s' : St α β ε σ} (h1 : Inv1 H s) (h : Inv3 s) (t : Tr H s s') : Inv3 s' := by
  obtain ⟨hw, he, hf⟩ := h
  have hd : ∀ i, s.done i = false → ∀ t, .act i (.term t) ∉ s.log := fun i hi t ht => by
    have := (h1.done i).2 ⟨t, act_recv h1 ht⟩
    rw [hi] at this; cases this
  cases t with
  | recv i c hc ha hdn hs =>
    refine ⟨fun hg => ?_, fun j hj => ?_, fun j c' hj t => ?_⟩
    · exact (hw hg).imp (List.mem_append_left _) (·.snoc _)
    · simp only [St.goto, St.emit] at hj; grind [Ended.snoc, Pc.ending, St.emit, St.goto]
    · simp only [St.goto, St.emit] at hj ⊢; grind
  | opn k hc ha hdn hs hk hdy =>
    refine ⟨fun hg => ?_, fun j hj => ?_, fun j c' hj t => ?_⟩
    · exact (hw hg).imp (List.mem_append_left _) (·.snoc _)
    · simp only [St.goto, St.emit] at hj; grind [Ended.snoc, Pc.ending, St.emit, St.goto]
    · simp only [St.goto, St.emit] at hj ⊢; grind
  | early i c ev hp hea =>
    refine ⟨fun hg => ?_, fun j hj => ?_, fun j c' hj t => ?_⟩
    · exact (hw hg).imp (List.mem_append_left _) (·.snoc _)
    · simp only [St.goto, St.emit] at hj
      split at hj
      · exfalso; cases hx : (H.act i c s.st).1 <;> rw [hx] at hj <;> simp [after, Pc.ending] at hj
      · exact (he j hj).snoc _
    · simp only [St.goto, St.emit] at hj ⊢
      split at hj
      · exfalso; cases hx : (H.act i c s.st).1 <;> rw [hx] at hj <;> simp [after] at hj
      · rcases hp with ⟨hp, rfl⟩ | ⟨e, hp, rfl, rfl⟩ <;> simp <;> grind
  | late i c ev hp hea hl =>
    refine ⟨fun hg => ?_, fun j hj => ?_, fun j c' hj t => ?_⟩
    · exact (hw hg).imp (List.mem_append_left _) (·.snoc _)
    · simp only [St.goto, St.emit] at hj
      split at hj
      · exfalso; cases hx : (H.act i c s.st).1 <;> rw [hx] at hj <;> simp [after, Pc.ending] at hj
      · exact (he j hj).snoc _
    · simp only [St.goto, St.emit] at hj ⊢
      split at hj
      · exfalso; cases hx : (H.act i c s.st).1 <;> rw [hx] at hj <;> simp [after] at hj
      · rcases hp with ⟨hp, rfl⟩ | ⟨e, hp, rfl, rfl⟩ <;> simp <;> grind
  | beg i o hc hg =>
    refine ⟨fun hg' => ?_, fun j hj => ?_, fun j c' hj t => ?_⟩
    · exact (hw hg').imp (List.mem_append_left _) (·.snoc _)
    · simp only [St.goto, St.emit] at hj ⊢
      split at hj
      · cases o with
        | next v => cases hj
        | term t => exact .inl ⟨i, t, by simp⟩
      · exact (he j hj).snoc _
    · simp only [St.goto, St.emit] at hj ⊢; grind
  | own i e hc hg =>
    refine ⟨fun hg' => ?_, fun j hj => ?_, fun j c' hj t => ?_⟩
    · exact (hw hg').imp (List.mem_append_left _) (·.snoc _)
    · exact .inr ⟨i, e, by simp [St.emit, St.goto]⟩
    · simp only [St.goto, St.emit] at hj ⊢; grind
  | finNext i v p hc hp =>
    refine ⟨fun hg => ?_, fun j hj => ?_, fun j c' hj t => ?_⟩
    · exact (hw hg).imp (List.mem_append_left _) (·.snoc _)
    · simp only [St.goto, St.emit] at hj
      split at hj
      · rcases hp with rfl | ⟨e, rfl⟩ <;> cases hj
      · exact (he j hj).snoc _
    · simp only [St.goto, St.emit] at hj ⊢; grind
  | finTerm i hc =>
    have hE : Ended s.log := by rcases hc with ⟨t, hc⟩ | hc <;> exact he i (by rw [hc]; rfl)
    refine ⟨fun hg => ?_, fun j hj => hE.snoc _, fun j c' hj t => ?_⟩
    · exact (hw hg).imp (List.mem_append_left _) (·.snoc _)
    · simp only [St.goto, St.emit] at hj ⊢; grind
  | mark i hc =>
    have hE : Ended s.log := he i (by rw [hc]; rfl)
    refine ⟨fun _ => .inr hE, fun _ _ => hE, fun j c' hj t => ?_⟩
    simp only [St.goto] at hj ⊢; grind
  | gone hg =>
    refine ⟨fun _ => .inl (by simp [St.emit]), fun j hj => (he j hj).snoc _, fun j c' hj t => ?_⟩
    simp only [St.emit] at hj ⊢; grind
  | _ =>
    refine ⟨hw, fun j hj => ?_, fun j c' hj t => ?_⟩
    · simp only [St.goto] at hj ⊢; grind [Pc.ending]
    · simp only [St.goto] at hj ⊢; grind

theorem inv3 (H : Hub α β ε σ) (ls : List (Lbl α ε)) : Inv3 (exec H ls) :=
  (exec_induct H (P := fun s => Inv1 H s ∧ Inv3 s) ⟨.init H, by constructor <;> simp [Hub.initSt, Pc.ending]⟩
    (fun _ _ h t => ⟨h.1.tr t, h.2.tr h.1 t⟩) ls).2

theorem mem_ofSrc {i : Nat} {o : Sig β ε} {l : List (Nat × Sig β ε)} : o ∈ ofSrc i l ↔ (i, o) ∈ l := by
  simp only [ofSrc, List.mem_filterMap]
  constructor
  · rintro ⟨⟨j, x⟩, h, h2⟩
    simp only at h2
    split at h2
    · next e => subst e; cases h2; exact h
    · cases h2
  · intro h; exact ⟨_, h, by simp⟩

theorem mem_begs {i : Nat} {o : Sig β ε} {log : List (Ev α β ε)} : (i, o) ∈ begs log ↔ .beg i o ∈ log := by
  simp only [begs, List.mem_filterMap]
  constructor
  · rintro ⟨ev, h, h2⟩
    cases ev <;> simp at h2
    obtain ⟨rfl, rfl⟩ := h2; exact h
  · intro h; exact ⟨_, h, rfl⟩

/-- What the downstream observer is told, the operator has produced. -/
theorem told_made (H : Hub α β ε σ) (ls : List (Lbl α ε)) {i : Nat} {o : Sig β ε} (h : .beg i o ∈ (exec H ls).log) :
    (i, o) ∈ (replay H (exec H ls).log).1 := by
  obtain ⟨rest, h1, -⟩ := outs_begs H ls i
  rw [← mem_ofSrc, h1]
  exact List.mem_append_left _ (List.mem_append_left _ (mem_ofSrc.2 (mem_begs.2 h)))

/-- What the operator has produced, the downstream observer is told by the time the notification returns, unless it is disposed or has ended. -/
theorem made_told (H : Hub α β ε σ) (ls : List (Lbl α ε)) {i : Nat} {o : Sig β ε} (h : (i, o) ∈ (replay H (exec H ls).log).1)
    (hi : (exec H ls).calls i = .idle) :
    .beg i o ∈ (exec H ls).log ∨ .gone ∈ (exec H ls).log ∨ Ended (exec H ls).log := by
  obtain ⟨rest, h1, h2⟩ := outs_begs H ls i
  rw [← mem_ofSrc, h1, hi] at h
  simp only [Pc.wait, List.append_nil, List.mem_append] at h
  rcases h with h | h
  · exact .inl (mem_begs.1 (mem_ofSrc.1 h))
  · refine .inr ((inv3 H ls).why ?_)
    cases hg : (exec H ls).gone with
    | true => rfl
    | false => rw [h2 hg] at h; cases h

/-- Where a terminal notification comes from. -/
theorem made_split {H : Hub α β ε σ} {log : List (Ev α β ε)} {i : Nat} {o : Sig β ε} (h : (i, o) ∈ (replay H log).1) :
    ∃ p ev q c, log = p ++ ev :: q ∧ (ev = .act i c ∨ ∃ e, c = .term (.error e) ∧ ev = .actE i e) ∧ (H.act i c (replay H p).2).1 = .out o := by
  suffices hg : ∀ (post pre : List (Ev α β ε)), log = pre ++ post → (i, o) ∈ (post.foldl (replayStep H) (replay H pre)).1 →
      (i, o) ∈ (replay H pre).1 ∨ ∃ p ev q c, log = p ++ ev :: q ∧ (ev = .act i c ∨ ∃ e, c = .term (.error e) ∧ ev = .actE i e) ∧
        (H.act i c (replay H p).2).1 = .out o by
    rcases hg log [] (by simp) h with h | h
    · cases h
    · exact h
  intro post
  induction post with
  | nil => intro pre _ h; exact .inl h
  | cons ev post ih =>
    intro pre he h
    rw [List.foldl_cons, ← replay_snoc] at h
    rcases ih (pre ++ [ev]) (by rw [he]; simp) h with h | h
    · rw [replay_snoc] at h
      cases ev with
      | act j c =>
        simp only [replayStep] at h
        split at h
        · next o' ho =>
          rw [List.mem_append, List.mem_singleton] at h
          rcases h with h | h
          · exact .inl h
          · cases h; exact .inr ⟨pre, _, post, c, he, .inl rfl, ho⟩
        · exact .inl h
      | actE j e =>
        simp only [replayStep] at h
        split at h
        · next o' ho =>
          rw [List.mem_append, List.mem_singleton] at h
          rcases h with h | h
          · exact .inl h
          · cases h; exact .inr ⟨pre, _, post, _, he, .inr ⟨e, rfl, rfl⟩, ho⟩
        · exact .inl h
      | _ => exact .inl h
    · exact .inr h

theorem recv_active {H : Hub α β ε σ} {s : St α β ε σ} (h : Inv2 H s) {i : Nat} {c : Sig α ε} (hr : .recv i c ∈ s.log) :
    i ∈ H.start ∨ .opened i ∈ s.log := by
  obtain ⟨p, q, e⟩ := List.append_of_mem hr
  rcases (h.legal p _ q e).1 with h | h
  · exact .inl h
  · exact .inr (by rw [e]; exact List.mem_append_left _ h)

/-! ## Operators that complete when the last source has completed -/

/-- Used in the proofs; models no code. -/
structure Counting (H : Hub α β ε σ) (cnt : σ → Nat) : Prop where
  start : H.start.Nodup
  init : cnt H.init = H.start.length
  opn : H.dyn = true → ∀ k x, cnt (H.opn k x) = cnt x + 1
  completed : ∀ i x, H.act i (.term .completed) x = (if cnt x = 1 then .out (.term .completed) else .silent, (H.act i (.term .completed) x).2) ∧
    cnt (H.act i (.term .completed) x).2 = cnt x - 1
  other : ∀ i c x, c ≠ .term .completed → cnt (H.act i c x).2 = cnt x ∧ (H.act i c x).1 ≠ .out (.term .completed)

/-- The sources that have not completed. -/
structure Alive (H : Hub α β ε σ) (cnt : σ → Nat) (s : St α β ε σ) : Prop where
  alive : ∃ A : List Nat, A.Nodup ∧ cnt s.st = A.length ∧
    ∀ i, i ∈ A ↔ (i ∈ H.start ∨ .opened i ∈ s.log) ∧ .act i (.term .completed) ∉ s.log
  made : ∀ i, (i, .term .completed) ∈ (replay H s.log).1 → ∀ k, (k ∈ H.start ∨ .opened k ∈ s.log) → .act k (.term .completed) ∈ s.log
  conv : (∀ k, (k ∈ H.start ∨ .opened k ∈ s.log) → .act k (.term .completed) ∈ s.log) → ∃ i, (i, .term .completed) ∈ (replay H s.log).1

theorem Alive.tr {H : Hub α β ε σ} {cnt : σ → Nat} (hC : Counting H cnt) (h0 : 0 ∈ H.start) {s s' : St α β ε σ} (h1 : Inv2 H s) (h3 : Inv3 s)
    (h : Alive H cnt s) (t : Tr H s s') : Alive H cnt s' := by
  obtain ⟨⟨A, hN, hL, hA⟩, hm, hcv⟩ := h
  have key : ∀ (ev : Ev α β ε), (∀ k, ev ≠ .opened k) → (∀ i c, ev ≠ .act i c) → (∀ i e, ev ≠ .actE i e) → ∀ s' : St α β ε σ, s'.st = s.st →
      s'.log = s.log ++ [ev] → Alive H cnt s' := by
    intro ev e1 e2 e3 s' hs hl
    have hr : replay H s'.log = replay H s.log := by
      rw [hl, replay_snoc]
      cases ev with
      | act i c => exact absurd rfl (e2 i c)
      | actE i e => exact absurd rfl (e3 i e)
      | opened k => exact absurd rfl (e1 k)
      | _ => rfl
    have ho : ∀ k, .opened k ∈ s'.log ↔ .opened k ∈ s.log := fun k => by
      rw [hl, List.mem_append, List.mem_singleton]; exact ⟨fun hh => hh.elim id (fun hh => absurd hh.symm (e1 k)), .inl⟩
    have ha : ∀ k c, .act k c ∈ s'.log ↔ .act k c ∈ s.log := fun k c => by
      rw [hl, List.mem_append, List.mem_singleton]; exact ⟨fun hh => hh.elim id (fun hh => absurd hh.symm (e2 k c)), .inl⟩
    refine ⟨⟨A, hN, by rw [hs]; exact hL, fun i => by rw [ho, ha]; exact hA i⟩, ?_, ?_⟩
    · rw [hr]; intro i hi k hk; rw [ha]; rw [ho] at hk; exact hm i hi k hk
    · rw [hr]; intro hh; exact hcv (fun k hk => by have := hh k (by rw [ho]; exact hk); rwa [ha] at this)
  have keep : ∀ s' : St α β ε σ, s'.st = s.st → s'.log = s.log → Alive H cnt s' := fun s' hs hl =>
    ⟨⟨A, hN, by rw [hs]; exact hL, by rw [hl]; exact hA⟩, by rw [hl]; exact hm, by rw [hl]; exact hcv⟩
  have proc : ∀ i c ev, Pending s i c ev → ∀ s' : St α β ε σ, s'.st = (H.act i c s.st).2 → s'.log = s.log ++ [ev] → Alive H cnt s' := by
    intro i c ev hp s' hs hl
    have ho : ∀ k, .opened k ∈ s'.log ↔ .opened k ∈ s.log := fun k => by
      rw [hl, List.mem_append, List.mem_singleton]
      rcases hp with ⟨_, rfl⟩ | ⟨e, _, _, rfl⟩ <;> simp
    have hr : replay H s'.log = (match (H.act i c s.st).1 with | .out o => (replay H s.log).1 ++ [(i, o)] | _ => (replay H s.log).1, (H.act i c s.st).2) := by
      rw [hl, replay_snoc]
      rcases hp with ⟨_, rfl⟩ | ⟨e, _, rfl, rfl⟩ <;> simp only [replayStep, ← h1.st] <;> cases (H.act i _ s.st).1 <;> rfl
    by_cases hc : c = .term .completed
    · subst hc
      rcases hp with ⟨hp, rfl⟩ | ⟨e, _, he, _⟩
      rotate_left
      · cases he
      have hf : .act i (.term .completed) ∉ s.log := h3.fresh i _ hp _
      have hiA : i ∈ A := (hA i).2 ⟨recv_active h1 (c := .term .completed) (by rw [← mem_received, h1.recv, hp]; simp [Pc.pend]), hf⟩
      have hca := (hC.completed i s.st).1
      have hcc := (hC.completed i s.st).2
      have ha : ∀ k, .act k (.term .completed) ∈ s'.log ↔ .act k (.term .completed) ∈ s.log ∨ k = i := fun k => by
        rw [hl, List.mem_append, List.mem_singleton]; simp
      refine ⟨⟨A.erase i, hN.erase i, ?_, fun j => ?_⟩, ?_, ?_⟩
      · rw [hs, hcc, hL, List.length_erase_of_mem hiA]
      · rw [hN.mem_erase_iff, hA, ho, ha]
        constructor
        · rintro ⟨h1, h2, h3⟩; exact ⟨h2, fun hh => hh.elim h3 h1⟩
        · rintro ⟨h1, h2⟩; exact ⟨fun hh => h2 (.inr hh), h1, fun hh => h2 (.inl hh)⟩
      · rw [hr, hca]
        intro j hj k hk
        rw [ho] at hk; rw [ha]
        by_cases h1 : cnt s.st = 1
        · obtain ⟨a, rfl⟩ := List.length_eq_one_iff.1 (hL.symm.trans h1)
          rw [List.mem_singleton] at hiA; subst hiA
          by_cases hki : k = i
          · exact .inr hki
          · refine .inl (Classical.byContradiction fun hh => hki ?_)
            exact List.mem_singleton.1 ((hA k).2 ⟨hk, hh⟩)
        · simp only [h1, if_false] at hj
          exact .inl (hm j hj k hk)
      · intro hh
        have h1 : cnt s.st = 1 := by
          have hsub : ∀ k ∈ A, k = i := fun k hk => by
            obtain ⟨h1, h2⟩ := (hA k).1 hk
            exact ((ha k).1 (hh k (by rw [ho]; exact h1))).resolve_left h2
          rw [hL]
          match A, hN, hiA, hsub with
          | [a], _, _, _ => rfl
          | a :: b :: r, hN, _, hsub =>
            have h1 := hsub a (by simp)
            have h2 := hsub b (by simp)
            subst h1; subst h2; simp at hN
        exact ⟨i, by rw [hr, hca]; simp [h1]⟩
    · obtain ⟨hc1, hc2⟩ := hC.other i c s.st hc
      have ha : ∀ k, .act k (.term .completed) ∈ s'.log ↔ .act k (.term .completed) ∈ s.log := fun k => by
        rw [hl, List.mem_append, List.mem_singleton]
        rcases hp with ⟨_, rfl⟩ | ⟨e, _, _, rfl⟩ <;> simp
        rintro rfl rfl; exact absurd rfl hc
      have hmem : ∀ j, (j, .term .completed) ∈ (replay H s'.log).1 ↔ (j, .term .completed) ∈ (replay H s.log).1 := fun j => by
        rw [hr]
        simp only
        split
        · next o ho' =>
          rw [List.mem_append, List.mem_singleton]
          constructor
          · rintro (h | h)
            · exact h
            · cases h; exact absurd ho' hc2
          · exact .inl
        · rfl
      refine ⟨⟨A, hN, by rw [hs, hc1]; exact hL, fun j => by rw [ho, ha]; exact hA j⟩, ?_, ?_⟩
      · intro j hj k hk; rw [ha]; rw [ho] at hk; exact hm j ((hmem j).1 hj) k hk
      · intro hh
        obtain ⟨j, hj⟩ := hcv (fun k hk => by have := hh k (by rw [ho]; exact hk); rwa [ha] at this)
        exact ⟨j, (hmem j).2 hj⟩
  cases t with
  | recv i c hc ha hdn hs => exact key _ (by simp) (by simp) (by simp) _ rfl rfl
  | opn k hc ha hdn hs hk hdy =>
    have hka : ¬ (k ∈ H.start ∨ .opened k ∈ s.log) := fun hh => by have := (h1.active k).2 hh; rw [hk] at this; cases this
    have hkc : .act k (.term .completed) ∉ s.log := fun hh => hka (recv_active h1 (act_recv h1.toInv1 hh))
    have h0c : .act 0 (.term .completed) ∉ s.log := fun hh => by
      have := (h1.done 0).2 ⟨_, act_recv h1.toInv1 hh⟩; rw [hdn] at this; cases this
    refine ⟨⟨k :: A, ?_, ?_, fun j => ?_⟩, ?_, ?_⟩
    · exact List.nodup_cons.2 ⟨fun hh => hka ((hA k).1 hh).1, hN⟩
    · simp only [St.emit, St.goto, hC.opn hdy, hL, List.length_cons]
    · simp only [St.emit, St.goto, List.mem_cons, hA, List.mem_append]
      by_cases hjk : j = k
      · subst hjk; simp [hkc]
      · simp [hjk]
    · intro j hj
      have : (j, .term .completed) ∈ (replay H s.log).1 := by simpa [St.emit, St.goto, replay_snoc, replayStep] using hj
      exact absurd (hm j this 0 (.inl h0)) h0c
    · intro hh
      have := hh 0 (.inl h0)
      simp [St.emit, St.goto, h0c] at this
  | early i c ev hp hea => exact proc i c ev hp _ rfl rfl
  | late i c ev hp hea hl => exact proc i c ev hp _ rfl rfl
  | beg i o hc hg => exact key _ (by simp) (by simp) (by simp) _ rfl rfl
  | own i e hc hg => exact key _ (by simp) (by simp) (by simp) _ rfl rfl
  | finNext i v p hc hp => exact key _ (by simp) (by simp) (by simp) _ rfl rfl
  | finTerm i hc => exact key _ (by simp) (by simp) (by simp) _ rfl rfl
  | gone hg => exact key _ (by simp) (by simp) (by simp) _ rfl rfl
  | _ => exact keep _ rfl rfl

theorem alive {H : Hub α β ε σ} {cnt : σ → Nat} (hC : Counting H cnt) (h0 : 0 ∈ H.start) (ls : List (Lbl α ε)) : Alive H cnt (exec H ls) := by
  refine (exec_induct H (P := fun s => Inv2 H s ∧ Inv3 s ∧ Alive H cnt s) ⟨inv2 H [], inv3 H [], ?_⟩
    (fun _ _ h t => ⟨h.1.tr t, h.2.1.tr h.1.toInv1 t, h.2.2.tr hC h0 h.1 h.2.1 t⟩) ls).2.2
  refine ⟨⟨H.start, hC.start, hC.init, by simp [Hub.initSt]⟩, by simp [Hub.initSt, replay], fun h => ?_⟩
  have := h 0 (.inl h0)
  simp [Hub.initSt] at this

/-- All sources have completed. -/
def AllDone (H : Hub α β ε σ) (log : List (Ev α β ε)) : Prop :=
  ∀ k, (k ∈ H.start ∨ .opened k ∈ log) → .recv k (.term .completed) ∈ log

/-- It completes only after every source has. -/
theorem completes_only {H : Hub α β ε σ} {cnt : σ → Nat} (hC : Counting H cnt) (h0 : 0 ∈ H.start) (ls : List (Lbl α ε)) {i : Nat}
    (h : .beg i (.term .completed) ∈ (exec H ls).log) : AllDone H (exec H ls).log := fun k hk =>
  act_recv (inv1 H ls) ((alive hC h0 ls).made i (told_made H ls h) k hk)

/-- Once every source has completed and the calls have returned, it has ended (unless disposed). -/
theorem completes_when {H : Hub α β ε σ} {cnt : σ → Nat} (hC : Counting H cnt) (h0 : 0 ∈ H.start) (ls : List (Lbl α ε))
    (hq : ∀ i, (exec H ls).calls i = .idle) (h : AllDone H (exec H ls).log) : .gone ∈ (exec H ls).log ∨ Ended (exec H ls).log := by
  obtain ⟨i, hi⟩ := (alive hC h0 ls).conv fun k hk => recv_act (inv1 H ls) (h k hk) (hq k)
  rcases made_told H ls hi (hq i) with h | h | h
  · exact .inr (.inl ⟨i, _, h⟩)
  · exact .inl h
  · exact .inr h

/-- Serialized: callbacks do not overlap, nothing comes after the end or after the disposal. -/
theorem serialized (H : Hub α β ε σ) (ls : List (Lbl α ε)) {pre post : List (Ev α β ε)} {i : Nat} {o : Sig β ε}
    (h : (exec H ls).log = pre ++ .beg i o :: post) : busy pre = false ∧ .gone ∉ pre ∧ ¬ Ended pre :=
  (inv2 H ls).legal pre _ post h

/-- A source that has completed has not failed. -/
theorem one_terminal (H : Hub α β ε σ) (ls : List (Lbl α ε)) {i : Nat} {t t' : Term ε} (h : .recv i (.term t) ∈ (exec H ls).log)
    (h' : .recv i (.term t') ∈ (exec H ls).log) : t = t' := by
  obtain ⟨p, q, e⟩ := List.append_of_mem h
  rw [e, List.mem_append, List.mem_cons] at h'
  rcases h' with h1 | h1 | h1
  · exact absurd h1 (((inv2 H ls).legal p _ q e).2 _)
  · cases h1; rfl
  · obtain ⟨p', q', e'⟩ := List.append_of_mem h1
    have := ((inv2 H ls).legal (p ++ .recv i (.term t) :: p') (.recv i (.term t')) q' (by rw [e, e']; simp)).2 t
    exact absurd (by simp) this

theorem replay_mono (H : Hub α β ε σ) (p q : List (Ev α β ε)) {x : Nat × Sig β ε} (h : x ∈ (replay H p).1) : x ∈ (replay H (p ++ q)).1 := by
  have key : ∀ (q : List (Ev α β ε)) (r : List (Nat × Sig β ε) × σ), x ∈ r.1 → x ∈ (q.foldl (replayStep H) r).1 := by
    intro q
    induction q with
    | nil => intro r h; exact h
    | cons ev q ih =>
      intro r h
      rw [List.foldl_cons]
      apply ih
      cases ev with
      | act i c => simp only [replayStep]; split <;> simp [h]
      | actE i e => simp only [replayStep]; split <;> simp [h]
      | _ => exact h
  unfold replay at h ⊢
  rw [List.foldl_append]
  exact key q _ h

theorem split_made {H : Hub α β ε σ} {p q : List (Ev α β ε)} {i : Nat} {o : Sig β ε} {c : Sig α ε} {ev : Ev α β ε}
    (hev : ev = .act i c ∨ ∃ e, c = .term (.error e) ∧ ev = .actE i e) (ha : (H.act i c (replay H p).2).1 = .out o) :
    (i, o) ∈ (replay H (p ++ ev :: q)).1 := by
  have : (i, o) ∈ (replay H (p ++ [ev])).1 := by
    rw [replay_snoc]
    rcases hev with rfl | ⟨e, rfl, rfl⟩ <;> simp only [replayStep, ha] <;> simp
  have := replay_mono H _ q this
  simpa using this

/-- A source's error ends it. -/
theorem error_ends {H : Hub α β ε σ} (hE : ∀ i e x, ∃ t, (H.act i (.term (.error e)) x).1 = .out (.term t)) (ls : List (Lbl α ε)) {i : Nat} {e : ε}
    (hr : .recv i (.term (.error e)) ∈ (exec H ls).log) (hi : (exec H ls).calls i = .idle) : .gone ∈ (exec H ls).log ∨ Ended (exec H ls).log := by
  obtain ⟨p, q, he⟩ := List.append_of_mem (recv_act (inv1 H ls) hr hi)
  obtain ⟨t, ht⟩ := hE i e (replay H p).2
  have hm := split_made (q := q) (.inl rfl) ht
  rw [← he] at hm
  rcases made_told H ls hm hi with h | h | h
  · exact .inr (.inl ⟨i, _, h⟩)
  · exact .inl h
  · exact .inr h

/-- Where an error comes from: the source, or the selector. -/
theorem error_origin {H : Hub α β ε σ} (hE : ∀ i c x e, (H.act i c x).1 = .out (.term (.error e)) → c = .term (.error e)) (ls : List (Lbl α ε)) {i : Nat} {e : ε}
    (h : .beg i (.term (.error e)) ∈ (exec H ls).log) : .recv i (.term (.error e)) ∈ (exec H ls).log ∨ Threw H (exec H ls).log i e := by
  obtain ⟨p, ev, q, c, he, hev, ha⟩ := made_split (told_made H ls h)
  have hc := hE i c _ e ha
  subst hc
  rcases hev with rfl | ⟨e', h1, rfl⟩
  · left
    have : .recv i (.term (.error e)) ∈ p := (inv2 H ls).legal p _ q he
    rw [he]; exact List.mem_append_left _ this
  · cases h1
    right
    obtain ⟨p', q', c', ev', h1, h2⟩ : Threw H p i e := (inv2 H ls).legal p _ q he
    exact ⟨p', q' ++ .actE i e :: q, c', ev', by rw [he, h1]; simp, h2⟩

theorem completed_origin {H : Hub α β ε σ} (ls : List (Lbl α ε)) {i : Nat}
    (h : .beg i (.term .completed) ∈ (exec H ls).log) :
    ∃ c x, (H.act i c x).1 = .out (.term .completed) ∧ (.recv i c ∈ (exec H ls).log ∨ ∃ e, c = .term (.error e)) := by
  obtain ⟨p, ev, q, c, he, hev, ha⟩ := made_split (told_made H ls h)
  refine ⟨c, _, ha, ?_⟩
  rcases hev with rfl | ⟨e', h1, rfl⟩
  · left
    have : .recv i c ∈ p := (inv2 H ls).legal p _ q he
    rw [he]; exact List.mem_append_left _ this
  · exact .inr ⟨_, h1⟩

/-- The selector's exception is not forgotten. -/
structure Inv4 (H : Hub α β ε σ) (s : St α β ε σ) : Prop where
  threw : ∀ i e, Threw H s.log i e → s.calls i = .preE e ∨ s.calls i = .relThrow e ∨ .actE i e ∈ s.log ∨ s.gone = true

theorem Threw.of_snoc {H : Hub α β ε σ} {log : List (Ev α β ε)} {i : Nat} {e : ε} {ev : Ev α β ε} (h : Threw H (log ++ [ev]) i e) :
    Threw H log i e ∨ ∃ c, (ev = .act i c ∨ ∃ e', c = .term (.error e') ∧ ev = .actE i e') ∧ (H.act i c (replay H log).2).1 = .throw e := by
  obtain ⟨p, q, c, ev', h1, h2, h3⟩ := h
  rcases List.eq_nil_or_concat q with rfl | ⟨q', x, rfl⟩
  · obtain ⟨rfl, h5⟩ := List.append_inj' h1 rfl
    cases h5
    exact .inr ⟨c, h2, h3⟩
  · rw [List.concat_eq_append, ← List.cons_append, ← List.append_assoc] at h1
    exact .inl ⟨p, q', c, ev', (List.append_inj' h1 rfl).1, h2, h3⟩

theorem Inv4.tr {H : Hub α β ε σ} {s s' : St α β ε σ} (h1 : Inv1 H s) (h : Inv4 H s) (t : Tr H s s') : Inv4 H s' := by
  have h := h.threw
  refine ⟨fun i e hT => ?_⟩
  cases t with
  | early j c ev hp he =>
    rcases hT.of_snoc with hT | ⟨c', hc', ha⟩
    · have := h i e hT
      simp only [St.goto, St.emit, List.mem_append, List.mem_singleton]
      by_cases hij : i = j
      · subst hij
        rcases hp with ⟨hp, rfl⟩ | ⟨e', hp, rfl, rfl⟩ <;> rw [hp] at this <;> grind
      · grind
    · have hij : i = j ∧ c' = c := by
        rcases hp with ⟨hp, rfl⟩ | ⟨e', hp, rfl, rfl⟩
        · rcases hc' with hc' | ⟨e'', h1, h2⟩
          · cases hc'; exact ⟨rfl, rfl⟩
          · cases h2
        · rcases hc' with hc' | ⟨e'', h1, h2⟩
          · cases hc'
          · cases h2; exact ⟨rfl, h1⟩
      obtain ⟨rfl, rfl⟩ := hij
      left
      simp only [St.goto, St.emit, if_true]
      rw [← h1.st] at ha; rw [ha]; rfl
  | late j c ev hp he hl =>
    rcases hT.of_snoc with hT | ⟨c', hc', ha⟩
    · have := h i e hT
      simp only [St.goto, St.emit, List.mem_append, List.mem_singleton]
      by_cases hij : i = j
      · subst hij
        rcases hp with ⟨hp, rfl⟩ | ⟨e', hp, rfl, rfl⟩ <;> rw [hp] at this <;> grind
      · grind
    · have hij : i = j ∧ c' = c := by
        rcases hp with ⟨hp, rfl⟩ | ⟨e', hp, rfl, rfl⟩
        · rcases hc' with hc' | ⟨e'', h1, h2⟩
          · cases hc'; exact ⟨rfl, rfl⟩
          · cases h2
        · rcases hc' with hc' | ⟨e'', h1, h2⟩
          · cases hc'
          · cases h2; exact ⟨rfl, h1⟩
      obtain ⟨rfl, rfl⟩ := hij
      right; left
      simp only [St.goto, St.emit, if_true]
      rw [← h1.st] at ha; rw [ha]; rfl
  | recv j c hc ha hd hs =>
    have := h i e (hT.of_snoc.resolve_right (by simp))
    simp only [St.goto, St.emit, List.mem_append]; grind
  | opn k hc ha hd hs hk hdy =>
    have := h i e (hT.of_snoc.resolve_right (by simp))
    simp only [St.goto, St.emit, List.mem_append]; grind
  | beg j o hc hg =>
    have := h i e (hT.of_snoc.resolve_right (by simp))
    simp only [St.goto, St.emit, List.mem_append]; grind
  | own j e' hc hg =>
    have := h i e (hT.of_snoc.resolve_right (by simp))
    simp only [St.goto, St.emit, List.mem_append]; grind
  | finNext j v p hc hp =>
    have := h i e (hT.of_snoc.resolve_right (by simp))
    simp only [St.goto, St.emit, List.mem_append]; grind
  | finTerm j hc =>
    have := h i e (hT.of_snoc.resolve_right (by simp))
    simp only [St.goto, St.emit, List.mem_append]; grind
  | gone hg => exact .inr (.inr (.inr rfl))
  | drop j e' hc hs => exact .inr (.inr (.inr (h1.shut hs)))
  | mark j hc => exact .inr (.inr (.inr rfl))
  | _ =>
    have := h i e hT
    simp only [St.goto]; grind

theorem inv4 (H : Hub α β ε σ) (ls : List (Lbl α ε)) : Inv4 H (exec H ls) := by
  refine (exec_induct H (P := fun s => Inv1 H s ∧ Inv4 H s) ⟨.init H, ⟨fun i e h => ?_⟩⟩ (fun _ _ h t => ⟨h.1.tr t, h.2.tr h.1 t⟩) ls).2
  obtain ⟨p, q, c, ev, h1, _⟩ := h
  simp [Hub.initSt] at h1

/-- A throwing selector ends it. -/
theorem throw_ends {H : Hub α β ε σ} (hE : ∀ i e x, ∃ t, (H.act i (.term (.error e)) x).1 = .out (.term t)) (ls : List (Lbl α ε)) {i : Nat} {e : ε}
    (hT : Threw H (exec H ls).log i e) (hi : (exec H ls).calls i = .idle) : .gone ∈ (exec H ls).log ∨ Ended (exec H ls).log := by
  rcases (inv4 H ls).threw i e hT with h | h | h | h
  · rw [hi] at h; cases h
  · rw [hi] at h; cases h
  · obtain ⟨p, q, he⟩ := List.append_of_mem h
    obtain ⟨t, ht⟩ := hE i e (replay H p).2
    have hm := split_made (q := q) (.inr ⟨e, rfl, rfl⟩) ht
    rw [← he] at hm
    rcases made_told H ls hm hi with h | h | h
    · exact .inr (.inl ⟨i, _, h⟩)
    · exact .inl h
    · exact .inr h
  · exact (inv3 H ls).why h

end Rpp.Comb
