import Verif.Combine.HubEnd

/-! Lemmas about the single operators. -/

namespace Rpp.Comb

variable {α β ε σ : Type}

theorem snocInduct {γ : Type} {P : List γ → Prop} (h0 : P []) (hs : ∀ l a, P l → P (l ++ [a])) : ∀ l, P l := by
  intro l
  have : ∀ r : List γ, P r.reverse := by
    intro r
    induction r with
    | nil => exact h0
    | cons a r ih => rw [List.reverse_cons]; exact hs _ _ ih
  simpa using this l.reverse

theorem sigVals_append (a b : List (Sig α ε)) : sigVals (a ++ b) = sigVals a ++ sigVals b := by simp [sigVals]

theorem sigVals_ofSrc_append (i : Nat) (a b : List (Nat × Sig β ε)) : sigVals (ofSrc i (a ++ b)) = sigVals (ofSrc i a) ++ sigVals (ofSrc i b) := by
  rw [ofSrc_append, sigVals_append]

theorem processed_prefix {H : Hub α β ε σ} (ls : List (Lbl α ε)) (i : Nat) : processed i (exec H ls).log <+: received i (exec H ls).log :=
  ⟨_, ((inv1 H ls).recv i).symm⟩

theorem processed_eq {H : Hub α β ε σ} (ls : List (Lbl α ε)) {i : Nat} (hi : (exec H ls).calls i = .idle) :
    processed i (exec H ls).log = received i (exec H ls).log := by
  rw [(inv1 H ls).recv i, hi]; simp [Pc.pend]

theorem sigVals_prefix {a b : List (Sig α ε)} (h : a <+: b) : sigVals a <+: sigVals b := by
  obtain ⟨c, rfl⟩ := h
  exact ⟨_, (sigVals_append a c).symm⟩

theorem mem_sigVals {v : α} {l : List (Sig α ε)} : v ∈ sigVals l ↔ .next v ∈ l := by
  unfold sigVals
  rw [List.mem_filterMap]
  constructor
  · rintro ⟨c, h1, h2⟩
    cases c <;> simp at h2
    subst h2; exact h1
  · intro h; exact ⟨_, h, rfl⟩

/-- Not disposed: the history says so. -/
theorem not_gone {H : Hub α β ε σ} (ls : List (Lbl α ε)) (h : .gone ∉ (exec H ls).log) (h' : ¬ Ended (exec H ls).log) :
    (exec H ls).gone = false := by
  cases hg : (exec H ls).gone with
  | false => rfl
  | true => exact ((inv3 H ls).why hg).elim (absurd · h) (absurd · h')

/-- As long as nothing has ended and no notification of it is under way, each source subscribed to at the start is heard. -/
theorem heard {H : Hub α β ε σ} (ls : List (Lbl α ε)) (i : Nat) (hs : i ∈ H.start ∨ .opened i ∈ (exec H ls).log)
    (hi : (exec H ls).calls i = .idle)
    (hd : ∀ t, .recv i (.term t) ∉ (exec H ls).log) (hg : .gone ∉ (exec H ls).log) (he : ¬ Ended (exec H ls).log) :
    (∀ v, (exec H (ls ++ [.next i v])).log = (exec H ls).log ++ [.recv i (.next v)]) ∧
    ∀ t, (exec H (ls ++ [.term i t])).log = (exec H ls).log ++ [.recv i (.term t)] := by
  have h1 := inv1 H ls
  have ha : (exec H ls).active i = true := (h1.active i).2 hs
  have hdn : (exec H ls).done i = false := by
    cases hc : (exec H ls).done i with
    | false => rfl
    | true => obtain ⟨t, ht⟩ := (h1.done i).1 hc; exact absurd ht (hd t)
  have hsh : (exec H ls).shut = false := by
    cases hc : (exec H ls).shut with
    | false => rfl
    | true => have := h1.shut hc; rw [not_gone ls hg he] at this; cases this
  constructor
  · intro v
    have e : ∀ l, exec H (ls ++ [l]) = step H (exec H ls) l := fun l => by simp [exec, List.foldl_append]
    rw [e]
    simp [step, hi, ha, hdn, hsh, Pc.isIdle, St.emit, St.goto]
  · intro t
    have e : ∀ l, exec H (ls ++ [l]) = step H (exec H ls) l := fun l => by simp [exec, List.foldl_append]
    rw [e]
    simp [step, hi, ha, hdn, hsh, Pc.isIdle, St.emit, St.goto]

/-- When the operator has completed, everything it produced had been told. -/
theorem complete_valuesP {H : Hub α β ε σ} {cnt : σ → Nat} (hC : Counting H cnt) (h0 : 0 ∈ H.start)
    (hlate : ∀ i c x v, (H.act i c x).1 = .out (.next v) → H.early i c = false)
    (hval : ∀ i t x v, (H.act i (.term t) x).1 ≠ .out (.next v)) (ls : List (Lbl α ε))
    (h : ∃ i, .beg i (.term .completed) ∈ (exec H ls).log) :
    nextsP (replay H (exec H ls).log).1 = nextsP (begs (exec H ls).log) ∧ ∀ k, ((exec H ls).calls k).pend = [] := by
  have hstep : ∀ ls, (∃ i, .beg i (.term .completed) ∈ (exec H ls).log) → ∀ k c, (exec H ls).calls k ≠ .pre c := by
    rintro ls ⟨i, hi⟩ k c hk
    have hr : .recv k c ∈ (exec H ls).log := by rw [← mem_received, (inv1 H ls).recv, hk]; simp [Pc.pend]
    have := (alive hC h0 ls).made i (told_made H ls hi) k (recv_active (inv2 H ls) hr)
    exact (inv3 H ls).fresh k c hk _ this
  refine ⟨?_, fun k => ?_⟩
  · have : ∀ n, (∃ i, .beg i (.term .completed) ∈ (exec H (ls.take n)).log) → nextsP (replay H (exec H (ls.take n)).log).1 = nextsP (begs (exec H (ls.take n)).log) := by
      intro n
      induction n with
      | zero => rintro ⟨i, hi⟩; simp [exec, Hub.initSt] at hi
      | succ n ih =>
        by_cases hn : n < ls.length
        · rw [List.take_succ_eq_append_getElem hn]
          have he : exec H (ls.take n ++ [ls[n]]) = step H (exec H (ls.take n)) ls[n] := by
            unfold exec; rw [List.foldl_append]; rfl
          rw [he]
          have hpre := hstep (ls.take n)
          obtain ⟨rest, ho1, ho2⟩ := valuesP_order H hlate (ls.take n)
          have h1 := inv2 H (ls.take n)
          have h4 := inv2 H (ls.take n ++ [ls[n]])
          rw [he] at h4
          generalize exec H (ls.take n) = s at *
          rcases step_tr H s ls[n] with h | t
          · rw [h]; exact ih
          · generalize step H s ls[n] = s' at *
            rintro ⟨i, hi⟩
            by_cases hold : ∃ i, .beg i (.term .completed) ∈ s.log
            · have ih := ih hold
              have hpre := hpre hold
              cases t with
              | early j c ev hp he =>
                rcases hp with ⟨hp, _⟩ | ⟨e, hp, rfl, rfl⟩
                · exact absurd hp (hpre j c)
                · have hv := hval j (.error e) (replay H s.log).2
                  simp only [St.goto, St.emit, replay_snoc, replayStep, begs_snoc, List.append_nil]
                  split
                  · next o ho =>
                    rw [nextsP_append, ih]
                    cases o with
                    | next v => exact absurd ho (hv v)
                    | term t => simp [nextsP]
                  · exact ih
              | late j c ev hp he hl =>
                rcases hp with ⟨hp, _⟩ | ⟨e, hp, rfl, rfl⟩
                · exact absurd hp (hpre j c)
                · have hv := hval j (.error e) (replay H s.log).2
                  simp only [St.goto, St.emit, replay_snoc, replayStep, begs_snoc, List.append_nil]
                  split
                  · next o ho =>
                    rw [nextsP_append, ih]
                    cases o with
                    | next v => exact absurd ho (hv v)
                    | term t => simp [nextsP]
                  · exact ih
              | beg j o hc hg =>
                obtain ⟨i', hi'⟩ := hold
                exact absurd (.inl ⟨i', _, hi'⟩) (h4.legal s.log _ [] rfl).2.2
              | _ => simpa [St.goto, St.emit, replay_snoc, replayStep, begs_snoc] using ih
            · cases t with
              | beg j o hc hg =>
                have hl := (h1.lock j).2 (by rw [hc]; rfl)
                have h5 := ho2 hg
                subst h5
                have ho : o = .term .completed := by
                  simp only [St.emit, St.goto, List.mem_append, List.mem_singleton] at hi
                  rcases hi with hi | hi
                  · exact absurd ⟨i, hi⟩ hold
                  · cases hi; rfl
                subst ho
                simp only [St.goto, St.emit, replay_snoc, replayStep, begs_snoc, nextsP_append, ho1, St.atDoor, hl, hc]
                simp [nextsP]
              | early j c ev hp he => exfalso; rcases hp with ⟨hp, rfl⟩ | ⟨e, hp, rfl, rfl⟩ <;> simp [St.emit, St.goto] at hi <;> exact hold ⟨i, hi⟩
              | late j c ev hp he => exfalso; rcases hp with ⟨hp, rfl⟩ | ⟨e, hp, rfl, rfl⟩ <;> simp [St.emit, St.goto] at hi <;> exact hold ⟨i, hi⟩
              | _ => exact absurd ⟨i, by simpa [St.emit, St.goto] using hi⟩ hold
        · rw [List.take_of_length_le (by omega), ← List.take_of_length_le (i := n) (l := ls) (by omega)]; exact ih
    have := this ls.length
    rw [List.take_length] at this
    exact this h
  · have := hstep ls h k
    generalize (exec H ls).calls k = p at this ⊢
    cases p <;> first | rfl | exact absurd rfl (this _)

theorem complete_values {H : Hub α β ε σ} {cnt : σ → Nat} (hC : Counting H cnt) (h0 : 0 ∈ H.start)
    (hlate : ∀ i c x v, (H.act i c x).1 = .out (.next v) → H.early i c = false)
    (hval : ∀ i t x v, (H.act i (.term t) x).1 ≠ .out (.next v)) (ls : List (Lbl α ε))
    (h : ∃ i, .beg i (.term .completed) ∈ (exec H ls).log) :
    nexts (replay H (exec H ls).log).1 = values (exec H ls).log ∧ (∀ k, processed k (exec H ls).log = received k (exec H ls).log) ∧
      ∀ k, sigVals (ofSrc k (replay H (exec H ls).log).1) = sigVals (toldBy k (exec H ls).log) := by
  obtain ⟨h1, h2⟩ := complete_valuesP hC h0 hlate hval ls h
  refine ⟨by rw [nexts_eq, h1, values_eq, nexts_eq], fun k => ?_, fun k => by rw [ofSrc_nextsP, h1, toldBy, ofSrc_nextsP]⟩
  rw [(inv1 H ls).recv k, h2, List.append_nil]

theorem ofSrc_single (i j : Nat) (o : Sig β ε) : ofSrc i [(j, o)] = if j = i then [o] else [] := by
  unfold ofSrc; by_cases h : j = i <;> simp [h]

/-! ## merge -/

theorem merge_counting : Counting (mergeHub : Hub α α ε Nat) id where
  start := by simp [mergeHub]
  init := rfl
  opn _ _ _ := rfl
  completed i x := by simp [mergeHub]
  other i c x hc := by
    rcases c with v | _ | _
    · simp only [mergeHub]; split <;> simp
    · exact ⟨rfl, by simp [mergeHub]⟩
    · exact absurd rfl hc

theorem merge_late : ∀ i c x v, ((mergeHub : Hub α α ε Nat).act i c x).1 = .out (.next v) → (mergeHub : Hub α α ε Nat).early i c = false := by
  intro i c x v
  rcases c with v | _ | _ <;> simp [mergeHub]
  split <;> simp

theorem merge_val : ∀ i t x v, ((mergeHub : Hub α α ε Nat).act i (.term t) x).1 ≠ .out (.next v) := by
  intro i t x v
  rcases t with _ | _ <;> simp [mergeHub]
  split <;> simp

theorem merge_made (k : Nat) (hk : k ≠ 0) (log : List (Ev α α ε)) :
    sigVals (ofSrc k (replay mergeHub log).1) = sigVals (processed k log) := by
  induction log using snocInduct with
  | h0 => rfl
  | hs l ev ih =>
    rw [replay_snoc, processed_snoc]
    generalize replay mergeHub l = r at ih
    obtain ⟨outs, n⟩ := r
    cases ev with
    | act i c =>
      rcases c with v | e | _
      · by_cases h0 : i = 0
        · subst h0; simp [replayStep, mergeHub, hk.symm, ih]
        · by_cases hi : i = k
          · subst hi; simp [replayStep, mergeHub, h0, sigVals_ofSrc_append, sigVals_append, ih]; simp [sigVals, ofSrc]
          · simp [replayStep, mergeHub, h0, sigVals_ofSrc_append, hi, ih]; simp [sigVals, ofSrc, hi]
      · by_cases hi : i = k <;> simp [replayStep, mergeHub, sigVals_ofSrc_append, sigVals_append, hi, ih] <;> simp [sigVals, ofSrc, hi]
      · by_cases hi : i = k <;> by_cases hn : n = 1 <;> simp [replayStep, mergeHub, sigVals_ofSrc_append, sigVals_append, hi, hn, ih] <;>
          simp [sigVals, ofSrc, hi]
    | actE i e => by_cases hi : i = k <;> simp [replayStep, mergeHub, sigVals_ofSrc_append, hi, ih] <;> simp [sigVals, ofSrc, hi]
    | _ => simpa [replayStep] using ih

/-! ## zip -/

theorem zip_counting (n : Nat) (sel : List α → Except ε β) : Counting (zipHub n sel) (·.need) where
  start := List.nodup_range
  init := by simp [zipHub]
  opn h := by simp [zipHub] at h
  completed i x := by simp [zipHub]
  other i c x hc := by
    rcases c with v | _ | _
    · simp only [zipHub]; split
      · split <;> simp
      · simp
    · exact ⟨rfl, by simp [zipHub]⟩
    · exact absurd rfl hc

theorem zip_late (n : Nat) (sel : List α → Except ε β) :
    ∀ i c x v, ((zipHub n sel).act i c x).1 = .out (.next v) → (zipHub n sel).early i c = false := by
  intro i c x v
  rcases c with v | _ | _ <;> simp [zipHub]
  split <;> simp

theorem zip_val (n : Nat) (sel : List α → Except ε β) : ∀ i t x v, ((zipHub n sel).act i (.term t) x).1 ≠ .out (.next v) := by
  intro i t x v
  rcases t with _ | _ <;> simp [zipHub]
  split <;> simp

theorem filterMap_congr' {γ δ : Type} {f g : γ → Option δ} {l : List γ} (h : ∀ x ∈ l, f x = g x) : l.filterMap f = l.filterMap g := by
  induction l with
  | nil => rfl
  | cons a l ih => rw [List.filterMap_cons, List.filterMap_cons, h a (by simp), ih fun x hx => h x (by simp [hx])]

/-- The queues hold what has not been combined yet. -/
structure ZipInv (n : Nat) (sel : List α → Except ε β) (vs : Nat → List α) (x : ZipSt α) (outs : List β) : Prop where
  pend : ∀ j < n, outs.length ≤ (vs j).length ∧ x.pend j = (vs j).drop outs.length
  rows : ∀ k w, outs[k]? = some w → sel (row n vs k) = .ok w
  full : (∃ j < n, (vs j).length = outs.length) ∨ (∃ e, sel (row n vs outs.length) = .error e) ∧ ∀ j < n, outs.length < (vs j).length

theorem row_congr {n : Nat} {vs vs' : Nat → List α} {k : Nat} (h : ∀ j < n, (vs j)[k]? = (vs' j)[k]?) : row n vs k = row n vs' k := by
  unfold row
  apply filterMap_congr'
  intro j hj; exact h j (List.mem_range.1 hj)

theorem heads_row {n : Nat} {vs p : Nat → List α} {k : Nat} (h : ∀ j < n, p j = (vs j).drop k) :
    ((List.range n).filterMap fun j => (p j).head?) = row n vs k := by
  unfold row
  apply filterMap_congr'
  intro j hj; rw [h j (List.mem_range.1 hj), List.head?_drop]

theorem ZipInv.next {n : Nat} {sel : List α → Except ε β} {vs : Nat → List α} {x : ZipSt α} {outs : List β} (h : ZipInv n sel vs x outs)
    (i : Nat) (v : α) :
    ZipInv n sel (update vs i (vs i ++ [v])) ((zipHub n sel).act i (.next v) x).2
      (outs ++ match ((zipHub n sel).act i (.next v) x).1 with | .out (.next b) => [b] | _ => []) := by
  obtain ⟨h1, h2, h3⟩ := h
  have hpref : ∀ j, vs j <+: update vs i (vs i ++ [v]) j := fun j => by
    unfold update; split
    · next e => subst e; exact List.prefix_append ..
    · exact List.prefix_rfl
  have hp : ∀ j < n, update x.pend i (x.pend i ++ [v]) j = (update vs i (vs i ++ [v]) j).drop outs.length := fun j hj => by
    unfold update; split
    · next e => subst e; rw [(h1 j hj).2, List.drop_append_of_le_length (h1 j hj).1]
    · exact (h1 j hj).2
  have hget : ∀ j k w, (vs j)[k]? = some w → (update vs i (vs i ++ [v]) j)[k]? = some w := fun j k w hw => by
    obtain ⟨t, ht⟩ := hpref j
    rw [← ht, List.getElem?_append_left]
    · exact hw
    · exact (List.getElem?_eq_some_iff.1 hw).1
  have hrow : ∀ k, k < outs.length → row n (update vs i (vs i ++ [v])) k = row n vs k := fun k hk => row_congr fun j hj => by
    have hlt : k < (vs j).length := Nat.lt_of_lt_of_le hk (h1 j hj).1
    rw [hget j k _ (List.getElem?_eq_getElem hlt), List.getElem?_eq_getElem hlt]
  have hle : ∀ j < n, outs.length ≤ (update vs i (vs i ++ [v]) j).length := fun j hj => Nat.le_trans (h1 j hj).1 (hpref j).length_le
  have hrows : ∀ k w, outs[k]? = some w → sel (row n (update vs i (vs i ++ [v])) k) = .ok w := fun k w hw => by
    rw [hrow k (List.getElem?_eq_some_iff.1 hw).1]; exact h2 k w hw
  have hheads := heads_row hp
  simp only [zipHub]
  split
  · next hall =>
    have hlt : ∀ j < n, outs.length < (update vs i (vs i ++ [v]) j).length := fun j hj => by
      have := List.all_eq_true.1 hall j (List.mem_range.2 hj)
      rw [hp j hj] at this
      simpa using this
    rw [hheads]
    split
    · next b hb =>
      simp only
      refine ⟨fun j hj => ?_, fun k w hw => ?_, ?_⟩
      · simp only [hp j hj, List.length_append, List.length_singleton, List.tail_drop]; exact ⟨hlt j hj, trivial⟩
      · rw [List.getElem?_append] at hw
        split at hw
        · exact hrows k w hw
        · next hk =>
          have hk' : k = outs.length := by
            have := (List.getElem?_eq_some_iff.1 hw).1
            simp at this; omega
          subst hk'
          simp at hw; subst hw; exact hb
      · rcases h3 with ⟨j, hj, hl⟩ | ⟨⟨e, he⟩, hlt0⟩
        · refine .inl ⟨j, hj, ?_⟩
          have := hlt j hj
          revert this
          unfold update
          split
          · next e => subst e; intro _; simp [hl]
          · intro h; omega
        · exfalso
          rw [row_congr (vs' := vs) fun j hj => by
            rw [hget j _ _ (List.getElem?_eq_getElem (hlt0 j hj)), List.getElem?_eq_getElem (hlt0 j hj)], he] at hb
          cases hb
    · next e he =>
      simp only [List.append_nil]
      exact ⟨fun j hj => ⟨hle j hj, hp j hj⟩, hrows, .inr ⟨⟨e, he⟩, hlt⟩⟩
  · next hall =>
    simp only [List.append_nil]
    refine ⟨fun j hj => ⟨hle j hj, hp j hj⟩, hrows, .inl ?_⟩
    have : ∃ j ∈ List.range n, (update x.pend i (x.pend i ++ [v]) j).isEmpty = true := by
      have := hall
      simp only [List.all_eq_true, Classical.not_forall] at this
      obtain ⟨j, hj, hh⟩ := this
      exact ⟨j, hj, by simpa using hh⟩
    obtain ⟨j, hj, hh⟩ := this
    have hj := List.mem_range.1 hj
    rw [hp j hj] at hh
    have := hle j hj
    simp at hh
    exact ⟨j, hj, by omega⟩

theorem zip_made {n : Nat} (hn : 0 < n) (sel : List α → Except ε β) (log : List (Ev α β ε)) :
    ZipInv n sel (fun j => sigVals (processed j log)) (replay (zipHub n sel) log).2 (nexts (replay (zipHub n sel) log).1) := by
  induction log using snocInduct with
  | h0 => exact ⟨fun j _ => ⟨Nat.zero_le _, rfl⟩, fun k w h => by simp [replay, nexts] at h, .inl ⟨0, hn, rfl⟩⟩
  | hs l ev ih =>
    have hvs : ∀ i c, (fun j => sigVals (processed j (l ++ [(.act i c : Ev α β ε)]))) =
        update (fun j => sigVals (processed j l)) i (sigVals (processed i l) ++ sigVals [c]) := fun i c => by
      funext j
      simp only [processed_snoc, sigVals_append, update]
      by_cases e : j = i
      · subst e; simp
      · simp [e, Ne.symm e, sigVals]
    have hno : ∀ ev : Ev α β ε, (∀ i v, ev ≠ .act i (.next v)) → (fun j => sigVals (processed j (l ++ [ev]))) = fun j => sigVals (processed j l) := by
      intro ev he
      funext j
      rw [processed_snoc, sigVals_append]
      cases ev with
      | act i c =>
        cases c with
        | next v => exact absurd rfl (he i v)
        | term t => simp only; split <;> simp [sigVals]
      | _ => simp [sigVals]
    rw [replay_snoc]
    generalize replay (zipHub n sel) l = r at ih
    obtain ⟨outs, x⟩ := r
    simp only at ih
    cases ev with
    | act i c =>
      cases c with
      | next v =>
        have := ih.next i v
        rw [hvs]
        simp only [replayStep]
        revert this
        generalize (zipHub n sel).act i (.next v) x = r
        obtain ⟨a, y⟩ := r
        rcases a with _ | o | _
        · simp [sigVals]
        · cases o <;> simp [nexts, sigVals]
        · simp [sigVals]
      | term t =>
        rw [hno _ (by simp)]
        rcases t with e | _
        · simpa [replayStep, zipHub, nexts] using ih
        · by_cases h1 : x.need = 1
          · simp only [replayStep, zipHub, h1, if_true]
            exact ⟨by simpa [nexts] using ih.pend, by simpa [nexts] using ih.rows, by simpa [nexts] using ih.full⟩
          · simp only [replayStep, zipHub, h1, if_false]
            exact ⟨ih.pend, ih.rows, ih.full⟩
    | actE i e =>
      rw [hno _ (by simp)]
      simpa [replayStep, zipHub, nexts] using ih
    | _ => rw [hno _ (by simp)]; simpa [replayStep, zipHub] using ih

/-! ## combine_latest -/

theorem cl_counting (n : Nat) (sel : List α → Except ε β) : Counting (combineLatestHub n sel) (·.need) where
  start := List.nodup_range
  init := by simp [combineLatestHub]
  opn h := by simp [combineLatestHub] at h
  completed i x := by simp [combineLatestHub]
  other i c x hc := by
    rcases c with v | _ | _
    · simp only [combineLatestHub]; split
      · split <;> simp
      · simp
    · exact ⟨rfl, by simp [combineLatestHub]⟩
    · exact absurd rfl hc

theorem cl_late (n : Nat) (sel : List α → Except ε β) :
    ∀ i c x v, ((combineLatestHub n sel).act i c x).1 = .out (.next v) → (combineLatestHub n sel).early i c = false := by
  intro i c x v
  rcases c with v | _ | _ <;> simp [combineLatestHub]
  split <;> simp

theorem cl_val (n : Nat) (sel : List α → Except ε β) : ∀ i t x v, ((combineLatestHub n sel).act i (.term t) x).1 ≠ .out (.next v) := by
  intro i t x v
  rcases t with _ | _ <;> simp [combineLatestHub]
  split <;> simp

theorem taken_snoc (l : List (Ev α β ε)) (ev : Ev α β ε) : taken (l ++ [ev]) = taken l ++ match ev with | .act i (.next v) => [(i, v)] | _ => [] := by
  unfold taken
  rw [List.filterMap_append]
  congr 1
  cases ev with
  | act i c => cases c <;> rfl
  | _ => rfl

theorem latest_snoc (j : Nat) (l : List (Nat × α)) (p : Nat × α) : latest j (l ++ [p]) = if j = p.1 then some p.2 else latest j l := by
  unfold latest
  rw [List.filter_append]
  by_cases h : p.1 = j
  · simp [h]
  · simp [h, Ne.symm h]

theorem range_take {γ : Type} (l : List (Nat × α)) (p : Nat × α) (f : Nat → List (Nat × α) → Option γ)
    (hf : ∀ k < l.length, f k (l ++ [p]) = f k l) :
    (List.range (l ++ [p]).length).filterMap (fun k => f k (l ++ [p])) = (List.range l.length).filterMap (fun k => f k l) ++ (f l.length (l ++ [p])).toList := by
  rw [List.length_append, List.length_singleton, List.range_succ, List.filterMap_append]
  congr 1
  exact filterMap_congr' fun k hk => hf k (List.mem_range.1 hk)

theorem combineLatestSpec_snoc (n : Nat) (sel : List α → Except ε β) (l : List (Nat × α)) (p : Nat × α) :
    combineLatestSpec n sel (l ++ [p]) = combineLatestSpec n sel l ++ ((latestAll (List.range n) (l ++ [p])).bind fun t => (sel t).toOption).toList := by
  unfold combineLatestSpec
  rw [range_take l p (fun k l => (latestAll (List.range n) (l.take (k + 1))).bind fun t => (sel t).toOption)]
  · rw [List.take_of_length_le (by simp)]
  · intro k hk
    rw [List.take_append_of_le_length (by omega)]

theorem withLatestSpec_snoc (n : Nat) (sel : α → List α → Except ε β) (l : List (Nat × α)) (p : Nat × α) :
    withLatestSpec n sel (l ++ [p]) = withLatestSpec n sel l ++
      (if p.1 = 0 then (latestAll ((List.range n).map (· + 1)) l).bind fun t => (sel p.2 t).toOption else none).toList := by
  unfold withLatestSpec
  rw [range_take l p (fun k l => l[k]?.bind fun p => if p.1 = 0 then (latestAll ((List.range n).map (· + 1)) (l.take k)).bind fun t => (sel p.2 t).toOption else none)]
  · simp
  · intro k hk
    rw [List.take_append_of_le_length (by omega), List.getElem?_append_left hk]

theorem cl_made (n : Nat) (sel : List α → Except ε β) (log : List (Ev α β ε)) :
    (∀ j, (replay (combineLatestHub n sel) log).2.vals j = latest j (taken log)) ∧
    nexts (replay (combineLatestHub n sel) log).1 = combineLatestSpec n sel (taken log) := by
  induction log using snocInduct with
  | h0 => exact ⟨fun j => rfl, rfl⟩
  | hs l ev ih =>
    rw [replay_snoc, taken_snoc]
    generalize replay (combineLatestHub n sel) l = r at ih
    obtain ⟨outs, x⟩ := r
    obtain ⟨ih1, ih2⟩ := ih
    simp only at ih1 ih2
    cases ev with
    | act i c =>
      rcases c with v | e | _
      · have hu : ∀ j, update x.vals i (some v) j = latest j (taken l ++ [(i, v)]) := fun j => by
          rw [latest_snoc]; unfold update; split
          · rfl
          · exact ih1 j
        simp only
        rw [combineLatestSpec_snoc, ← ih2]
        simp only [replayStep, combineLatestHub, latestAll, funext hu]
        split
        · next hall =>
          simp only [Option.bind_some]
          split
          · next b hb => exact ⟨fun j => rfl, by simp [nexts, hb, Except.toOption]⟩
          · next e he => exact ⟨fun j => rfl, by simp [he, Except.toOption]⟩
        · exact ⟨fun j => rfl, by simp⟩
      · simpa [replayStep, combineLatestHub, nexts] using ⟨ih1, ih2⟩
      · by_cases h1 : x.need = 1 <;> simpa [replayStep, combineLatestHub, nexts, h1] using ⟨ih1, ih2⟩
    | actE i e => simpa [replayStep, combineLatestHub, nexts] using ⟨ih1, ih2⟩
    | _ => simpa [replayStep, combineLatestHub] using ⟨ih1, ih2⟩

/-! ## with_latest_from -/

theorem wl_made (n : Nat) (sel : α → List α → Except ε β) (log : List (Ev α β ε)) :
    (∀ j, 0 < j → (replay (withLatestHub n sel) log).2 j = latest j (taken log)) ∧
    sigVals (ofSrc 0 (replay (withLatestHub n sel) log).1) = withLatestSpec n sel (taken log) ∧
    ∀ i v, (i, .next v) ∈ (replay (withLatestHub n sel) log).1 → i = 0 := by
  induction log using snocInduct with
  | h0 => exact ⟨fun j _ => rfl, rfl, fun i v h => by simp [replay] at h⟩
  | hs l ev ih =>
    rw [replay_snoc, taken_snoc]
    generalize replay (withLatestHub n sel) l = r at ih
    obtain ⟨outs, x⟩ := r
    obtain ⟨ih1, ih2, ih3⟩ := ih
    simp only at ih1 ih2 ih3
    have hx : (fun j => x (j + 1)) = fun j => latest (j + 1) (taken l) := funext fun j => ih1 (j + 1) (by omega)
    have hx' : ∀ j, x (j + 1) = latest (j + 1) (taken l) := fun j => ih1 (j + 1) (by omega)
    cases ev with
    | act i c =>
      rcases c with v | e | _
      · simp only
        rw [withLatestSpec_snoc, ← ih2]
        by_cases h0 : i = 0
        · subst h0
          simp only [replayStep, withLatestHub, latestAll, List.all_map, List.filterMap_map, Function.comp_def, hx', if_true]
          have hl : ∀ j, 0 < j → x j = latest j (taken l ++ [(0, v)]) := fun j hj => by
            rw [latest_snoc, if_neg (by simp; omega)]; exact ih1 j hj
          split
          · simp only [Option.bind_some]
            split
            · next b hb =>
              refine ⟨hl, ?_, ?_⟩
              · simp only [hb, Except.toOption, sigVals_ofSrc_append]; simp [sigVals, ofSrc]
              · intro i w hw
                simp only [List.mem_append, List.mem_singleton] at hw
                rcases hw with hw | hw
                · exact ih3 i w hw
                · cases hw; rfl
            · next e he => exact ⟨hl, by simp [he, Except.toOption], ih3⟩
          · exact ⟨hl, by simp, ih3⟩
        · simp only [replayStep, withLatestHub, h0, if_false]
          refine ⟨fun j hj => ?_, by simp, ih3⟩
          rw [latest_snoc]; unfold update; split
          · rfl
          · exact ih1 j hj
      · simp only [replayStep, withLatestHub, List.append_nil]
        refine ⟨ih1, ?_, ?_⟩
        · rw [sigVals_ofSrc_append, ih2]; by_cases h0 : i = 0 <;> simp [sigVals, ofSrc, h0]
        · intro j w hw; simp at hw; exact ih3 j w hw
      · by_cases h0 : i = 0
        · simp only [replayStep, withLatestHub, h0, if_true, List.append_nil]
          refine ⟨ih1, ?_, ?_⟩
          · rw [sigVals_ofSrc_append, ih2]; simp [sigVals, ofSrc]
          · intro j w hw; simp at hw; exact ih3 j w hw
        · simpa only [replayStep, withLatestHub, h0, if_false, List.append_nil] using ⟨ih1, ih2, ih3⟩
    | actE i e =>
      simp only [replayStep, withLatestHub, List.append_nil]
      refine ⟨ih1, ?_, ?_⟩
      · rw [sigVals_ofSrc_append, ih2]; by_cases h0 : i = 0 <;> simp [sigVals, ofSrc, h0]
      · intro j w hw; simp at hw; exact ih3 j w hw
    | _ => simpa only [replayStep, withLatestHub, List.append_nil] using ⟨ih1, ih2, ih3⟩

theorem nexts_of_zero {l : List (Nat × Sig β ε)} (h : ∀ i v, (i, .next v) ∈ l → i = 0) : nexts l = sigVals (ofSrc 0 l) := by
  induction l with
  | nil => rfl
  | cons p l ih =>
    have ih := ih fun i v hm => h i v (List.mem_cons_of_mem _ hm)
    obtain ⟨i, c⟩ := p
    cases c with
    | next v =>
      have := h i v (by simp)
      subst this
      rw [show ((0, Sig.next v) :: l : List (Nat × Sig β ε)) = [(0, .next v)] ++ l from rfl, nexts_append, sigVals_ofSrc_append, ih]
      simp [nexts, sigVals, ofSrc]
    | term t =>
      rw [show ((i, Sig.term t) :: l : List (Nat × Sig β ε)) = [(i, .term t)] ++ l from rfl, nexts_append, sigVals_ofSrc_append, ih]
      by_cases h0 : i = 0 <;> simp [nexts, sigVals, ofSrc, h0]

/-! ## take_until -/

theorem Legal.init {H : Hub α β ε σ} {l : List (Ev α β ε)} {ev : Ev α β ε} (h : Legal H (l ++ [ev])) : Legal H l ∧ Ok H l ev :=
  ⟨fun pre e post he => h pre e (post ++ [ev]) (by rw [he]; simp), h l ev [] rfl⟩

theorem term_last {H : Hub α β ε σ} {log : List (Ev α β ε)} (h : Legal H log) (i : Nat) {a b : List (Sig α ε)} {t : Term ε}
    (hr : received i log = a ++ .term t :: b) : b = [] := by
  induction log using snocInduct generalizing b with
  | h0 => simp [received] at hr
  | hs l ev ih =>
    obtain ⟨hL, ho⟩ := h.init
    rw [received_snoc] at hr
    cases ev with
    | recv j c =>
      simp only at hr
      split at hr
      · next e =>
        subst e
        rcases List.eq_nil_or_concat b with rfl | ⟨b', x, rfl⟩
        · rfl
        · rw [List.concat_eq_append, ← List.cons_append, ← List.append_assoc] at hr
          have := (List.append_inj' hr rfl).1
          exact absurd (mem_received.1 (by rw [this]; simp)) (ho.2 t)
      · rw [List.append_nil] at hr; exact ih hL hr
    | _ => simp only [List.append_nil] at hr; exact ih hL hr

theorem tu_nothrow {log : List (Ev α α ε)} (h : Legal takeUntilHub log) (i : Nat) (e : ε) : .actE i e ∉ log := by
  intro hm
  obtain ⟨p, q, he⟩ := List.append_of_mem hm
  obtain ⟨_, _, c, _, _, _, hh⟩ := h p _ q he
  rcases c with v | t <;> simp only [takeUntilHub] at hh
  · split at hh <;> simp only at hh <;> split at hh <;> cases hh
  · split at hh <;> cases hh

theorem tu_made (log : List (Ev α α ε)) (hE : ∀ i e, .actE i e ∉ log) :
    ofSrc 0 (replay takeUntilHub log).1 <+: processed 0 log ∧
    ((replay takeUntilHub log).2 = false → ofSrc 0 (replay takeUntilHub log).1 = processed 0 log ∧ (∀ c, .act 1 c ∉ log) ∧ ∀ i t, .act i (.term t) ∉ log) ∧
    ((replay takeUntilHub log).2 = true → ∃ i t, (i, .term t) ∈ (replay takeUntilHub log).1) ∧
    (∀ i v, (i, .next v) ∈ (replay takeUntilHub log).1 → i = 0) := by
  induction log using snocInduct with
  | h0 => exact ⟨List.prefix_rfl, fun _ => ⟨rfl, by simp, by simp⟩, fun h => by simp [replay, takeUntilHub] at h, by simp [replay]⟩
  | hs l ev ih =>
    have ih := ih fun i e hm => hE i e (List.mem_append_left _ hm)
    rw [replay_snoc, processed_snoc]
    generalize replay takeUntilHub l = r at ih
    obtain ⟨outs, x⟩ := r
    obtain ⟨ih1, ih2, ih3, ih4⟩ := ih
    simp only at ih1 ih2 ih3 ih4
    cases ev with
    | act i c =>
      cases x with
      | true =>
        have hs : replayStep takeUntilHub (outs, true) (.act i c) = (outs, true) := by
          cases c with
          | next v => by_cases h0 : i = 0 <;> simp [replayStep, takeUntilHub, h0]
          | term t => simp [replayStep, takeUntilHub]
        rw [hs]
        exact ⟨ih1.trans (List.prefix_append ..), by simp, ih3, ih4⟩
      | false =>
        obtain ⟨h1, h2, h3⟩ := ih2 rfl
        cases c with
        | next v =>
          by_cases h0 : i = 0
          · subst h0
            simp only [replayStep, takeUntilHub, if_true, ofSrc_append, h1]
            refine ⟨by simp [ofSrc_single, ofSrc_append, h1], fun _ => ⟨by simp [ofSrc_single, ofSrc_append, h1], by simpa using h2, by simpa using h3⟩, by simp, ?_⟩
            intro i w hw; simp at hw; rcases hw with hw | ⟨hw, _⟩
            · exact ih4 i w hw
            · exact hw
          · simp only [replayStep, takeUntilHub, h0, if_false, ofSrc_append, h1]
            refine ⟨by simp [ofSrc_single, ofSrc_append, h1, h0], by simp, fun _ => ⟨i, .completed, by simp⟩, ?_⟩
            intro i w hw; simp at hw; exact ih4 i w hw
        | term t =>
          simp only [replayStep, takeUntilHub, ofSrc_append, h1]
          refine ⟨by by_cases h0 : i = 0 <;> simp [ofSrc_single, ofSrc_append, h1, h0], by simp, fun _ => ⟨i, t, by simp⟩, ?_⟩
          intro i w hw; simp at hw; exact ih4 i w hw
    | actE i e => exact absurd (by simp) (hE i e)
    | _ => simpa [replayStep, takeUntilHub] using ⟨ih1, ih2, ih3, ih4⟩

theorem prefix_term {H : Hub α β ε σ} {log : List (Ev α β ε)} (h : Legal H log) {i : Nat} {l : List (Sig α ε)} (hp : l <+: received i log)
    {t : Term ε} (ht : .term t ∈ l) : l = received i log := by
  obtain ⟨b, hb⟩ := hp
  obtain ⟨p, q, rfl⟩ := List.append_of_mem ht
  have := term_last h i (a := p) (b := q ++ b) (t := t) (by rw [← hb]; simp)
  obtain ⟨_, rfl⟩ := List.append_eq_nil_iff.1 this
  simpa using hb

/-! ## Errors -/

theorem merge_err : ∀ i c x e, ((mergeHub : Hub α α ε Nat).act i c x).1 = .out (.term (.error e)) → c = .term (.error e) := by
  intro i c x e h
  rcases c with v | _ | _ <;> simp [mergeHub] at h
  · split at h <;> cases h
  · subst h; rfl
  · split at h <;> cases h

theorem merge_err' : ∀ i e x, ∃ t, ((mergeHub : Hub α α ε Nat).act i (.term (.error e)) x).1 = .out (.term t) := fun _ _ _ => ⟨_, rfl⟩

theorem zip_err (n : Nat) (sel : List α → Except ε β) : ∀ i c x e, ((zipHub n sel).act i c x).1 = .out (.term (.error e)) → c = .term (.error e) := by
  intro i c x e h
  rcases c with v | _ | _ <;> simp only [zipHub] at h
  · split at h
    · split at h <;> cases h
    · cases h
  · cases h; rfl
  · split at h <;> cases h

theorem zip_err' (n : Nat) (sel : List α → Except ε β) : ∀ i e x, ∃ t, ((zipHub n sel).act i (.term (.error e)) x).1 = .out (.term t) :=
  fun _ _ _ => ⟨_, rfl⟩

theorem cl_err (n : Nat) (sel : List α → Except ε β) : ∀ i c x e, ((combineLatestHub n sel).act i c x).1 = .out (.term (.error e)) → c = .term (.error e) := by
  intro i c x e h
  rcases c with v | _ | _ <;> simp only [combineLatestHub] at h
  · split at h
    · split at h <;> cases h
    · cases h
  · cases h; rfl
  · split at h <;> cases h

theorem cl_err' (n : Nat) (sel : List α → Except ε β) : ∀ i e x, ∃ t, ((combineLatestHub n sel).act i (.term (.error e)) x).1 = .out (.term t) :=
  fun _ _ _ => ⟨_, rfl⟩

theorem wl_err (n : Nat) (sel : α → List α → Except ε β) : ∀ i c x e, ((withLatestHub n sel).act i c x).1 = .out (.term (.error e)) → c = .term (.error e) := by
  intro i c x e h
  rcases c with v | _ | _ <;> simp only [withLatestHub] at h
  · split at h
    · split at h
      · split at h <;> cases h
      · cases h
    · cases h
  · cases h; rfl
  · split at h <;> cases h

theorem wl_err' (n : Nat) (sel : α → List α → Except ε β) : ∀ i e x, ∃ t, ((withLatestHub n sel).act i (.term (.error e)) x).1 = .out (.term t) :=
  fun _ _ _ => ⟨_, rfl⟩

/-- Operators with a fixed number of sources open none. -/
theorem no_opened {H : Hub α β ε σ} (hd : H.dyn = false) (ls : List (Lbl α ε)) (k : Nat) : .opened k ∉ (exec H ls).log := by
  refine exec_induct H (P := fun s => .opened k ∉ s.log) (by simp [Hub.initSt]) ?_ ls
  intro s s' h t
  cases t with
  | opn j hc ha hdn hs hk hdy => rw [hd] at hdy; cases hdy
  | early j c ev hp he => rcases hp with ⟨hp, rfl⟩ | ⟨e, hp, rfl, rfl⟩ <;> simpa [St.emit, St.goto] using h
  | late j c ev hp he => rcases hp with ⟨hp, rfl⟩ | ⟨e, hp, rfl, rfl⟩ <;> simpa [St.emit, St.goto] using h
  | _ => simpa [St.emit, St.goto] using h

theorem ofTaken_taken (j : Nat) (log : List (Ev α β ε)) : ofTaken j (taken log) = sigVals (processed j log) := by
  unfold ofTaken taken sigVals processed
  rw [List.filterMap_filterMap, List.filterMap_filterMap]
  congr 1; funext ev
  cases ev with
  | act i c => cases c <;> by_cases h : i = j <;> simp [h]
  | _ => rfl

/-- with_latest_from makes no value after having made the completion. -/
theorem wl_completed_last (n : Nat) (sel : α → List α → Except ε β) (log : List (Ev α β ε))
    (h : ∀ a b t, processed 0 log = a ++ .term t :: b → b = []) :
    (.term .completed ∈ ofSrc 0 (replay (withLatestHub n sel) log).1 → .term .completed ∈ processed 0 log) ∧
    ∀ a b, ofSrc 0 (replay (withLatestHub n sel) log).1 = a ++ .term .completed :: b → sigVals b = [] := by
  induction log using snocInduct with
  | h0 => simp [replay, ofSrc]
  | hs l ev ih =>
    have hl : ∀ a b t, processed 0 l = a ++ .term t :: b → b = [] := by
      intro a b t hab
      rw [processed_snoc, hab] at h
      have := h a (b ++ _) t (by rw [List.append_assoc]; rfl)
      exact (List.append_eq_nil_iff.1 this).1
    obtain ⟨ih1, ih2⟩ := ih hl
    have key : ∀ (o : Sig β ε), (∀ v, o = .next v → .term .completed ∉ processed 0 l) →
        ∀ a b, ofSrc 0 ((replay (withLatestHub n sel) l).1 ++ [(0, o)]) = a ++ .term .completed :: b → sigVals b = [] := by
      intro o ho a b hab
      rw [ofSrc_append, ofSrc_single, if_pos rfl] at hab
      rcases List.eq_nil_or_concat b with rfl | ⟨b', x, rfl⟩
      · rfl
      · rw [List.concat_eq_append, ← List.cons_append, ← List.append_assoc] at hab
        obtain ⟨h1, h2⟩ := List.append_inj' hab rfl
        cases h2
        have h3 := ih2 _ _ h1
        rw [List.concat_eq_append, sigVals_append, h3]
        cases o with
        | next v => exact absurd (ih1 (by rw [h1]; simp)) (ho v rfl)
        | term t => rfl
    have hno : ∀ v, ev = .act 0 (.next v) → .term .completed ∉ processed 0 l := by
      rintro v rfl hm
      obtain ⟨a, b, hab⟩ := List.append_of_mem hm
      rw [processed_snoc, hab] at h
      have := h a (b ++ [.next v]) .completed (by simp)
      simp at this
    rw [replay_snoc, processed_snoc]
    generalize replay (withLatestHub n sel) l = r at ih1 ih2 key
    obtain ⟨outs, x⟩ := r
    have other : ∀ (i : Nat) (o : Sig β ε), i ≠ 0 → ofSrc 0 (outs ++ [(i, o)]) = ofSrc 0 outs := by
      intro i o hi; rw [ofSrc_append, ofSrc_single, if_neg hi, List.append_nil]
    cases ev with
    | act i c =>
      rcases c with v | e | _
      · by_cases h0 : i = 0
        · subst h0
          simp only [replayStep, withLatestHub]
          split
          · next o ho =>
            refine ⟨?_, key o fun w hw => hno v rfl⟩
            rw [ofSrc_append, ofSrc_single, if_pos rfl]
            split at ho
            · split at ho
              · split at ho
                · cases ho; simp; exact ih1
                · cases ho
              · cases ho
            · cases ho
          · exact ⟨fun hm => List.mem_append_left _ (ih1 hm), ih2⟩
        · simpa [replayStep, withLatestHub, h0] using ⟨ih1, ih2⟩
      · by_cases h0 : i = 0
        · subst h0
          refine ⟨?_, key _ (by rintro v h; cases h)⟩
          simp only [replayStep, withLatestHub]
          rw [ofSrc_append, ofSrc_single, if_pos rfl]
          simp; exact ih1
        · simp only [replayStep, withLatestHub]
          rw [other i _ h0]; simpa [h0] using ⟨ih1, ih2⟩
      · by_cases h0 : i = 0
        · subst h0
          refine ⟨fun _ => by simp, ?_⟩
          simp only [replayStep, withLatestHub]
          exact key _ (by rintro v h; cases h)
        · simpa [replayStep, withLatestHub, h0] using ⟨ih1, ih2⟩
    | actE i e =>
      by_cases h0 : i = 0
      · subst h0
        refine ⟨?_, key _ (by rintro v h; cases h)⟩
        simp only [replayStep, withLatestHub]
        rw [ofSrc_append, ofSrc_single, if_pos rfl]
        simp; exact ih1
      · simp only [replayStep, withLatestHub]
        rw [other i _ h0]; simpa [h0] using ⟨ih1, ih2⟩
    | _ => simpa [replayStep, withLatestHub] using ⟨ih1, ih2⟩

end Rpp.Comb
