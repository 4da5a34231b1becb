import Verif.Combine.OperatorProofs

/-!
# Which selector call an error comes from

Helper lemmas for C24, C25 and C26.
-/

namespace Rpp.Comb

variable {α β ε σ : Type}

theorem tr_log {H : Hub α β ε σ} {s s' : St α β ε σ} (h : Tr H s s') : s'.log = s.log ∨ ∃ ev, s'.log = s.log ++ [ev] := by
  cases h
  case drop | enter | skip | mark | rel | relThrow | opened | shut => exact .inl rfl
  all_goals exact .inr ⟨_, rfl⟩

theorem tr_beg {H : Hub α β ε σ} {s s' : St α β ε σ} (h : Tr H s s') {i : Nat} {o : Sig β ε} (he : s'.log = s.log ++ [.beg i o]) :
    s.calls i = .inn o ∧ s.gone = false := by
  cases h
  case drop | enter | skip | mark | rel | relThrow | opened | shut => simp [St.goto] at he
  case beg j o' hc hg =>
    simp [St.goto, St.emit] at he
    obtain ⟨rfl, rfl⟩ := he
    exact ⟨hc, hg⟩
  case early j c ev hp _ => rcases hp with ⟨_, rfl⟩ | ⟨_, _, _, _, rfl⟩ <;> simp [St.goto, St.emit] at he
  case late j c ev hp _ _ => rcases hp with ⟨_, rfl⟩ | ⟨_, _, _, _, rfl⟩ <;> simp [St.goto, St.emit] at he
  all_goals simp [St.goto, St.emit] at he

/-- The state in which an event was logged. -/
theorem log_cut (H : Hub α β ε σ) (ls : List (Lbl α ε)) {pre post : List (Ev α β ε)} {ev : Ev α β ε} (h : (exec H ls).log = pre ++ ev :: post) :
    ∃ ks l, (exec H ks).log = pre ∧ (step H (exec H ks) l).log = pre ++ [ev] := by
  induction ls using snocInduct generalizing pre ev post with
  | h0 => simp [exec, Hub.initSt] at h
  | hs ls l ih =>
    have he : exec H (ls ++ [l]) = step H (exec H ls) l := by unfold exec; rw [List.foldl_append]; rfl
    rw [he] at h
    have key : (step H (exec H ls) l).log = (exec H ls).log ∨ ∃ ev, (step H (exec H ls) l).log = (exec H ls).log ++ [ev] := by
      rcases step_tr H (exec H ls) l with e | t
      · exact .inl (by rw [e])
      · exact tr_log t
    rcases key with e | ⟨ev', e⟩
    · exact ih (e.symm.trans h)
    · rcases List.eq_nil_or_concat post with rfl | ⟨post', y, rfl⟩
      · have := e.symm.trans h
        obtain ⟨e1, e2⟩ := List.append_inj' this rfl
        exact ⟨ls, l, e1, by rw [h]⟩
      · have : (exec H ls).log ++ [ev'] = (pre ++ ev :: post') ++ [y] := by rw [← e, h]; simp
        exact ih (List.append_inj' this rfl).1

/-- When the downstream observer is told the end, it has been told all values that were made, if they are made while the mutex is held. -/
theorem end_values (H : Hub α β ε σ) (hlate : ∀ i c x v, (H.act i c x).1 = .out (.next v) → H.early i c = false) (ls : List (Lbl α ε))
    {pre post : List (Ev α β ε)} {i : Nat} {t : Term ε} (h : (exec H ls).log = pre ++ .beg i (.term t) :: post) :
    nexts (replay H pre).1 = values pre ∧ values (exec H ls).log = values pre ∧ ∃ ks, (exec H ks).log = pre := by
  refine ⟨?_, ?_, ?_⟩
  · obtain ⟨ks, l, h1, h2⟩ := log_cut H ls h
    obtain ⟨rest, h3, h4⟩ := values_order H hlate ks
    rw [← h1] at h2 ⊢
    rw [h3]
    rcases step_tr H (exec H ks) l with e | tr
    · rw [e] at h2; simp at h2
    · obtain ⟨hc, hg⟩ := tr_beg tr h2
      have : (exec H ks).atDoor = [] := by
        unfold St.atDoor
        rw [((inv1 H ks).lock i).2 (by rw [hc]; rfl)]
        simp [hc]
      rw [h4 hg, this]; simp
  · have hl := (inv2 H ls).legal
    have : ∀ j o, .beg j o ∉ post := fun j o hm => by
      obtain ⟨p, q, rfl⟩ := List.append_of_mem hm
      have := serialized H ls (pre := pre ++ .beg i (.term t) :: p) (post := q) (i := j) (o := o) (by rw [h]; simp)
      exact this.2.2 (.inl ⟨i, t, by simp⟩)
    have hp : values post = [] := by
      unfold values
      rw [List.filterMap_eq_nil_iff]
      intro ev hev
      cases ev with
      | beg j o => exact absurd hev (this j o)
      | _ => rfl
    have hv : ∀ a b : List (Ev α β ε), values (a ++ b) = values a ++ values b := fun a b => by unfold values; rw [List.filterMap_append]
    have hc : values (.beg i (.term t) :: post) = values post := rfl
    rw [h, hv, hc, hp, List.append_nil]
  · obtain ⟨ks, l, h1, -⟩ := log_cut H ls h
    exact ⟨ks, h1⟩

theorem processed_append (i : Nat) (a b : List (Ev α β ε)) : processed i (a ++ b) = processed i a ++ processed i b := by
  unfold processed; rw [List.filterMap_append]

theorem received_append (i : Nat) (a b : List (Ev α β ε)) : received i (a ++ b) = received i a ++ received i b := by
  unfold received; rw [List.filterMap_append]

theorem taken_append (a b : List (Ev α β ε)) : taken (a ++ b) = taken a ++ taken b := by
  unfold taken; rw [List.filterMap_append]

theorem made_grows (H : Hub α β ε σ) (a b : List (Ev α β ε)) : (replay H a).1 <+: (replay H (a ++ b)).1 := by
  induction b using snocInduct with
  | h0 => simp
  | hs b ev ih =>
    rw [← List.append_assoc, replay_snoc]
    refine ih.trans ?_
    generalize replay H (a ++ b) = r
    cases ev <;> simp only [replayStep] <;> first | exact List.prefix_rfl | (split <;> first | exact List.prefix_append .. | exact List.prefix_rfl)

/-- When the selector of zip throws, it was called with the next row. -/
theorem ZipInv.throws {n : Nat} {sel : List α → Except ε β} {vs : Nat → List α} {x : ZipSt α} {outs : List β} (h : ZipInv n sel vs x outs)
    (i : Nat) (v : α) {e : ε} (ht : ((zipHub n sel).act i (.next v) x).1 = .throw e) :
    sel (row n (update vs i (vs i ++ [v])) outs.length) = .error e ∧ ∀ j < n, outs.length < (update vs i (vs i ++ [v]) j).length := by
  obtain ⟨h1, h2, h3⟩ := h
  have hp : ∀ j < n, update x.pend i (x.pend i ++ [v]) j = (update vs i (vs i ++ [v]) j).drop outs.length := fun j hj => by
    unfold update; split
    · next e => subst e; rw [(h1 j hj).2, List.drop_append_of_le_length (h1 j hj).1]
    · exact (h1 j hj).2
  have hheads := heads_row hp
  simp only [zipHub] at ht
  split at ht
  · next hall =>
    have hlt : ∀ j < n, outs.length < (update vs i (vs i ++ [v]) j).length := fun j hj => by
      have := List.all_eq_true.1 hall j (List.mem_range.2 hj)
      rw [hp j hj] at this
      simpa using this
    rw [hheads] at ht
    split at ht
    · cases ht
    · next he => cases ht; exact ⟨he, hlt⟩
  · cases ht

theorem zip_threw_row {n : Nat} (hn : 0 < n) (sel : List α → Except ε β) {log : List (Ev α β ε)} {i : Nat} {e : ε}
    (h : Threw (zipHub n sel) log i e) :
    sel (row n (fun j => sigVals (processed j log)) (nexts (replay (zipHub n sel) log).1).length) = .error e ∧
      ∀ j < n, (nexts (replay (zipHub n sel) log).1).length < (sigVals (processed j log)).length := by
  obtain ⟨p, q, c, ev, rfl, hev, ha⟩ := h
  have hc : ∃ v, c = .next v := by
    rcases c with v | e | _ <;> simp only [zipHub] at ha
    · exact ⟨v, rfl⟩
    · cases ha
    · split at ha <;> cases ha
  obtain ⟨v, rfl⟩ := hc
  obtain rfl : ev = .act i (.next v) := by
    rcases hev with rfl | ⟨_, h, _⟩
    · rfl
    · cases h
  obtain ⟨h1, h2⟩ := (zip_made hn sel p).throws i v ha
  have hz := zip_made hn sel (p ++ .act i (.next v) :: q)
  have hpre : ∀ j, update (fun j => sigVals (processed j p)) i (sigVals (processed i p) ++ [v]) j <+:
      sigVals (processed j (p ++ .act i (.next v) :: q)) := fun j => by
    have : p ++ Ev.act i (.next v) :: q = (p ++ [.act i (.next v)]) ++ q := by simp
    rw [this, processed_append, sigVals_append, processed_snoc, sigVals_append]
    refine List.IsPrefix.trans ?_ (List.prefix_append ..)
    unfold update; split
    · next e => subst e; simp [sigVals]
    · next e => simp [Ne.symm e, sigVals]
  have hk : ∀ j < n, (nexts (replay (zipHub n sel) p).1).length < (sigVals (processed j (p ++ .act i (.next v) :: q))).length := fun j hj =>
    Nat.lt_of_lt_of_le (h2 j hj) (hpre j).length_le
  have hrow : row n (fun j => sigVals (processed j (p ++ .act i (.next v) :: q))) (nexts (replay (zipHub n sel) p).1).length =
      row n (update (fun j => sigVals (processed j p)) i (sigVals (processed i p) ++ [v])) (nexts (replay (zipHub n sel) p).1).length :=
    row_congr fun j hj => by
      obtain ⟨t, ht⟩ := hpre j
      rw [← ht, List.getElem?_append_left (h2 j hj)]
  have hlen : (nexts (replay (zipHub n sel) (p ++ .act i (.next v) :: q)).1).length = (nexts (replay (zipHub n sel) p).1).length := by
    apply Nat.le_antisymm
    · refine Nat.le_of_not_lt fun hlt => ?_
      have := hz.rows _ _ (List.getElem?_eq_getElem hlt)
      rw [hrow, h1] at this
      cases this
    · obtain ⟨r, hr⟩ := made_grows (zipHub n sel) p (.act i (.next v) :: q)
      rw [← hr]
      unfold nexts
      rw [List.filterMap_append]; simp
  rw [hlen]
  exact ⟨by rw [hrow]; exact h1, hk⟩

/-- When the selector of combine_latest throws, it was called with the most recent values. -/
theorem cl_threw_at (n : Nat) (sel : List α → Except ε β) {log : List (Ev α β ε)} {i : Nat} {e : ε} (h : Threw (combineLatestHub n sel) log i e) :
    ∃ k < (taken log).length, ∃ t, latestAll (List.range n) ((taken log).take (k + 1)) = some t ∧ sel t = .error e := by
  obtain ⟨p, q, c, ev, rfl, hev, ha⟩ := h
  have hc : ∃ v, c = .next v := by
    rcases c with v | e | _ <;> simp only [combineLatestHub] at ha
    · exact ⟨v, rfl⟩
    · cases ha
    · split at ha <;> cases ha
  obtain ⟨v, rfl⟩ := hc
  obtain rfl : ev = .act i (.next v) := by
    rcases hev with rfl | ⟨_, h, _⟩
    · rfl
    · cases h
  have ht : taken (p ++ .act i (.next v) :: q) = taken p ++ (i, v) :: taken q := by rw [taken_append]; rfl
  have h1 := (cl_made n sel p).1
  have hu : ∀ j, update (replay (combineLatestHub n sel) p).2.vals i (some v) j = latest j (taken p ++ [(i, v)]) := fun j => by
    rw [latest_snoc]; unfold update; split
    · rfl
    · exact h1 j
  refine ⟨(taken p).length, by rw [ht]; simp, ?_⟩
  have h2 : (taken (p ++ .act i (.next v) :: q)).take ((taken p).length + 1) = taken p ++ [(i, v)] := by
    rw [ht, List.take_append, List.take_of_length_le (by omega)]; simp
  rw [h2]
  generalize (replay (combineLatestHub n sel) p).2 = x at ha hu
  simp only [combineLatestHub, funext hu] at ha
  split at ha
  · next hall =>
    split at ha
    · cases ha
    · next he =>
      cases ha
      exact ⟨_, if_pos hall, he⟩
  · cases ha

/-- When the selector of with_latest_from throws, it was called with a value of the main source and the most recent values of the others. -/
theorem wl_threw_at (n : Nat) (sel : α → List α → Except ε β) {log : List (Ev α β ε)} {i : Nat} {e : ε} (h : Threw (withLatestHub n sel) log i e) :
    ∃ k v t, (taken log)[k]? = some (0, v) ∧ latestAll ((List.range n).map (· + 1)) ((taken log).take k) = some t ∧ sel v t = .error e := by
  obtain ⟨p, q, c, ev, rfl, hev, ha⟩ := h
  have hc : ∃ v, c = .next v := by
    rcases c with v | e | _ <;> simp only [withLatestHub] at ha
    · exact ⟨v, rfl⟩
    · cases ha
    · split at ha <;> cases ha
  obtain ⟨v, rfl⟩ := hc
  obtain rfl : ev = .act i (.next v) := by
    rcases hev with rfl | ⟨_, h, _⟩
    · rfl
    · cases h
  have ht : taken (p ++ .act i (.next v) :: q) = taken p ++ (i, v) :: taken q := by rw [taken_append]; rfl
  have h1 : ∀ j, (replay (withLatestHub n sel) p).2 (j + 1) = latest (j + 1) (taken p) := fun j => (wl_made n sel p).1 (j + 1) (by omega)
  generalize (replay (withLatestHub n sel) p).2 = x at ha h1
  simp only [withLatestHub] at ha
  split at ha
  · next h0 =>
    subst h0
    split at ha
    · next hall =>
      split at ha
      · cases ha
      · next he =>
        cases ha
        refine ⟨(taken p).length, v, _, by rw [ht]; simp, ?_, he⟩
        rw [ht, List.take_left]
        unfold latestAll
        have : ((List.range n).map (· + 1)).all (fun j => (latest j (taken p)).isSome) = true := by
          rw [List.all_map]; simpa [Function.comp_def, h1] using hall
        rw [if_pos this, List.filterMap_map]
        simp [Function.comp_def, h1]
    · cases ha
  · cases ha

/-- A source's error is told after all its notifications have been processed. -/
theorem error_acted {H : Hub α β ε σ} (hE : ∀ i c x e, (H.act i c x).1 = .out (.term (.error e)) → c = .term (.error e)) (ls : List (Lbl α ε)) {i : Nat} {e : ε}
    (h : .beg i (.term (.error e)) ∈ (exec H ls).log) :
    (.recv i (.term (.error e)) ∈ (exec H ls).log ∧ processed i (exec H ls).log = received i (exec H ls).log) ∨ Threw H (exec H ls).log i e := by
  obtain ⟨p, ev, q, c, he, hev, ha⟩ := made_split (told_made H ls h)
  have hc := hE i c _ e ha
  subst hc
  rcases hev with rfl | ⟨e', h1, rfl⟩
  · left
    have hm : .act i (.term (.error e)) ∈ (exec H ls).log := by rw [he]; simp
    have : .recv i (.term (.error e)) ∈ p := (inv2 H ls).legal p _ q he
    exact ⟨by rw [he]; exact List.mem_append_left _ this,
      prefix_term (inv2 H ls).legal (processed_prefix ls i) (mem_processed.2 hm)⟩
  · cases h1
    right
    obtain ⟨p', q', c', ev', h1, h2⟩ : Threw H p i e := (inv2 H ls).legal p _ q he
    exact ⟨p', q' ++ .actE i e :: q, c', ev', by rw [he, h1]; simp, h2⟩

theorem merge_error_order (ls : List (Lbl α ε)) {i : Nat} {e : ε} (hi : i ≠ 0) (h : .beg i (.term (.error e)) ∈ (exec mergeHub ls).log) :
    sigVals (toldBy i (exec mergeHub ls).log) = sigVals (received i (exec mergeHub ls).log) := by
  have hnt : ∀ log, ¬ Threw (mergeHub : Hub α α ε Nat) log i e := by
    rintro log ⟨_, _, c, _, _, _, hh⟩
    rcases c with v | _ | _ <;> simp [mergeHub] at hh
    · split at hh <;> cases hh
    · split at hh <;> cases hh
  obtain ⟨pre, post, he⟩ := List.append_of_mem h
  obtain ⟨ks, l, h1, h2⟩ := log_cut _ ls he
  obtain ⟨rest, h3, h4⟩ := outs_begs mergeHub ks i
  have ht : Tr mergeHub (exec mergeHub ks) (step mergeHub (exec mergeHub ks) l) := by
    refine (step_tr mergeHub (exec mergeHub ks) l).resolve_left fun e => ?_
    rw [e, h1] at h2; simp at h2
  obtain ⟨hc, hg⟩ := tr_beg ht (by rw [h2, h1])
  rw [h4 hg, hc, h1] at h3
  have h5 := merge_made i hi pre
  rw [h3] at h5
  simp only [Pc.wait, List.append_nil, sigVals_append] at h5
  have h6 : sigVals (ofSrc i (begs pre)) = sigVals (processed i pre) := by simpa [sigVals] using h5
  have hle : sigVals (ofSrc i (begs pre)) <+: sigVals (toldBy i (exec mergeHub ls).log) := by
    unfold toldBy
    rw [he, show begs (pre ++ Ev.beg i (.term (.error e)) :: post) = begs pre ++ begs (.beg i (.term (.error e)) :: post) by
      unfold begs; rw [List.filterMap_append], ofSrc_append, sigVals_append]
    exact List.prefix_append ..
  obtain ⟨-, h7⟩ := (error_acted merge_err ls h).resolve_right (hnt _)
  have h8 : processed i pre = processed i (exec mergeHub ls).log := by
    have hs : (exec mergeHub (ks ++ [l])).log = pre ++ [.beg i (.term (.error e))] := by
      rw [← h2]; unfold exec; rw [List.foldl_append]; rfl
    obtain ⟨h9, h10⟩ := (error_acted merge_err (ks ++ [l]) (i := i) (e := e) (by rw [hs]; simp)).resolve_right (hnt _)
    rw [hs, processed_append, show processed i [(Ev.beg i (.term (.error e)) : Ev α α ε)] = [] from rfl, List.append_nil] at h10
    have hm : .term (.error e) ∈ processed i pre := by
      rw [h10]; exact mem_received.2 (by rw [← hs]; exact h9)
    refine (prefix_term (inv2 mergeHub ls).legal (l := processed i pre) ?_ hm).trans h7.symm
    refine List.IsPrefix.trans ?_ (processed_prefix ls i)
    rw [he, processed_append]
    exact List.prefix_append ..
  rw [h6, h8, h7] at hle
  have hpre : sigVals (toldBy i (exec mergeHub ls).log) <+: sigVals (received i (exec mergeHub ls).log) := by
    obtain ⟨rest, h1, -⟩ := outs_begs mergeHub ls i
    have h3 := merge_made i hi (exec mergeHub ls).log
    refine List.IsPrefix.trans ?_ (sigVals_prefix (processed_prefix ls i))
    rw [← h3, h1, sigVals_append, sigVals_append, List.append_assoc]
    exact List.prefix_append ..
  exact hpre.eq_of_length (Nat.le_antisymm hpre.length_le hle.length_le)

end Rpp.Comb
