import Verif.Combine.HubProofs

namespace Rpp.Comb

variable {α β ε σ : Type}

/-! ## Nothing is lost, invented or reordered on the way out -/

/-- What source `i` made the operator produce is what the downstream observer was told from source `i`, apart from what is on
the way, and from what came after it was disposed. -/
theorem outs_begs (H : Hub α β ε σ) (ls : List (Lbl α ε)) (i : Nat) :
    ∃ rest, ofSrc i (replay H (exec H ls).log).1 = ofSrc i (begs (exec H ls).log) ++ rest ++ ((exec H ls).calls i).wait ∧
      ((exec H ls).gone = false → rest = []) := by
  refine (exec_induct H (P := fun s => Inv1 H s ∧ ∃ rest, ofSrc i (replay H s.log).1 = ofSrc i (begs s.log) ++ rest ++ (s.calls i).wait ∧
      (s.gone = false → rest = [])) ?_ ?_ ls).2
  · exact ⟨.init H, [], by simp [Hub.initSt, replay, begs, ofSrc, Pc.wait], fun _ => rfl⟩
  · rintro s s' ⟨h, rest, h1, h2⟩ t
    refine ⟨h.tr t, ?_⟩
    have h3 := h.st
    cases t with
    | early j c ev hp he =>
      refine ⟨rest, ?_, h2⟩
      rcases hp with ⟨hp, rfl⟩ | ⟨e, hp, rfl, rfl⟩ <;> rcases ha : (H.act j _ s.st) with ⟨a, x⟩ <;> cases a <;>
        simp only [St.goto, St.emit, replay_snoc, replayStep, begs_snoc, ← h3, ha, after, ofSrc_append, h1] <;>
        grind [ofSrc, Pc.wait]
    | late j c ev hp he hl =>
      refine ⟨rest, ?_, h2⟩
      rcases hp with ⟨hp, rfl⟩ | ⟨e, hp, rfl, rfl⟩ <;> rcases ha : (H.act j _ s.st) with ⟨a, x⟩ <;> cases a <;>
        simp only [St.goto, St.emit, replay_snoc, replayStep, begs_snoc, ← h3, ha, after, ofSrc_append, h1] <;>
        grind [ofSrc, Pc.wait]
    | skip j hc hg =>
      rcases hc with ⟨o, hc⟩ | ⟨e, hc⟩
      · by_cases e : i = j
        · subst e
          refine ⟨rest ++ [o], ?_, ?_⟩
          · simp [St.goto, h1, hc, Pc.wait]
          · intro hh; simp only [St.goto] at hh; rw [hg] at hh; cases hh
        · exact ⟨rest, by simp [St.goto, h1, e], h2⟩
      · refine ⟨rest, ?_, h2⟩
        simp only [St.goto]; grind [Pc.wait]
    | beg j o hc hg =>
      refine ⟨rest, ?_, h2⟩
      have h4 := h2 hg
      subst h4
      simp only [St.goto, St.emit, replay_snoc, replayStep, begs_snoc, ofSrc_append, h1]
      grind [ofSrc, Pc.wait]
    | finNext j v p hc hp =>
      refine ⟨rest, ?_, h2⟩
      rcases hp with rfl | ⟨e, rfl⟩ <;>
        simp only [St.goto, St.emit, replay_snoc, replayStep, begs_snoc, h1] <;> grind [Pc.wait]
    | finTerm j hc =>
      refine ⟨rest, ?_, h2⟩
      rcases hc with ⟨t, hc⟩ | hc <;> simp only [St.goto, St.emit, replay_snoc, replayStep, begs_snoc, h1] <;> grind [Pc.wait]
    | gone hg =>
      refine ⟨rest, ?_, fun hh => ?_⟩
      · simp only [St.emit, replay_snoc, replayStep, begs_snoc, h1, List.append_nil]
      · simp [St.emit] at hh
    | mark j hc =>
      refine ⟨rest, ?_, fun hh => ?_⟩
      · simp only [St.goto, h1]; grind [Pc.wait]
      · simp [St.goto] at hh
    | _ =>
      refine ⟨rest, ?_, h2⟩
      simp only [St.goto, St.emit, replay_snoc, replayStep, begs_snoc, h1] <;> grind [Pc.wait]

/-- The values in a list of notifications, with their sources. -/
def nextsP (l : List (Nat × Sig β ε)) : List (Nat × β) := l.filterMap fun p => match p.2 with | .next v => some (p.1, v) | _ => none

theorem nextsP_append (l l' : List (Nat × Sig β ε)) : nextsP (l ++ l') = nextsP l ++ nextsP l' := by simp [nextsP]

/-- Used in the proofs; models no code. -/
def nexts (l : List (Nat × Sig β ε)) : List β := l.filterMap fun p => match p.2 with | .next v => some v | _ => none

theorem nexts_append (l l' : List (Nat × Sig β ε)) : nexts (l ++ l') = nexts l ++ nexts l' := by simp [nexts]

theorem nexts_eq (l : List (Nat × Sig β ε)) : nexts l = (nextsP l).map (·.2) := by
  unfold nexts nextsP
  rw [List.map_filterMap]
  congr 1; funext p; rcases p with ⟨i, c⟩; cases c <;> rfl

theorem ofSrc_nextsP (i : Nat) (l : List (Nat × Sig β ε)) : sigVals (ofSrc i l) = ((nextsP l).filter (·.1 == i)).map (·.2) := by
  induction l with
  | nil => rfl
  | cons p l ih =>
    obtain ⟨j, c⟩ := p
    unfold sigVals ofSrc nextsP at *
    rcases c with v | t <;> by_cases h : j = i <;> simp [h] at ih ⊢ <;> exact ih

theorem values_eq (log : List (Ev α β ε)) : values log = nexts (begs log) := by
  unfold values nexts begs
  rw [List.filterMap_filterMap]
  congr 1; funext ev; cases ev <;> simp
  rename_i i o; cases o <;> rfl

/-- The value that the holder of the mutex is about to pass on. -/
def St.atDoor (s : St α β ε σ) : List (Nat × β) :=
  match s.lock with
  | none => []
  | some i => match s.calls i with
    | .inn (.next v) => [(i, v)]
    | _ => []

/-- If values are produced while the mutex is held, then the downstream observer gets them in the order in which the notifications
were processed, and all of them, unless it is disposed. -/
theorem valuesP_order (H : Hub α β ε σ) (hlate : ∀ i c x v, (H.act i c x).1 = .out (.next v) → H.early i c = false)
    (ls : List (Lbl α ε)) : ∃ rest, nextsP (replay H (exec H ls).log).1 = nextsP (begs (exec H ls).log) ++ rest ++ (exec H ls).atDoor ∧
      ((exec H ls).gone = false → rest = []) := by
  refine (exec_induct H (P := fun s => Inv1 H s ∧ (∀ i v, s.calls i ≠ .out (.next v)) ∧
      ∃ rest, nextsP (replay H s.log).1 = nextsP (begs s.log) ++ rest ++ s.atDoor ∧ (s.gone = false → rest = [])) ?_ ?_ ls).2.2
  · exact ⟨.init H, by simp [Hub.initSt], [], by simp [Hub.initSt, replay, begs, nextsP, St.atDoor], fun _ => rfl⟩
  · rintro s s' ⟨h, h0, rest, h1, h2⟩ t
    refine ⟨h.tr t, ?_, ?_⟩
    · cases t with
      | early j c ev hp he =>
        intro i v
        simp only [St.goto, St.emit]
        split
        · rcases ha : (H.act j c s.st).1 with _ | o | e <;> simp [after]
          rintro rfl
          rw [hlate j c _ v ha] at he; cases he
        · exact h0 i v
      | late j c ev hp he hl =>
        intro i v
        simp only [St.goto, St.emit]
        split
        · rcases ha : (H.act j c s.st).1 with _ | o | e <;> simp [after]
        · exact h0 i v
      | finNext j v p hc hp => rcases hp with rfl | ⟨e, rfl⟩ <;> simp only [St.goto, St.emit] <;> grind
      | _ => simp only [St.goto, St.emit] <;> grind
    have h3 := h.st
    cases t with
    | early j c ev hp he =>
      refine ⟨rest, ?_, h2⟩
      have hj : (s.calls j).holds = false := by rcases hp with ⟨hp, _⟩ | ⟨e, hp, _⟩ <;> rw [hp] <;> rfl
      have hlj : s.lock ≠ some j := fun e => by rw [(h.lock j).1 e] at hj; cases hj
      have hd : ∀ p : Pc α β ε, ({ s with st := (H.act j c s.st).2 }.emit ev |>.goto j p).atDoor = s.atDoor := by
        intro p; simp only [St.atDoor, St.goto, St.emit]; grind
      rw [hd]
      have hb : begs (s.log ++ [ev]) = begs s.log := by rcases hp with ⟨_, rfl⟩ | ⟨e, _, _, rfl⟩ <;> simp [begs_snoc]
      show nextsP (replay H (s.log ++ [ev])).1 = nextsP (begs (s.log ++ [ev])) ++ rest ++ s.atDoor
      rw [hb, ← h1]
      have hne : ∀ v, (H.act j c s.st).1 ≠ .out (.next v) := fun v hv => by rw [hlate j c _ v hv] at he; cases he
      have hx : ∀ o, (H.act j c s.st).1 = .out o → nextsP [(j, o)] = [] := fun o ho => by
        cases o with
        | next v => exact absurd ho (hne v)
        | term t => rfl
      rcases hp with ⟨hp, rfl⟩ | ⟨e, hp, rfl, rfl⟩ <;> simp only [replay_snoc, replayStep, ← h3] <;> split <;>
        first | rfl | (rename_i o ho; rw [nextsP_append, hx o ho, List.append_nil])
    | late j c ev hp he hl =>
      refine ⟨rest, ?_, h2⟩
      have hd0 : s.atDoor = [] := by simp [St.atDoor, hl]
      rw [hd0, List.append_nil] at h1
      have hb : begs (s.log ++ [ev]) = begs s.log := by rcases hp with ⟨_, rfl⟩ | ⟨e, _, _, rfl⟩ <;> simp [begs_snoc]
      simp only [St.atDoor, St.goto, St.emit]
      rw [hb]
      rcases hp with ⟨hp, rfl⟩ | ⟨e, hp, rfl, rfl⟩ <;> rcases ha : (H.act j _ s.st) with ⟨a, x⟩ <;> cases a <;>
        simp only [replay_snoc, replayStep, ← h3, ha, nextsP_append, h1, after] <;> simp <;>
        (rename_i o; cases o <;> simp [nextsP])
    | enter j o hc hl =>
      refine ⟨rest, ?_, h2⟩
      have hd0 : s.atDoor = [] := by simp [St.atDoor, hl]
      rw [hd0] at h1
      cases o with
      | next v => exact absurd hc (h0 j v)
      | term t => simpa [St.atDoor, St.goto] using h1
    | skip j hc hg =>
      have hh : (s.calls j).holds = true := by rcases hc with ⟨o, hc⟩ | ⟨e, hc⟩ <;> rw [hc] <;> rfl
      have hl := (h.lock j).2 hh
      refine ⟨rest ++ s.atDoor, ?_, fun e => ?_⟩
      · simp [St.goto, St.atDoor, hl, h1]
      · simp only [St.goto] at e; rw [hg] at e; cases e
    | beg j o hc hg =>
      have hl := (h.lock j).2 (by rw [hc]; rfl)
      refine ⟨rest, ?_, h2⟩
      have h4 := h2 hg
      subst h4
      simp only [St.goto, St.emit, replay_snoc, replayStep, begs_snoc, nextsP_append, h1, St.atDoor, hl, hc]
      cases o <;> simp [nextsP]
    | own j e hc hg =>
      have hl := (h.lock j).2 (by rw [hc]; rfl)
      refine ⟨rest, ?_, h2⟩
      simp [St.goto, St.emit, replay_snoc, replayStep, begs_snoc, h1, St.atDoor, hl, hc]
    | mark j hc =>
      have hl := (h.lock j).2 (by rw [hc]; rfl)
      refine ⟨rest, ?_, fun e => by simp [St.goto] at e⟩
      simp [St.goto, h1, St.atDoor, hl, hc]
    | rel j hc =>
      have hl := (h.lock j).2 (by rw [hc]; rfl)
      refine ⟨rest, ?_, h2⟩
      simp [St.goto, h1, St.atDoor, hl, hc]
    | relThrow j e hc =>
      have hl := (h.lock j).2 (by rw [hc]; rfl)
      refine ⟨rest, ?_, h2⟩
      simp [St.goto, h1, St.atDoor, hl, hc]
    | finNext j v p hc hp =>
      have hl := (h.lock j).2 (by rw [hc]; rfl)
      refine ⟨rest, ?_, h2⟩
      rcases hp with rfl | ⟨e, rfl⟩ <;> simp [St.goto, St.emit, replay_snoc, replayStep, begs_snoc, h1, St.atDoor, hl, hc]
    | finTerm j hc =>
      have hl := (h.lock j).2 (by rcases hc with ⟨t, hc⟩ | hc <;> rw [hc] <;> rfl)
      refine ⟨rest, ?_, h2⟩
      rcases hc with ⟨t, hc⟩ | hc <;> simp [St.goto, St.emit, replay_snoc, replayStep, begs_snoc, h1, St.atDoor, hl, hc]
    | gone hg =>
      refine ⟨rest, ?_, fun e => by simp [St.emit] at e⟩
      simpa [St.emit, replay_snoc, replayStep, begs_snoc, St.atDoor] using h1
    | shut hg => exact ⟨rest, by simpa [St.atDoor] using h1, h2⟩
    | recv j c hc ha hd hs =>
      have hlj : s.lock ≠ some j := fun e => by have := (h.lock j).1 e; rw [hc] at this; cases this
      refine ⟨rest, ?_, h2⟩
      simp only [St.goto, St.emit, replay_snoc, replayStep, begs_snoc, h1, St.atDoor]; grind
    | opn k hc ha hd hs hk hdy =>
      have hlj : s.lock ≠ some 0 := fun e => by have := (h.lock 0).1 e; rw [hc] at this; cases this
      refine ⟨rest, ?_, h2⟩
      simp only [St.goto, St.emit, replay_snoc, replayStep, begs_snoc, h1, St.atDoor]; grind
    | drop j e hc hs =>
      have hlj : s.lock ≠ some j := fun e => by have := (h.lock j).1 e; rw [hc] at this; cases this
      refine ⟨rest, ?_, h2⟩
      simp only [St.goto, h1, St.atDoor]; grind
    | opened j hc =>
      have hlj : s.lock ≠ some j := fun e => by have := (h.lock j).1 e; rw [hc] at this; cases this
      refine ⟨rest, ?_, h2⟩
      simp only [St.goto, h1, St.atDoor]; grind

theorem values_order (H : Hub α β ε σ) (hlate : ∀ i c x v, (H.act i c x).1 = .out (.next v) → H.early i c = false)
    (ls : List (Lbl α ε)) : ∃ rest, nexts (replay H (exec H ls).log).1 = values (exec H ls).log ++ rest ++ (exec H ls).atDoor.map (·.2) ∧
      ((exec H ls).gone = false → rest = []) := by
  obtain ⟨rest, h1, h2⟩ := valuesP_order H hlate ls
  exact ⟨rest.map (·.2), by rw [nexts_eq, h1, values_eq, nexts_eq]; simp, fun h => by rw [h2 h]; rfl⟩

end Rpp.Comb
