import Verif.Window.GroupByProps
/-!
C20 once more: who subscribes to a group that has ended, as long as the operator still exists, is told the end.
-/

namespace Rpp.Win

variable {σ ι α ε : Type}

/-- No instruction gives up a subject (for the proofs); models no code. -/
def noDrop : List (Instr α ε) → Bool
  | [] => true
  | .drop _ :: _ => false
  | _ :: r => noDrop r

/-- The operator owns every subject it made (for the proofs); models no code. -/
structure Keeps (s : St σ ι α ε) : Prop where
  held : ∀ w, s.phase w ≠ .absent → s.held w = true
  prog : noDrop s.prog = true

theorem noDrop_append (a b : List (Instr α ε)) : noDrop (a ++ b) = (noDrop a && noDrop b) := by
  induction a with
  | nil => rfl
  | cons i a ih => cases i <;> simp [noDrop, ih]

theorem noDrop_calls (l : List Nat) (x : Item α ε) : noDrop (l.map fun o => Instr.call o x) = true := by
  induction l with
  | nil => rfl
  | cons o l ih => simpa [noDrop] using ih

theorem noDrop_tail {i : Instr α ε} {r : List (Instr α ε)} (h : noDrop (i :: r) = true) : noDrop r = true := by
  cases i <;> simp_all [noDrop]

theorem without_absent (o : Nat) (p : Phase α ε) : p.without o = .absent ↔ p = .absent := by
  cases p <;> simp [Phase.without]

theorem disposeIt_absent (p : Phase α ε) : p.disposeIt = .absent ↔ p = .absent := by
  cases p <;> simp [Phase.disposeIt]

theorem Keeps.settle {s : St σ ι α ε} (h : Keeps s) : Keeps s.settle := by
  unfold St.settle
  split
  · exact h
  · exact ⟨fun w hw => h.held w fun e => hw ((disposeIt_absent _).2 e), h.prog⟩

theorem Keeps.free {s : St σ ι α ε} (h : Keeps s) (o : Nat) (b : Ob) : Keeps (s.free o b) := by
  unfold St.free
  refine Keeps.settle ⟨fun w hw => h.held w fun e => hw ?_, h.prog⟩
  show (if w = b.win then (s.phase w).without o else s.phase w) = _
  split
  · exact (without_absent _ _).2 e
  · exact e

theorem Keeps.same {s s' : St σ ι α ε} (h : Keeps s) (hp : ∀ w, s'.phase w ≠ .absent → s.phase w ≠ .absent)
    (hh : s'.held = s.held) (hq : noDrop s'.prog = true) : Keeps s' :=
  ⟨fun w hw => by rw [hh]; exact h.held w (hp w hw), hq⟩

theorem Keeps.exec1 {s : St σ ι α ε} {rest : List (Instr α ε)} {i : Instr α ε} (h : Keeps s) (hp : s.prog = i :: rest) :
    Keeps (exec1 s rest i) := by
  have hpr := h.prog
  rw [hp] at hpr
  have hr := noDrop_tail hpr
  have h0 : Keeps { s with prog := rest } := ⟨h.held, hr⟩
  cases i with
  | create w =>
    simp only [Win.exec1]
    split
    · refine ⟨fun v hv => ?_, hr⟩
      show (if v = w then true else s.held v) = true
      split
      · rfl
      · next hn =>
        refine h.held v fun e => hv ?_
        show (if v = w then _ else s.phase v) = _
        rw [if_neg hn, e]
    · exact h0
  | openW w => simp only [Win.exec1]; split <;> exact ⟨h.held, hr⟩
  | push w x =>
    simp only [Win.exec1]
    split
    · next l hl =>
      refine h.same (fun v hv => ?_) rfl (by simp [noDrop_append, noDrop_calls, hr])
      intro e
      refine hv ?_
      show (if v = w then _ else s.phase v) = _
      rw [if_neg (fun e' => by rw [← e', e] at hl; cases hl), e]
    · exact h0
  | call o x =>
    simp only [Win.exec1]
    split
    · split
      · split
        · exact Keeps.free (s := { s with prog := rest, log := s.log ++ [.got o x] }) ⟨h.held, hr⟩ _ _
        · exact ⟨h.held, hr⟩
      · exact h0
    · exact h0
  | drop w => simp [noDrop] at hpr
  | mainEnd x =>
    simp only [Win.exec1]
    split
    · exact Keeps.settle ⟨h.held, hr⟩
    · exact h0
  | stopIfDown w =>
    simp only [Win.exec1]
    refine ⟨h.held, ?_⟩
    show noDrop (if _ then rest else []) = true
    split
    · exact hr
    · rfl

theorem Keeps.step {O : Oper σ ι α ε} (hO : ∀ q g i, noDrop (O.accept q g i).2 = true) {s : St σ ι α ε} (h : Keeps s) (l : Lbl ι)
    (hl : l = .destroy → s.over = false ∧ s.dead = false) : Keeps (step O s l) := by
  cases l with
  | notify i =>
    simp only [Win.step]
    split
    · split
      · exact h
      · exact ⟨h.held, hO _ _ _⟩
    · exact h
  | run =>
    simp only [Win.step]
    split
    · exact h
    · next i rest hp => exact h.exec1 hp
  | sub o w =>
    simp only [Win.step]
    split
    · exact h
    · split
      · exact h
      · next l hl' =>
        refine h.same (fun v hv e => hv ?_) rfl h.prog
        show (if v = w then _ else s.phase v) = _
        rw [if_neg (fun e' => by rw [← e', e] at hl'; cases hl'), e]
      · split <;> exact ⟨h.held, h.prog⟩
      · exact ⟨h.held, h.prog⟩
  | unsub o =>
    simp only [Win.step]
    split
    · split
      · exact Keeps.free (s := { s with log := s.log ++ [.unsub o] }) ⟨h.held, h.prog⟩ _ _
      · exact h
    · exact h
  | leave =>
    simp only [Win.step]
    split
    · exact Keeps.settle ⟨h.held, h.prog⟩
    · exact h
  | destroy =>
    obtain ⟨h1, h2⟩ := hl rfl
    simp only [Win.step, h1, h2]
    simpa using h

/-- The end of the source and the disposal are for good. -/
theorem exec1_flags (s : St σ ι α ε) (rest : List (Instr α ε)) (i : Instr α ε) :
    (exec1 s rest i).over = s.over ∧ (s.dead = true → (exec1 s rest i).dead = true) := by
  cases i <;> simp only [Win.exec1] <;> repeat' split
  all_goals first
    | exact ⟨rfl, id⟩
    | exact ⟨trivial, id⟩
    | (simp only [St.free, St.settle]; split <;> simp)

theorem step_flags (O : Oper σ ι α ε) (s : St σ ι α ε) (l : Lbl ι) (h : (step O s l).over = false ∧ (step O s l).dead = false) :
    s.over = false ∧ s.dead = false := by
  suffices hh : (s.over = true → (step O s l).over = true) ∧ (s.dead = true → (step O s l).dead = true) by
    refine ⟨?_, ?_⟩
    · cases hc : s.over with
      | false => rfl
      | true => rw [hh.1 hc] at h; cases h.1
    · cases hc : s.dead with
      | false => rfl
      | true => rw [hh.2 hc] at h; cases h.2
  cases l with
  | notify i =>
    simp only [Win.step]
    split
    · split
      · exact ⟨id, id⟩
      · next hc => simp only [Bool.or_eq_true, not_or, Bool.not_eq_true] at hc; simp [hc]
    · exact ⟨id, id⟩
  | run =>
    simp only [Win.step]
    split
    · exact ⟨id, id⟩
    · next i rest _ => exact ⟨fun h => by rw [(exec1_flags s rest i).1, h], (exec1_flags s rest i).2⟩
  | sub o w => simp only [Win.step]; repeat' split
               all_goals exact ⟨id, id⟩
  | unsub o =>
    simp only [Win.step]
    split
    · split
      · simp only [St.free, St.settle]; split <;> simp
      · exact ⟨id, id⟩
    · exact ⟨id, id⟩
  | leave =>
    simp only [Win.step]
    split
    · simp only [St.free, St.settle]; split <;> simp
    · exact ⟨id, id⟩
  | destroy => simp only [Win.step]; split <;> exact ⟨id, id⟩

theorem keeps_before {O : Oper σ ι α ε} (hO : ∀ q g i, noDrop (O.accept q g i).2 = true) (ls : List (Lbl ι))
    (h : (exec O ls).over = false ∧ (exec O ls).dead = false) : Keeps (exec O ls) := by
  refine exec_induct O (P := fun s => s.over = false ∧ s.dead = false → Keeps s) ?_ ?_ ls h
  · exact fun _ => ⟨fun w hw => absurd rfl hw, rfl⟩
  · intro s l ih h
    exact (ih (step_flags O s l h)).step hO l fun _ => step_flags O s l h

theorem keeps_after {O : Oper σ ι α ε} (hO : ∀ q g i, noDrop (O.accept q g i).2 = true) (ls : List (Lbl ι)) (hd : .destroy ∉ ls) :
    ∀ s : St σ ι α ε, Keeps s → Keeps (ls.foldl (step O) s) := by
  induction ls with
  | nil => exact fun s h => h
  | cons l ls ih =>
    intro s h
    refine ih (fun hh => hd (List.mem_cons_of_mem _ hh)) _ (h.step hO l fun e => ?_)
    exact absurd (e ▸ List.mem_cons_self) hd

/-- Invariant of the proofs; models no code. -/
structure Told (s : St σ ι α ε) : Prop where
  fed : ∀ w x, .fed w x ∈ s.log → x.term = true → s.phase w = .ended x
  ob : ∀ o, s.ob o ≠ none → ∃ w, .sub o w ∈ s.log ∨ .late o w ∈ s.log

theorem Told.of {s s' : St σ ι α ε} {es : List (Ev ι α ε)} (h : Told s) (hl : s'.log = s.log ++ es) (he : ∀ w x, .fed w x ∉ es)
    (hp : ∀ w x, s.phase w = .ended x → s'.phase w = .ended x)
    (ho : ∀ o, s'.ob o ≠ none → s.ob o ≠ none ∨ ∃ w, .sub o w ∈ es ∨ .late o w ∈ es) : Told s' := by
  refine ⟨fun w x hx ht => ?_, fun o hoo => ?_⟩
  · rw [hl, List.mem_append] at hx
    exact hp w x (h.fed w x (hx.resolve_right (he w x)) ht)
  · rw [hl]
    rcases ho o hoo with h1 | ⟨w, h1⟩
    · obtain ⟨w, h2⟩ := h.ob o h1
      exact ⟨w, h2.imp (fun h => List.mem_append_left _ h) fun h => List.mem_append_left _ h⟩
    · exact ⟨w, h1.imp (fun h => List.mem_append_right _ h) fun h => List.mem_append_right _ h⟩

theorem Told.settle {s : St σ ι α ε} (h : Told s) : Told s.settle := by
  unfold St.settle
  split
  · exact h
  · exact h.of (es := []) (by simp) (by simp) (fun w x e => by simp [e, Phase.disposeIt]) (fun o h => .inl h)

theorem Told.free {s : St σ ι α ε} (h : Told s) (o : Nat) (b : Ob) (hb : s.ob o = some b) : Told (s.free o b) := by
  unfold St.free
  refine Told.settle (h.of (es := []) (by simp) (by simp) (fun w x e => ?_) (fun p hp => .inl ?_))
  · show (if w = b.win then (s.phase w).without o else s.phase w) = _
    split
    · exact (without_ended _ _ _).2 e
    · exact e
  · by_cases hpo : p = o
    · rw [hpo, hb]; simp
    · have hp' : (if p = o then _ else s.ob p) ≠ none := hp
      rwa [if_neg hpo] at hp'

theorem Told.exec1 {s : St σ ι α ε} {rest : List (Instr α ε)} (i : Instr α ε) (h : Told s) : Told (exec1 s rest i) := by
  have h0 : Told { s with prog := rest } := ⟨h.fed, h.ob⟩
  have hsay : ∀ e : Ev ι α ε, (∀ w x, e ≠ .fed w x) → Told { s with prog := rest, log := s.log ++ [e] } := fun e he =>
    h.of (es := [e]) rfl (fun w x hx => he w x (List.mem_singleton.1 hx).symm) (fun _ _ h => h) (fun _ h => .inl h)
  cases i with
  | create w =>
    simp only [Win.exec1]
    split
    · next hw =>
      refine h.of (es := []) (by simp) (by simp) (fun v x e => ?_) (fun _ h => .inl h)
      show (if v = w then _ else s.phase v) = _
      rw [if_neg (fun e' => by rw [← e', e] at hw; cases hw), e]
    · exact h0
  | openW w =>
    simp only [Win.exec1]
    split
    · exact hsay _ (by simp)
    · exact h0
  | push w x =>
    simp only [Win.exec1]
    split
    · next l hl =>
      refine ⟨fun v y hy ht => ?_, fun o ho => ?_⟩
      · show (if v = w then _ else s.phase v) = _
        simp only [List.mem_append, List.mem_singleton] at hy
        rcases hy with hy | hy
        · have := h.fed v y hy ht
          rw [if_neg (fun e' => by rw [← e', this] at hl; cases hl), this]
        · cases hy; simp [ht]
      · obtain ⟨w', hw'⟩ := h.ob o ho
        exact ⟨w', hw'.imp (fun h => List.mem_append_left _ h) fun h => List.mem_append_left _ h⟩
    · exact h0
  | call o x =>
    simp only [Win.exec1]
    split
    · next b hb =>
      split
      · split
        · exact Told.free (s := { s with prog := rest, log := s.log ++ [.got o x] }) (hsay _ (by simp)) o b hb
        · exact hsay _ (by simp)
      · exact h0
    · exact h0
  | drop w => exact ⟨h.fed, h.ob⟩
  | mainEnd x =>
    simp only [Win.exec1]
    split
    · exact Told.settle (h.of (es := [.ended x]) rfl (by simp) (fun _ _ h => h) (fun _ h => .inl h))
    · exact h0
  | stopIfDown w => exact ⟨h.fed, h.ob⟩

theorem Told.step {O : Oper σ ι α ε} {s : St σ ι α ε} (h : Told s) (l : Lbl ι) : Told (step O s l) := by
  cases l with
  | notify i =>
    simp only [Win.step]
    split
    · split
      · exact h
      · exact h.of (es := [_]) rfl (by simp) (fun _ _ h => h) (fun _ h => .inl h)
    · exact h
  | run =>
    simp only [Win.step]
    split
    · exact h
    · exact h.exec1 _
  | sub o w =>
    have hob : ∀ (b : Ob) (p : Nat), (if p = o then some b else s.ob p) ≠ none → s.ob p ≠ none ∨ p = o := by
      intro b p hp
      by_cases e : p = o
      · exact .inr e
      · rw [if_neg e] at hp; exact .inl hp
    simp only [Win.step]
    split
    · exact h
    · split
      · exact h
      · next l hl =>
        refine h.of (es := [.sub o w]) rfl (by simp) (fun v x e => ?_) fun p hp => (hob _ p hp).imp id fun e => ⟨w, by simp [e]⟩
        show (if v = w then _ else s.phase v) = _
        rw [if_neg (fun e' => by rw [← e', e] at hl; cases hl), e]
      · next x _ =>
        split
        · exact h.of (es := [.late o w, .got o x]) rfl (by simp) (fun _ _ h => h) fun p hp => (hob _ p hp).imp id fun e => ⟨w, by simp [e]⟩
        · exact h.of (es := [.late o w]) rfl (by simp) (fun _ _ h => h) fun p hp => (hob _ p hp).imp id fun e => ⟨w, by simp [e]⟩
      · exact h.of (es := [.late o w]) rfl (by simp) (fun _ _ h => h) fun p hp => (hob _ p hp).imp id fun e => ⟨w, by simp [e]⟩
  | unsub o =>
    simp only [Win.step]
    split
    · next b hb =>
      split
      · exact Told.free (s := { s with log := s.log ++ [.unsub o] })
          (h.of (es := [.unsub o]) rfl (by simp) (fun _ _ h => h) fun _ h => .inl h) o b hb
      · exact h
    · exact h
  | leave =>
    simp only [Win.step]
    split
    · exact Told.settle (h.of (es := [.gone]) rfl (by simp) (fun _ _ h => h) (fun _ h => .inl h))
    · exact h
  | destroy =>
    simp only [Win.step]
    split
    · exact ⟨h.fed, h.ob⟩
    · exact h

theorem told (O : Oper σ ι α ε) (ls : List (Lbl ι)) : Told (exec O ls) :=
  exec_induct O ⟨by simp, by simp⟩ (fun _ l h => h.step l) ls

variable {κ β : Type}

theorem group_noDrop (F : GFun κ β α ε) (q : GSt κ) (g : Bool) (i : Item β ε) : noDrop ((groupOper F).accept q g i).2 = true := by
  have he : ∀ (m : List (κ × Nat)) (x : Item α ε), noDrop (endAll m x) = true := by
    intro m x
    induction m with
    | nil => rfl
    | cons p m ih => simpa [endAll, noDrop] using ih
  have hp : ∀ (m : List (κ × Nat)) w b, noDrop (groupPush F m w b) = true := by
    intro m w b
    unfold groupPush
    split
    · rfl
    · simp [noDrop, he]
  show noDrop (groupAccept F q g i).2 = true
  cases i with
  | val b =>
    simp only [groupAccept]
    split
    · exact he _ _
    · split
      · exact hp _ _ _
      · split
        · rfl
        · simp [noDrop, hp]
  | err e => exact he _ _
  | done => exact he _ _

theorem gend_last (F : GFun κ β α ε) (as : List (Item β ε)) (x : Item β ε) (h : gend F (as ++ [x]) = none) : gend F [x] = none := by
  induction as with
  | nil => exact h
  | cons a as ih =>
    cases a with
    | val b =>
      simp only [List.cons_append, gend] at h
      split at h
      · cases h
      · exact ih h
      · cases h
    | err e => simp [gend] at h
    | done => simp [gend] at h

theorem group_not_over (F : GFun κ β α ε) (ls : List (Lbl (Item β ε))) (h : gend F (accepted (exec (groupOper F) ls).log) = none) :
    (exec (groupOper F) ls).over = false := by
  cases ho : (exec (groupOper F) ls).over with
  | false => rfl
  | true =>
    obtain ⟨bs, t, h1, _, h3⟩ := (invT (groupOper_ok F) ls (O := groupOper F)).t1 ho
    rw [accepted_eq, h1, List.map_append] at h
    have h4 : gend F [t.1] = none := gend_last F _ _ h
    have h5 : groupTerm F (plan (groupOper F) bs).1 t.2 t.1 = true := h3
    generalize t.1 = y at h4 h5
    revert h4 h5
    cases y with
    | val b =>
      simp only [groupTerm, gend]
      cases F.key b with
      | error e => simp
      | ok k => cases F.value b <;> simp [Except.isErr]
    | err e => simp [gend]
    | done => simp [gend]

/-- **C20** (subscribing late): a group has ended and the operator was not destroyed since the end of the source: who
subscribes to the group now is told its end at once, and nothing else. -/
theorem C20_late_end (F : GFun κ β α ε) (ls later : List (Lbl (Item β ε)))
    (hg : gend F (accepted (exec (groupOper F) ls).log) = none) (hm : mainHere (exec (groupOper F) ls).log = true)
    (hd : .destroy ∉ later) (o w : Nat) (x : Item α ε) (hx : x.term = true)
    (hw : .fed w x ∈ (exec (groupOper F) (ls ++ later)).log)
    (ho : ∀ v, .sub o v ∉ (exec (groupOper F) (ls ++ later)).log ∧ .late o v ∉ (exec (groupOper F) (ls ++ later)).log) :
    (exec (groupOper F) (ls ++ later ++ [.sub o w])).log =
      (exec (groupOper F) (ls ++ later)).log ++ [.late o w, .got o x] := by
  have hdead : (exec (groupOper F) ls).dead = false := by
    cases hc : (exec (groupOper F) ls).dead with
    | false => rfl
    | true => have := ((C71_group_by F ls).1 hc).1; rw [hm] at this; cases this
  have hk : Keeps (exec (groupOper F) (ls ++ later)) := by
    have h1 := keeps_after (group_noDrop F) later hd _ (keeps_before (group_noDrop F) ls ⟨group_not_over F ls hg, hdead⟩)
    simpa [exec, List.foldl_append] using h1
  have ht := told (groupOper F) (ls ++ later)
  have hp := ht.fed w x hw hx
  have hh := hk.held w (by rw [hp]; simp)
  have hob : (exec (groupOper F) (ls ++ later)).ob o = none := by
    cases hc : (exec (groupOper F) (ls ++ later)).ob o with
    | none => rfl
    | some b =>
      obtain ⟨v, hv⟩ := ht.ob o (by rw [hc]; simp)
      exact (hv.elim (ho v).1 (ho v).2).elim
  have e : exec (groupOper F) (ls ++ later ++ [.sub o w]) = step (groupOper F) (exec (groupOper F) (ls ++ later)) (.sub o w) := by
    simp [exec, List.foldl_append]
  rw [e]
  simp [Win.step, hob, hp, hh]

/-- In `groupRun` observer 5 subscribes to the group of 25 after the third value has made the selector throw. -/
example : let before : List (Lbl (Item Nat Nat)) := groupRun.take 13
    gend exF (accepted (exec (groupOper exF) before).log) = none ∧ mainHere (exec (groupOper exF) before).log = true ∧
    .destroy ∉ groupRun.drop 13 ∧ .fed 1 (.err 2) ∈ (exec (groupOper exF) (before ++ groupRun.drop 13)).log ∧
    received 5 (exec (groupOper exF) (groupRun ++ [.sub 5 1])).log = [.err 2] := by decide

/-- The request to destroy an operator that is not finished changes nothing; once it is finished, who comes afterwards is told
nothing. -/
example : received 5 (exec (groupOper exF) (groupRun.take 13 ++ [.destroy] ++ groupRun.drop 13 ++ [.sub 5 1])).log = [.err 2] ∧
    received 5 (exec (groupOper exF) (groupRun ++ [.destroy] ++ [.sub 5 1])).log = [] := by decide

end Rpp.Win
