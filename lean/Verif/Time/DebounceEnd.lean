import Verif.Time.DebounceLog

/-!
# `debounce`: serial calls, the end of the source, prompt schedulers
-/

namespace Rpp.Time.Debounce
variable {α ε : Type}

/-- Callbacks never overlap; nothing is called after a terminal callback; no value after an error. -/
structure InvE (s : St α ε) : Prop where
  r0 : (∀ i, (s.calls i).calling = false) → (∀ t, (s.tasks t).calling = false) → running s.log = 0
  r1 : ∀ i, (s.calls i).calling = true → running s.log = 1
  r2 : ∀ t, (s.tasks t).calling = true → running s.log = 1
  en : s.log.any Ev.isEnd = true → s.gone = true ∨
    (s.lock ≠ none ∧ (∀ t, s.lock ≠ some (.task t)) ∧ ∀ i, s.lock = some (.call i) → (s.calls i).ending = true)
  er : s.log.any Ev.isFail = true → s.gone = true ∨
    (s.lock ≠ none ∧ (∀ t, s.lock ≠ some (.task t)) ∧ ∀ i, s.lock = some (.call i) → (s.calls i).failing = true)

set_option maxHeartbeats 2000000 in
theorem InvE.tr {d} {s s' : St α ε} (h : InvE s) (hL : InvL s) (t : Tr d s s') : InvE s' := by
  obtain ⟨h1, h2, h3, h4, h5⟩ := h
  obtain ⟨l1, l2, l3, l4, -, -, l7, l8, -⟩ := hL
  have hcc : ∀ i, (s.calls i).calling = true → (s.calls i).holds = true := by
    intro i; cases s.calls i <;> simp [CPc.calling, CPc.holds]
  have htc : ∀ i, (s.tasks i).calling = true → (s.tasks i).holds = true := by
    intro i; cases s.tasks i <;> simp [TPc.calling, TPc.holds]
  have hfr : (s.tasks s.fresh).calling = false := by rw [l7 _ (Nat.le_refl _)]; rfl
  have hok : ∀ i x, s.calls i = .inT x → x.term = true := by
    intro i x h; have := l8 i; rw [h] at this; exact this
  have hok2 : ∀ i x, s.calls i = .fire x → x.term = true := by
    intro i x h; have := l8 i; rw [h] at this; exact this
  have hok3 : ∀ i x, s.calls i = .have x → x ≠ .done → (CPc.fire x).failing = true := by
    intro i x h hx; have := l8 i; rw [h] at this; cases x <;> simp_all [CPc.termOk, Item.term, CPc.failing]
  have hfi : ∀ i x, s.calls i = .fire x → (s.calls i).failing = (CPc.inT x).failing := by
    intro i x h; rw [h]; cases x <;> rfl
  have hhi : ∀ i x, s.calls i = .fire x → s.lock = some (.call i) := by
    intro i x h; exact l1 i (by rw [h]; rfl)
  have hxf : ∀ x : Item α ε, x.term = true → x = .done ∨ ∃ e, x = .err e := by
    intro x; cases x <;> simp [Item.term]
  cases t
  all_goals
    constructor
    all_goals simp only [running_append, List.any_append, Bool.or_eq_true] at *
    all_goals try simp only [running, List.any_cons, List.any_nil, Ev.isEnd, Ev.isFail,
      Bool.or_false, or_false, or_true, Bool.false_eq_true] at *
    all_goals try generalize s.log.any Ev.isEnd = fb at *
    all_goals try generalize s.log.any Ev.isFail = fe at *
    all_goals first
      | assumption
      | grind [CPc.holds, TPc.holds, CPc.calling, TPc.calling, CPc.ending, CPc.failing, Item.term, Ev.isFail]

theorem invE (d) (ls : List (Lbl α ε)) : InvE (exec d ls) := by
  refine (exec_induct d (P := fun s => InvL s ∧ InvE s) ⟨invL d [], ?_⟩
    (fun _ _ h t => ⟨h.1.tr t, h.2.tr h.1 t⟩) ls).2
  constructor <;> simp [running, CPc.calling, TPc.calling]

/-! ## After the end -/

/-- Invariant of the proofs; models no code. -/
structure InvZ (s : St α ε) : Prop where
  z1 : ∀ pre x rest, s.log = pre ++ .beg x :: rest → x.term = true → delivered rest = []
  z2 : ∀ pre e rest, s.log = pre ++ .recv (.err e) :: rest → values rest = []

theorem any_of_split {l pre rest : List (Ev α ε)} {e : Ev α ε} {p : Ev α ε → Bool}
    (h : l = pre ++ e :: rest) (he : p e = true) : l.any p = true := by
  subst h; simp [he]

theorem InvZ.snoc {s s' : St α ε} (h : InvZ s) (e : Ev α ε) (hl : s'.log = s.log ++ [e])
    (h1 : s.log.any Ev.isEnd = true → delivered [e] = [])
    (h2 : s.log.any Ev.isFail = true → values [e] = []) : InvZ s' := by
  constructor
  · intro pre x rest hh hx
    rw [hl] at hh
    rcases split_snoc hh with ⟨-, e2, -⟩ | ⟨r, e1, e2⟩
    · subst e2; rfl
    · rw [e1, delivered_append, h.z1 _ _ _ e2 hx, h1 (any_of_split e2 hx)]; rfl
  · intro pre x rest hh
    rw [hl] at hh
    rcases split_snoc hh with ⟨-, e2, -⟩ | ⟨r, e1, e2⟩
    · subst e2; rfl
    · rw [e1, values_append, h.z2 _ _ _ e2, h2 (any_of_split e2 rfl)]; rfl

theorem InvZ.tr {d} {s s' : St α ε} (h : InvZ s) (hL : InvL s) (hE : InvE s) (t : Tr d s s') : InvZ s' := by
  have hc : ∀ i, s.gone = false → (s.calls i).holds = true → s.log.any Ev.isEnd = true →
      (s.calls i).ending = true := by
    intro i hg hh he
    rcases hE.en he with h1 | h1
    · rw [hg] at h1; cases h1
    · exact h1.2.2 i (hL.lc i hh)
  have hf : ∀ i, s.gone = false → (s.calls i).holds = true → s.log.any Ev.isFail = true →
      (s.calls i).failing = true := by
    intro i hg hh he
    rcases hE.er he with h1 | h1
    · rw [hg] at h1; cases h1
    · exact h1.2.2 i (hL.lc i hh)
  have ht : ∀ t, s.gone = false → (s.tasks t).holds = true → s.log.any Ev.isEnd = true → False := by
    intro t hg hh he
    rcases hE.en he with h1 | h1
    · rw [hg] at h1; cases h1
    · exact h1.2.1 t (hL.lt t hh)
  have ht' : ∀ t, s.gone = false → (s.tasks t).holds = true → s.log.any Ev.isFail = true → False := by
    intro t hg hh he
    rcases hE.er he with h1 | h1
    · rw [hg] at h1; cases h1
    · exact h1.2.1 t (hL.lt t hh)
  cases t
  case begV i v hi hg =>
    refine h.snoc _ rfl (fun he => ?_) (fun he => ?_)
    · have := hc i hg (by rw [hi]; rfl) he; rw [hi] at this; cases this
    · have := hf i hg (by rw [hi]; rfl) he; rw [hi] at this; cases this
  case begT i x hi hg =>
    refine h.snoc _ rfl (fun he => ?_) (fun he => ?_)
    · have := hc i hg (by rw [hi]; rfl) he; rw [hi] at this; cases this
    · have := hL.ok i; rw [hi] at this; cases x <;> first | rfl | cases this
  case beg t v hi hg =>
    exact h.snoc _ rfl (fun he => (ht t hg (by rw [hi]; rfl) he).elim)
      (fun he => (ht' t hg (by rw [hi]; rfl) he).elim)
  all_goals first
    | exact h.snoc _ rfl (fun _ => rfl) (fun _ => rfl)
    | exact ⟨h.z1, h.z2⟩

theorem invZ (d) (ls : List (Lbl α ε)) : InvZ (exec d ls) := by
  refine (exec_induct d (P := fun s => InvL s ∧ InvE s ∧ InvZ s) ⟨invL d [], invE d [], ?_⟩
    (fun _ _ h t => ⟨h.1.tr t, h.2.1.tr h.1 t, h.2.2.tr h.1 h.2.1 t⟩) ls).2.2
  constructor <;> simp

/-! ## Completion -/

/-- What a completing call has still to deliver before the completion. -/
def CPc.rest : CPc α ε → Option (List α)
  | .flushed v => some [v]
  | .inVal _ => some []
  | .fire .done => some []
  | _ => none

/-- The log ends with a flush whose value, except for `r`, has been delivered. -/
def Flushed (log : List (Ev α ε)) (r : List α) : Prop :=
  ∃ p o q, log = p ++ .flush o :: q ∧ values q ++ r = o.toList ∧ (onWay p = 0 → values p = chosen p)

theorem Flushed.snoc {log : List (Ev α ε)} {r r' : List α} (h : Flushed log r) (e : Ev α ε)
    (he : values [e] ++ r' = r) : Flushed (log ++ [e]) r' := by
  obtain ⟨p, o, q, h1, h2, h3⟩ := h
  refine ⟨p, o, q ++ [e], by simp [h1], ?_, h3⟩
  rw [values_append, List.append_assoc, he, h2]

/-- Invariant of the proofs; models no code. -/
structure InvG (s : St α ε) : Prop where
  g : ∀ i r, (s.calls i).rest = some r → s.gone = false → Flushed s.log r
  cd : ∀ pre rest, s.log = pre ++ .beg .done :: rest → Flushed pre []

theorem InvG.snoc {s s' : St α ε} (h : InvG s) (e : Ev α ε) (hl : s'.log = s.log ++ [e])
    (hg : s'.gone = false → s.gone = false)
    (h1 : ∀ i r, (s'.calls i).rest = some r → s.gone = false →
      Flushed (s.log ++ [e]) r ∨ ((s.calls i).rest = some r ∧ values [e] = []))
    (h2 : e = .beg .done → Flushed s.log []) : InvG s' := by
  constructor
  · intro i r hr hg'
    rw [hl]
    rcases h1 i r hr (hg hg') with h3 | ⟨h3, h4⟩
    · exact h3
    · exact (h.g i r h3 (hg hg')).snoc e (by simp [h4])
  · intro pre rest hh
    rw [hl] at hh
    rcases split_snoc hh with ⟨e1, -, e3⟩ | ⟨r, -, e2⟩
    · subst e3; exact h2 e1
    · exact h.cd _ _ e2

theorem InvG.same {s s' : St α ε} (h : InvG s) (hl : s'.log = s.log)
    (hg : s'.gone = false → s.gone = false)
    (h1 : ∀ i r, (s'.calls i).rest = some r → s.gone = false → (s.calls i).rest = some r) : InvG s' := by
  constructor
  · intro i r hr hg'
    rw [hl]; exact h.g i r (h1 i r hr (hg hg')) (hg hg')
  · rw [hl]; exact h.cd

theorem InvG.tr {d} {s s' : St α ε} (h : InvG s) (hL : InvL s) (hV : InvV s) (t : Tr d s s') : InvG s' := by
  have hr : ∀ i r, (s.calls i).rest = some r → s.lock = some (.call i) := by
    intro i r hh
    apply hL.lc
    revert hh
    cases s.calls i <;> simp [CPc.rest, CPc.holds]
  -- A call that is not the holder of the lock has nothing to deliver.
  have hother : ∀ i j r, s.lock = some (.call i) → (s.calls j).rest = some r → j = i := by
    intro i j r hl hh
    have := hr j r hh
    rw [hl] at this
    cases this; rfl
  have hfl : ∀ i, s.calls i = .have .done → s.gone = false → onWay s.log = 0 → values s.log = chosen s.log := by
    intro i hi hg hw
    have hnf : s.log.any Ev.isFlush = false := by
      cases hf : s.log.any Ev.isFlush
      · rfl
      · rcases hV.fl hf with h1 | h1
        · rw [hg] at h1; cases h1
        · have := h1.2.2 i (hL.lc i (by rw [hi]; rfl)); rw [hi] at this; cases this
    refine (hV.eq2 (fun t => ?_) hg hnf).symm
    cases hv : (s.tasks t).val? with
    | none => rfl
    | some v =>
      have : (s.tasks t).way = true := by
        revert hv; cases s.tasks t <;> simp [TPc.val?, TPc.way]
      have := hV.w1 t this
      omega
  have hif : ∀ i j (p : CPc α ε) r, p.rest = none →
      (if j = i then p else s.calls j).rest = some r → (s.calls j).rest = some r := by
    intro i j p r hp hh
    split at hh
    · rw [hp] at hh; cases hh
    · exact hh
  cases t
  case flushV i v hi hv =>
    refine h.snoc _ rfl id ?_ (by simp)
    intro j r hj hg
    simp only at hj
    split at hj
    · cases hj
      exact .inl ⟨s.log, some v, [], rfl, rfl, hfl i hi hg⟩
    · exact .inr ⟨hj, rfl⟩
  case flushN i hi hv =>
    refine h.snoc _ rfl id ?_ (by simp)
    intro j r hj hg
    simp only at hj
    split at hj
    · cases hj
      exact .inl ⟨s.log, none, [], rfl, rfl, hfl i hi hg⟩
    · exact .inr ⟨hj, rfl⟩
  case begV i v hi hg =>
    refine h.snoc _ rfl id ?_ (by simp)
    intro j r hj _
    simp only at hj
    split at hj
    · cases hj
      exact .inl ((h.g i [v] (by rw [hi]; rfl) hg).snoc _ rfl)
    · next hne =>
      exact absurd (hother i j r (hL.lc i (by rw [hi]; rfl)) hj) hne
  case finV i v hi =>
    refine h.snoc _ rfl id ?_ (by simp)
    intro j r hj _
    simp only at hj
    split at hj
    · next e => cases hj; exact .inr ⟨by rw [e, hi]; rfl, rfl⟩
    · exact .inr ⟨hj, rfl⟩
  case skipV i v hi hg => exact h.same rfl id (by intro j r _ h0; rw [hg] at h0; cases h0)
  case noFlush i x hi hx =>
    refine h.same rfl id ?_
    intro j r hj _
    refine hif i j _ r ?_ hj
    cases x <;> first | rfl | exact absurd rfl hx
  case begT i x hi hg =>
    refine h.snoc _ rfl id ?_ ?_
    · intro j r hj _
      have hj' := hif i j _ r rfl hj
      refine .inr ⟨hj', ?_⟩
      have := hL.ok i; rw [hi] at this; cases x <;> first | rfl | cases this
    · intro he
      cases he
      exact h.g i [] (by rw [hi]; rfl) hg
  case beg t v ht hg =>
    refine h.snoc _ rfl id ?_ (by simp)
    intro j r hj _
    have e1 := hr j r hj
    rw [hL.lt t (by rw [ht]; rfl)] at e1
    cases e1
  all_goals first
    | exact h.same rfl id (fun j r hj _ => hif _ j _ r rfl hj)
    | exact h.same rfl id (fun j r hj _ => hj)
    | exact h.snoc _ rfl id (fun j r hj _ => .inr ⟨hif _ j _ r rfl hj, rfl⟩) (by simp)
    | exact h.snoc _ rfl id (fun j r hj _ => .inr ⟨hj, rfl⟩) (by simp)
    | exact h.snoc _ rfl (by simp) (fun j r hj _ => .inr ⟨hif _ j _ r rfl hj, rfl⟩) (by simp)
    | exact h.snoc _ rfl (by simp) (fun j r hj _ => .inr ⟨hj, rfl⟩) (by simp)

theorem invG (d) (ls : List (Lbl α ε)) : InvG (exec d ls) := by
  refine (exec_induct d (P := fun s => InvL s ∧ InvV s ∧ InvG s) ⟨invL d [], invV d [], ?_⟩
    (fun _ _ h t => ⟨h.1.tr t, h.2.1.tr h.1 t, h.2.2.tr h.1 h.2.1 t⟩) ls).2.2
  constructor <;> simp [CPc.rest]

/-! ## Prompt schedulers -/

/-- Time may pass only as long as no task is due, and none is about to look at the clock. -/
def tickOk (s : St α ε) (k : Nat) : Bool :=
  (List.range s.fresh).all fun t => match s.tasks t with
    | .waiting tp => s.now + k ≤ tp
    | .started => k == 0
    | _ => true

/-- Used in the proofs; models no code. -/
def promptFrom (d : Nat) (s : St α ε) : List (Lbl α ε) → Bool
  | [] => true
  | .tick k :: ls => tickOk s k && promptFrom d (step d s (.tick k)) ls
  | l :: ls => promptFrom d (step d s l) ls

/-- The worker starts every task exactly when it is due. -/
def Prompt (d : Nat) (ls : List (Lbl α ε)) : Prop := promptFrom d {} ls = true

/-- Invariant of the proofs; models no code. -/
structure InvP (d : Nat) (s : St α ε) : Prop where
  wait : ∀ t tp, s.tasks t = .waiting tp → s.now ≤ tp
  run : ∀ t x, s.tasks t = .started → s.due = some x → s.now ≤ x
  took : ∀ pre v T rest, s.log = pre ++ .took v T :: rest → ∀ w t, pending pre = some (w, t) → T ≤ t + d

theorem InvP.tr {d} {s s' : St α ε} (h : InvP d s) (hT : InvT d s) (t : Tr d s s')
    (hn : s'.now = s.now) : InvP d s' := by
  obtain ⟨h1, h2, h3⟩ := h
  obtain ⟨t1, t2, t3, t4, t5⟩ := hT
  have hsn : ∀ e : Ev α ε, (∀ v T, e ≠ .took v T) → ∀ pre v T rest, s.log ++ [e] = pre ++ .took v T :: rest →
      ∀ w t, pending pre = some (w, t) → T ≤ t + d := by
    intro e he pre v T rest hl
    rcases split_snoc hl with ⟨e1, -, -⟩ | ⟨r, -, e2⟩
    · exact absurd e1 (he _ _)
    · exact h3 _ _ _ _ e2
  cases t
  case take t tp v ht hd hv hn =>
    refine ⟨?_, ?_, ?_⟩
    · intro u up hu
      simp only at hu
      split at hu
      · cases hu
      · exact h1 u up hu
    · simp
    · intro pre v T rest hl w t hp
      rcases split_snoc hl with ⟨e1, -, e3⟩ | ⟨r, -, e2⟩
      · subst e3
        cases e1
        have e1 := (t2 _ _ hp).1
        exact h2 _ _ ht e1
      · exact h3 _ _ _ _ e2 _ _ hp
  all_goals
    refine ⟨?_, ?_, ?_⟩
    all_goals first
      | assumption
      | exact hsn _ (by simp)
      | grind

theorem InvP.tick {d} {s : St α ε} {k} (h : InvP d s) (hL : InvL s) (hT : InvT d s) (hk : tickOk s k = true) :
    InvP d { s with now := s.now + k } := by
  obtain ⟨h1, h2, h3⟩ := h
  have hlt : ∀ t, s.tasks t ≠ .none → t < s.fresh := by
    intro t ht
    apply Classical.byContradiction
    intro hn
    exact ht (hL.fr t (by omega))
  simp only [tickOk, List.all_eq_true, List.mem_range] at hk
  refine ⟨?_, ?_, h3⟩
  · intro t tp ht
    have := hk t (hlt t (by rw [show s.tasks t = _ from ht]; simp))
    rw [show s.tasks t = _ from ht] at this
    simpa using this
  · intro t x ht hd
    have := hk t (hlt t (by rw [show s.tasks t = _ from ht]; simp))
    rw [show s.tasks t = _ from ht] at this
    have hk0 : k = 0 := by simpa using this
    subst hk0
    exact h2 t x ht hd

theorem step_now {d} (s : St α ε) (l : Lbl α ε) (h : ∀ k, l ≠ .tick k) : (step d s l).now = s.now := by
  cases l with
  | tick k => exact absurd rfl (h k)
  | dispose => rfl
  | shut => simp only [step]; split <;> rfl
  | arrive i x => simp only [step]; split <;> (try split) <;> rfl
  | call i =>
    simp only [step, stepCall]
    split <;> (try split) <;> (try split) <;> rfl
  | task t =>
    simp only [step, stepTask]
    split <;> (try split) <;> (try split) <;> rfl

theorem invP (d) (ls : List (Lbl α ε)) (h : Prompt d ls) : InvP d (exec d ls) := by
  suffices hh : ∀ s : St α ε, InvL s → InvK s → InvT d s → InvP d s → promptFrom d s ls = true →
      InvP d (ls.foldl (step d) s) from
    hh {} (invL d []) (invK d []) (invT d []) (by constructor <;> simp) h
  clear h
  induction ls with
  | nil => exact fun s _ _ _ h _ => h
  | cons l ls ih =>
    intro s hL hK hT hP hp
    have hstep : InvP d (step d s l) := by
      by_cases hl : ∃ k, l = .tick k
      · obtain ⟨k, rfl⟩ := hl
        simp only [promptFrom, Bool.and_eq_true] at hp
        exact hP.tick hL hT hp.1
      · rcases step_tr d s l with e | e
        · rw [e]; exact hP
        · exact hP.tr hT e (step_now s l fun k hk => hl ⟨k, hk⟩)
    have hp' : promptFrom d (step d s l) ls = true := by
      cases l <;> simp_all [promptFrom]
    rcases step_tr d s l with e | e
    · rw [List.foldl_cons]; rw [e] at hp' ⊢; exact ih s hL hK hT hP hp'
    · exact ih _ (hL.tr e) (hK.tr hL e) (hT.tr hK e) hstep hp'

end Rpp.Time.Debounce
