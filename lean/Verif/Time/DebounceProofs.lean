import Verif.Time.Debounce

/-!
# Invariants of `debounce`
-/

namespace Rpp.Time.Debounce
variable {α ε : Type}

/-- How one step changes state and log (for the proofs); models no code. -/
inductive Tr (d : Nat) (s : St α ε) : St α ε → Prop
  | tick (k) : Tr d s { s with now := s.now + k }
  | dispose : Tr d s { s with gone := true, log := s.log ++ [.gone] }
  | shut (h : s.gone = true) : Tr d s { s with dead := true }
  | arriveV (i v) (hi : s.calls i = .idle) (hd : s.dead = false) :
      Tr d s { s with calls := fun j => if j = i then .put v else s.calls j }
  | arriveT (i x) (hi : s.calls i = .idle) (hd : s.dead = false) (hx : x.term = true) :
      Tr d s { s with calls := fun j => if j = i then .want x else s.calls j }
  | put (i v tp) (hi : s.calls i = .put v) (hd : s.due = some tp) :
      Tr d s { s with value := some v, due := some (s.now + d), log := s.log ++ [.arrived v s.now],
                      calls := fun j => if j = i then .idle else s.calls j }
  | putNew (i v) (hi : s.calls i = .put v) (hd : s.due = none) :
      Tr d s { s with value := some v, due := some (s.now + d), log := s.log ++ [.arrived v s.now],
                      calls := fun j => if j = i then .idle else s.calls j,
                      fresh := s.fresh + 1,
                      tasks := fun j => if j = s.fresh then .waiting (s.now + d) else s.tasks j }
  | lockC (i x) (hi : s.calls i = .want x) (hl : s.lock = none) :
      Tr d s { s with lock := some (.call i), log := s.log ++ [.recv x],
                      calls := fun j => if j = i then .have x else s.calls j }
  | flushV (i v) (hi : s.calls i = .have .done) (hv : s.value = some v) :
      Tr d s { s with value := none, log := s.log ++ [.flush (some v)],
                      calls := fun j => if j = i then .flushed v else s.calls j }
  | flushN (i) (hi : s.calls i = .have .done) (hv : s.value = none) :
      Tr d s { s with value := none, log := s.log ++ [.flush none],
                      calls := fun j => if j = i then .fire .done else s.calls j }
  | noFlush (i x) (hi : s.calls i = .have x) (hx : x ≠ .done) :
      Tr d s { s with calls := fun j => if j = i then .fire x else s.calls j }
  | skipV (i v) (hi : s.calls i = .flushed v) (hg : s.gone = true) :
      Tr d s { s with calls := fun j => if j = i then .fire .done else s.calls j }
  | begV (i v) (hi : s.calls i = .flushed v) (hg : s.gone = false) :
      Tr d s { s with log := s.log ++ [.beg (.val v)],
                      calls := fun j => if j = i then .inVal v else s.calls j }
  | finV (i v) (hi : s.calls i = .inVal v) :
      Tr d s { s with log := s.log ++ [.fin (.val v)],
                      calls := fun j => if j = i then .fire .done else s.calls j }
  | skipT (i x) (hi : s.calls i = .fire x) (hg : s.gone = true) :
      Tr d s { s with calls := fun j => if j = i then .rel else s.calls j }
  | begT (i x) (hi : s.calls i = .fire x) (hg : s.gone = false) :
      Tr d s { s with log := s.log ++ [.beg x],
                      calls := fun j => if j = i then .inT x else s.calls j }
  | finT (i x) (hi : s.calls i = .inT x) :
      Tr d s { s with gone := true, dead := true, log := s.log ++ [.fin x],
                      calls := fun j => if j = i then .rel else s.calls j }
  | rel (i) (hi : s.calls i = .rel) :
      Tr d s { s with lock := none, calls := fun j => if j = i then .idle else s.calls j }
  | drop (t tp) (ht : s.tasks t = .waiting tp) (hw : s.worker = none) (hd : s.dead = true) :
      Tr d s { s with tasks := fun j => if j = t then .over else s.tasks j }
  | start (t tp) (ht : s.tasks t = .waiting tp) (hw : s.worker = none) (hd : s.dead = false) :
      Tr d s { s with worker := some t, tasks := fun j => if j = t then .started else s.tasks j }
  | again (t tp v) (ht : s.tasks t = .started) (hd : s.due = some tp) (hv : s.value = some v)
      (hn : s.now < tp) :
      Tr d s { s with worker := none, tasks := fun j => if j = t then .waiting tp else s.tasks j }
  | take (t tp v) (ht : s.tasks t = .started) (hd : s.due = some tp) (hv : s.value = some v)
      (hn : tp ≤ s.now) :
      Tr d s { s with due := none, value := none, log := s.log ++ [.took v s.now],
                      tasks := fun j => if j = t then .hold v else s.tasks j }
  | quit (t) (ht : s.tasks t = .started) (hd : s.due = none ∨ s.value = none) :
      Tr d s { s with worker := none, tasks := fun j => if j = t then .over else s.tasks j }
  | lockT (t v) (ht : s.tasks t = .hold v) (hl : s.lock = none) :
      Tr d s { s with lock := some (.task t), tasks := fun j => if j = t then .have v else s.tasks j }
  | skip (t v) (ht : s.tasks t = .have v) (hg : s.gone = true) :
      Tr d s { s with tasks := fun j => if j = t then .rel v else s.tasks j }
  | beg (t v) (ht : s.tasks t = .have v) (hg : s.gone = false) :
      Tr d s { s with log := s.log ++ [.beg (.val v)],
                      tasks := fun j => if j = t then .inCall v else s.tasks j }
  | fin (t v) (ht : s.tasks t = .inCall v) :
      Tr d s { s with log := s.log ++ [.fin (.val v)],
                      tasks := fun j => if j = t then .rel v else s.tasks j }
  | relT (t v) (ht : s.tasks t = .rel v) :
      Tr d s { s with lock := none, worker := none, log := s.log ++ [.left v],
                      tasks := fun j => if j = t then .over else s.tasks j }

theorem step_tr (d : Nat) (s : St α ε) (l : Lbl α ε) : step d s l = s ∨ Tr d s (step d s l) := by
  cases l with
  | tick k => exact .inr (.tick k)
  | dispose => exact .inr .dispose
  | shut =>
    simp only [step]; split
    · next h => exact .inr (.shut h)
    · exact .inl rfl
  | arrive i x =>
    simp only [step]; split
    · next h =>
      split
      · exact .inl rfl
      · next h2 =>
        cases x with
        | val v => exact .inr (.arriveV i v h (by simpa using h2))
        | err e => exact .inr (.arriveT i _ h (by simpa using h2) rfl)
        | done => exact .inr (.arriveT i _ h (by simpa using h2) rfl)
    · exact .inl rfl
  | call i =>
    simp only [step, stepCall]
    split
    · exact .inl rfl
    · next v h =>
      split
      · next tp hd => exact .inr (.put i v tp h hd)
      · next hd => exact .inr (.putNew i v h hd)
    · next x h =>
      split
      · exact .inl rfl
      · next hl => exact .inr (.lockC i x h hl)
    · next x h =>
      split
      · split
        · next v hv =>
          rw [hv]; exact .inr (.flushV i v h hv)
        · next hv =>
          rw [hv]; exact .inr (.flushN i h hv)
      · next hne => exact .inr (.noFlush i x h (fun hx => hne hx))
    · next v h =>
      split
      · next hg => exact .inr (.skipV i v h hg)
      · next hg => exact .inr (.begV i v h (by simpa using hg))
    · next v h => exact .inr (.finV i v h)
    · next x h =>
      split
      · next hg => exact .inr (.skipT i x h hg)
      · next hg => exact .inr (.begT i x h (by simpa using hg))
    · next x h => exact .inr (.finT i x h)
    · next h => exact .inr (.rel i h)
  | task t =>
    simp only [step, stepTask]
    split
    · exact .inl rfl
    · exact .inl rfl
    · next tp h =>
      split
      · exact .inl rfl
      · next hw =>
        split
        · next hd => exact .inr (.drop t tp h hw hd)
        · next hd => exact .inr (.start t tp h hw (by simpa using hd))
    · next h =>
      split
      · next tp v hd hv =>
        split
        · next hn => exact .inr (.again t tp v h hd hv hn)
        · next hn => exact .inr (.take t tp v h hd hv (by omega))
      · next hne =>
        refine .inr (.quit t h ?_)
        cases hd : s.due <;> cases hv : s.value <;> simp_all
    · next v h =>
      split
      · exact .inl rfl
      · next hl => exact .inr (.lockT t v h hl)
    · next v h =>
      split
      · next hg => exact .inr (.skip t v h hg)
      · next hg => exact .inr (.beg t v h (by simpa using hg))
    · next v h => exact .inr (.fin t v h)
    · next v h => exact .inr (.relT t v h)

theorem exec_induct (d : Nat) {P : St α ε → Prop} (h0 : P {})
    (hs : ∀ s s', P s → Tr d s s' → P s') (ls : List (Lbl α ε)) : P (exec d ls) := by
  suffices h : ∀ s, P s → P (ls.foldl (step d) s) from h _ h0
  induction ls with
  | nil => exact fun s h => h
  | cons l ls ih =>
    intro s h
    apply ih
    rcases step_tr d s l with h1 | h1
    · rw [h1]; exact h
    · exact hs _ _ h h1

theorem split_snoc {l pre rest : List (Ev α ε)} {e f : Ev α ε} (h : l ++ [e] = pre ++ f :: rest) :
    (e = f ∧ rest = [] ∧ l = pre) ∨ ∃ r, rest = r ++ [e] ∧ l = pre ++ f :: r := by
  rcases List.eq_nil_or_concat rest with rfl | ⟨r, c, rfl⟩
  · left
    have := List.append_inj' h rfl
    exact ⟨by simpa using this.2, rfl, this.1⟩
  · right
    have he' : l ++ [e] = (pre ++ f :: r) ++ [c] := by simpa using h
    have := List.append_inj' he' rfl
    exact ⟨r, by simpa using this.2.symm, this.1⟩

/-! ## Snoc lemmas -/

theorem arrivals_append (l m : List (Ev α ε)) : arrivals (l ++ m) = arrivals l ++ arrivals m := by
  induction l with
  | nil => rfl
  | cons e l ih => cases e <;> simp [arrivals, ih]

theorem chosen_append (l m : List (Ev α ε)) : chosen (l ++ m) = chosen l ++ chosen m := by
  induction l with
  | nil => rfl
  | cons e l ih =>
    cases e with
    | flush o => cases o <;> simp [chosen, ih]
    | _ => simp [chosen, ih]

theorem values_append (l m : List (Ev α ε)) : values (l ++ m) = values l ++ values m := by
  induction l with
  | nil => rfl
  | cons e l ih =>
    cases e with
    | beg x => cases x <;> simp [values, ih]
    | _ => simp [values, ih]

theorem delivered_append (l m : List (Ev α ε)) :
    delivered (l ++ m) = delivered l ++ delivered m := by
  induction l with
  | nil => rfl
  | cons e l ih => cases e <;> simp [delivered, ih]

theorem running_append (l m : List (Ev α ε)) : running (l ++ m) = running l + running m := by
  induction l with
  | nil => simp [running]
  | cons e l ih => cases e <;> simp [running, ih] <;> omega

theorem onWay_append (l m : List (Ev α ε)) : onWay (l ++ m) = onWay l + onWay m := by
  induction l with
  | nil => simp [onWay]
  | cons e l ih => cases e <;> simp [onWay, ih] <;> omega

theorem pending_snoc (l : List (Ev α ε)) (e) : pending (l ++ [e]) = match e with
    | .arrived v t => some (v, t)
    | .took _ _ => none
    | .flush _ => none
    | _ => pending l := by
  simp only [pending, List.foldl_append, List.foldl_cons, List.foldl_nil]
  cases e <;> rfl

theorem values_delivered (l : List (Ev α ε)) : delivered l = [] → values l = [] := by
  induction l with
  | nil => simp [values]
  | cons e l ih => cases e <;> simp_all [values, delivered]

/-! ## The mutexes, the flags, the tasks -/

/-- Used in the proofs; models no code. -/
def CPc.holds : CPc α ε → Bool
  | .idle => false
  | .put _ => false
  | .want _ => false
  | _ => true

/-- Used in the proofs; models no code. -/
def CPc.termOk : CPc α ε → Bool
  | .want x => x.term
  | .have x => x.term
  | .fire x => x.term
  | .inT x => x.term
  | _ => true

/-- Used in the proofs; models no code. -/
def CPc.calling : CPc α ε → Bool
  | .inVal _ => true
  | .inT _ => true
  | _ => false

/-- The flush has happened and the terminal callback has not returned. -/
def CPc.past : CPc α ε → Bool
  | .flushed _ => true
  | .inVal _ => true
  | .fire x => x.term
  | .inT x => x.term
  | _ => false

/-- Used in the proofs; models no code. -/
def CPc.failing : CPc α ε → Bool
  | .have (.err _) => true
  | .fire (.err _) => true
  | .inT (.err _) => true
  | _ => false

/-- Used in the proofs; models no code. -/
def CPc.ending : CPc α ε → Bool
  | .inT x => x.term
  | _ => false

/-- Used in the proofs; models no code. -/
def TPc.holds : TPc α → Bool
  | .have _ => true
  | .inCall _ => true
  | .rel _ => true
  | _ => false

/-- Used in the proofs; models no code. -/
def TPc.active : TPc α → Bool
  | .none => false
  | .waiting _ => false
  | .over => false
  | _ => true

/-- Used in the proofs; models no code. -/
def TPc.looking : TPc α → Bool
  | .waiting _ => true
  | .started => true
  | _ => false

/-- The task has taken a value and is not done with it. -/
def TPc.way : TPc α → Bool
  | .hold _ => true
  | .have _ => true
  | .inCall _ => true
  | .rel _ => true
  | _ => false

/-- Used in the proofs; models no code. -/
def TPc.calling : TPc α → Bool
  | .inCall _ => true
  | _ => false

/-- The value the task has still to deliver. -/
def TPc.val? : TPc α → Option α
  | .hold v => some v
  | .have v => some v
  | _ => Option.none

/-- A test on the constructor; models no code. -/
def Ev.isFlush : Ev α ε → Bool
  | .flush _ => true
  | _ => false
/-- A test on the constructor; models no code. -/
def Ev.isFail : Ev α ε → Bool
  | .recv (.err _) => true
  | _ => false
/-- A test on the constructor; models no code. -/
def Ev.isEnd : Ev α ε → Bool
  | .beg x => x.term
  | _ => false
/-- A terminal event of the source, or the subscriber leaving. -/
def Ev.isStop : Ev α ε → Bool
  | .recv _ => true
  | .gone => true
  | _ => false

/-- Invariant of the proofs; models no code. -/
structure InvL (s : St α ε) : Prop where
  lc : ∀ i, (s.calls i).holds = true → s.lock = some (.call i)
  lc' : ∀ i, s.lock = some (.call i) → (s.calls i).holds = true
  lt : ∀ t, (s.tasks t).holds = true → s.lock = some (.task t)
  lt' : ∀ t, s.lock = some (.task t) → (s.tasks t).holds = true
  wk : ∀ t, (s.tasks t).active = true → s.worker = some t
  wk' : ∀ t, s.worker = some t → (s.tasks t).active = true
  fr : ∀ t, s.fresh ≤ t → s.tasks t = .none
  ok : ∀ i, (s.calls i).termOk = true
  dg : s.dead = true → s.gone = true

theorem TPc.looking_none {p : TPc α} (h : p = .none) : p.looking = false := by subst h; rfl

theorem InvL.tr {d} {s s' : St α ε} (h : InvL s) (t : Tr d s s') : InvL s' := by
  obtain ⟨h1, h2, h3, h4, h5, h6, h7, h8, h9⟩ := h
  cases t
  all_goals
    constructor
    all_goals first
      | assumption
      | grind [CPc.holds, TPc.holds, CPc.termOk, TPc.active, Item.term]

theorem invL (d) (ls : List (Lbl α ε)) : InvL (exec d ls) := by
  refine exec_induct d ?_ (fun _ _ h t => h.tr t) ls
  constructor <;> simp [CPc.holds, TPc.holds, TPc.active, CPc.termOk]

/-- The timer. -/
structure InvK (s : St α ε) : Prop where
  lk : ∀ t, (s.tasks t).looking = true → s.due ≠ none
  l1 : ∀ t u, (s.tasks t).looking = true → (s.tasks u).looking = true → t = u
  st : s.gone = true → s.log.any Ev.isStop = true
  sc : ∀ i, (s.calls i).holds = true → s.log.any Ev.isStop = true
  sf : s.log.any Ev.isFlush = true → s.log.any Ev.isStop = true
  vd : s.due = none → s.value = none
  dv : s.log.any Ev.isFlush = false → s.value = none → s.due = none
  lf : s.log.any Ev.isFlush = false → s.dead = false → s.due ≠ none →
    0 < s.fresh ∧ (s.tasks (s.fresh - 1)).looking = true

theorem InvK.tr {d} {s s' : St α ε} (h : InvK s) (hL : InvL s) (t : Tr d s s') : InvK s' := by
  obtain ⟨h10, h11, h12, h13, h14, h15, h16, h17⟩ := h
  have hfr : ∀ t, (s.tasks t).looking = true → t < s.fresh := by
    intro t ht
    apply Classical.byContradiction
    intro hn
    rw [hL.fr t (by omega)] at ht
    cases ht
  have hd := hL.dg
  clear hL
  cases t
  all_goals
    constructor
    all_goals simp only [List.any_append, Bool.or_eq_true, Bool.or_eq_false_iff, List.any_cons, List.any_nil,
      Ev.isStop, Ev.isFlush, Bool.or_false, or_false, or_true, and_true] at *
    all_goals first
      | assumption
      | grind [CPc.holds, TPc.looking]

theorem invK (d) (ls : List (Lbl α ε)) : InvK (exec d ls) := by
  refine (exec_induct d (P := fun s => InvL s ∧ InvK s) ⟨invL d [], ?_⟩
    (fun _ _ h t => ⟨h.1.tr t, h.2.tr h.1 t⟩) ls).2
  constructor <;> simp [CPc.holds, TPc.looking]

end Rpp.Time.Debounce
