import Verif.Combine.ZipMoved

/-!
# Helper lemmas for C98: zip with moves does the same as zip without
-/

namespace Rpp.Comb

variable {α β ε σ σ' : Type}

/-- No counterpart in /repo. -/
def Pc.full : Pc α β ε → Pc (Cell α) β ε
  | .idle => .idle
  | .pre c => .pre c.full
  | .preE e => .preE e
  | .out o => .out o
  | .inn o => .inn o
  | .cb o => .cb o
  | .err e => .err e
  | .cbErr => .cbErr
  | .mark => .mark
  | .rel => .rel
  | .relThrow e => .relThrow e
  | .opening => .opening

/-- No counterpart in /repo. -/
def Ev.full : Ev α β ε → Ev (Cell α) β ε
  | .recv i c => .recv i c.full
  | .act i c => .act i c.full
  | .actE i e => .actE i e
  | .opened k => .opened k
  | .beg i o => .beg i o
  | .own i e => .own i e
  | .fin i => .fin i
  | .gone => .gone

/-- `H'` acts as `H` does. -/
structure HubSim (H' : Hub (Cell α) β ε σ') (H : Hub α β ε σ) (R : σ' → σ → Prop) : Prop where
  start : H'.start = H.start
  init : R H'.init H.init
  dyn : H'.dyn = H.dyn
  opn : ∀ k x' x, R x' x → R (H'.opn k x') (H.opn k x)
  early : ∀ i c, H'.early i (Sig.full c) = H.early i c
  act : ∀ i c x' x, R x' x → (H'.act i (Sig.full c) x').1 = (H.act i c x).1 ∧ R (H'.act i (Sig.full c) x').2 (H.act i c x).2

/-- Corresponding states. -/
structure Same (R : σ' → σ → Prop) (s' : St (Cell α) β ε σ') (s : St α β ε σ) : Prop where
  st : R s'.st s.st
  lock : s'.lock = s.lock
  gone : s'.gone = s.gone
  shut : s'.shut = s.shut
  done : s'.done = s.done
  active : s'.active = s.active
  calls : s'.calls = fun i => (s.calls i).full
  log : s'.log = s.log.map Ev.full

variable {R : σ' → σ → Prop} {s' : St (Cell α) β ε σ'} {s : St α β ε σ} {H' : Hub (Cell α) β ε σ'} {H : Hub α β ε σ}

theorem Same.goto (h : Same R s' s) (i) (p : Pc α β ε) : Same R (s'.goto i p.full) (s.goto i p) := by
  refine ⟨h.st, h.lock, h.gone, h.shut, h.done, h.active, ?_, h.log⟩
  funext j
  simp only [St.goto, h.calls]
  split <;> rfl

theorem Same.emit (h : Same R s' s) (e : Ev α β ε) : Same R (s'.emit e.full) (s.emit e) :=
  ⟨h.st, h.lock, h.gone, h.shut, h.done, h.active, h.calls, by simp [St.emit, h.log]⟩

theorem Same.process (hH : HubSim H' H R) (h : Same R s' s) (i) (c : Sig α ε) (e : Ev α β ε) :
    Same R (s'.process H' i c.full e.full) (s.process H i c e) := by
  obtain ⟨h1, h2⟩ := hH.act i c _ _ h.st
  simp only [St.process, hH.early, h1, h.lock]
  have hs1 : Same R ({ s' with st := (H'.act i c.full s'.st).2, lock := s.lock }.emit e.full) ({ s with st := (H.act i c s.st).2 }.emit e) :=
    Same.emit (s' := { s' with st := (H'.act i c.full s'.st).2, lock := s.lock }) (s := { s with st := (H.act i c s.st).2 })
      ⟨h2, rfl, h.gone, h.shut, h.done, h.active, h.calls, h.log⟩ e
  have hs2 : Same R ({ s' with st := (H'.act i c.full s'.st).2, lock := some i }.emit e.full) ({ s with st := (H.act i c s.st).2, lock := some i }.emit e) :=
    Same.emit (s' := { s' with st := (H'.act i c.full s'.st).2, lock := some i }) (s := { s with st := (H.act i c s.st).2, lock := some i })
      ⟨h2, rfl, h.gone, h.shut, h.done, h.active, h.calls, h.log⟩ e
  split
  · cases (H.act i c s.st).1 with
    | silent => exact hs1.goto i .idle
    | out o => exact hs1.goto i (.out o)
    | throw x => exact hs1.goto i (.preE x)
  · cases s.lock with
    | some _ => exact h
    | none =>
      cases (H.act i c s.st).1 with
      | silent => exact hs2.goto i .rel
      | out o => exact hs2.goto i (.inn o)
      | throw x => exact hs2.goto i (.relThrow x)

theorem Same.advance (hH : HubSim H' H R) (h : Same R s' s) (i) : Same R (s'.advance H' i) (s.advance H i) := by
  have hc : s'.calls i = (s.calls i).full := by rw [h.calls]
  unfold St.advance
  rw [hc]
  cases s.calls i with
  | idle => exact h
  | cb o => exact h
  | cbErr => exact h
  | pre c => exact Same.process hH h i c (.act i c)
  | preE e =>
    simp only [Pc.full, h.shut]
    split
    · exact h.goto i .idle
    · exact Same.process hH h i (.term (.error e)) (.actE i e)
  | out o =>
    simp only [Pc.full, h.lock]
    cases s.lock with
    | some _ => exact h
    | none =>
      exact Same.goto (s' := { s' with lock := some i }) (s := { s with lock := some i })
        ⟨h.st, rfl, h.gone, h.shut, h.done, h.active, h.calls, h.log⟩ i (.inn o)
  | inn o =>
    simp only [Pc.full, h.gone]
    split
    · exact h.goto i .rel
    · exact (h.goto i (.cb o)).emit (.beg i o)
  | err e =>
    simp only [Pc.full, h.gone]
    split
    · exact h.goto i .rel
    · exact (h.goto i .cbErr).emit (.own i e)
  | mark =>
    exact Same.goto (s' := { s' with gone := true }) (s := { s with gone := true })
        ⟨h.st, h.lock, rfl, h.shut, h.done, h.active, h.calls, h.log⟩ i .rel
  | rel =>
    exact Same.goto (s' := { s' with lock := none }) (s := { s with lock := none })
        ⟨h.st, rfl, h.gone, h.shut, h.done, h.active, h.calls, h.log⟩ i .idle
  | relThrow e =>
    exact Same.goto (s' := { s' with lock := none }) (s := { s with lock := none })
        ⟨h.st, rfl, h.gone, h.shut, h.done, h.active, h.calls, h.log⟩ i (.preE e)
  | opening => exact h.goto i .idle

theorem full_isIdle (p : Pc α β ε) : p.full.isIdle = p.isIdle := by cases p <;> rfl

theorem Same.step (hH : HubSim H' H R) (h : Same R s' s) (l : Lbl α ε) : Same R (step H' s' l.full) (step H s l) := by
  obtain ⟨t', lock', gone', shut', done', active', calls', log'⟩ := s'
  obtain ⟨u, lock, gone, shut, done, active, calls, log⟩ := s
  obtain ⟨h1, h2, h3, h4, h5, h6, h7, h8⟩ := h
  simp only at h1 h2 h3 h4 h5 h6 h7 h8
  subst h2 h3 h4 h5 h6 h7 h8
  have h : Same R ⟨t', lock', gone', shut', done', active', fun i => (calls i).full, log.map Ev.full⟩ ⟨u, lock', gone', shut', done', active', calls, log⟩ :=
    ⟨h1, rfl, rfl, rfl, rfl, rfl, rfl, rfl⟩
  cases l with
  | next i v =>
    simp only [Comb.step, Lbl.full, full_isIdle]
    split
    · exact (h.goto i (.pre (.next v))).emit (.recv i (.next v))
    · exact h
  | term i t =>
    simp only [Comb.step, Lbl.full, full_isIdle]
    split
    · exact (Same.goto (s' := ⟨t', lock', gone', shut', _, active', _, _⟩) (s := ⟨u, lock', gone', shut', _, active', calls, log⟩)
        ⟨h1, rfl, rfl, rfl, rfl, rfl, rfl, rfl⟩ i (.pre (.term t))).emit (.recv i (.term t))
    · exact h
  | opn k =>
    simp only [Comb.step, Lbl.full, full_isIdle, hH.dyn]
    split
    · exact (Same.goto (s' := ⟨H'.opn k t', lock', gone', shut', done', _, _, _⟩) (s := ⟨H.opn k u, lock', gone', shut', done', _, calls, log⟩)
        ⟨hH.opn k _ _ h1, rfl, rfl, rfl, rfl, rfl, rfl, rfl⟩ 0 .opening).emit (.opened k)
    · exact h
  | run i => exact Same.advance hH h i
  | ret i r =>
    simp only [Comb.step, Lbl.full]
    cases calls i with
    | cb o =>
      cases o with
      | next v => cases r with
        | ok => exact (h.goto i .rel).emit (.fin i)
        | throw e => exact (h.goto i (.err e)).emit (.fin i)
      | term t => exact (h.goto i .mark).emit (.fin i)
    | cbErr => exact (h.goto i .mark).emit (.fin i)
    | _ => exact h
  | gone =>
    simp only [Comb.step, Lbl.full]
    split
    · exact h
    · exact Same.emit (s' := ⟨t', lock', true, shut', done', active', _, _⟩) (s := ⟨u, lock', true, shut', done', active', calls, log⟩) ⟨h1, rfl, rfl, rfl, rfl, rfl, rfl, rfl⟩ .gone
  | shut =>
    simp only [Comb.step, Lbl.full]
    split
    · exact ⟨h1, rfl, rfl, rfl, rfl, rfl, rfl, rfl⟩
    · exact h

theorem HubSim.exec (hH : HubSim H' H R) (ls : List (Lbl α ε)) : Same R (Comb.exec H' (ls.map Lbl.full)) (Comb.exec H ls) := by
  have : ∀ (ls : List (Lbl α ε)) s' s, Same R s' s → Same R ((ls.map Lbl.full).foldl (Comb.step H') s') (ls.foldl (Comb.step H) s) := by
    intro ls
    induction ls with
    | nil => intro _ _ h; exact h
    | cons l ls ih => intro s' s h; exact ih _ _ (Same.step hH h l)
  exact this ls _ _ ⟨hH.init, rfl, rfl, rfl, rfl, by simp [Hub.initSt, hH.start], rfl, rfl⟩

theorem askAll_full (junk : ε) (sel : List α → Except ε β) (l : List α) : askAll junk sel (l.map Cell.full) = sel l := by
  have : (l.map Cell.full).mapM content = some l := by
    rw [List.mapM_map]
    induction l with
    | nil => rfl
    | cons a l ih => simp_all [List.mapM_cons, content]
  simp only [askAll, this]

theorem zip_sim (n : Nat) (junk : ε) (sel : List α → Except ε β) (hsel : ∀ l, ∃ b, sel l = .ok b) :
    HubSim (zipMoving n (askAll junk sel)) (zipHub n sel) (fun x' x => x'.need = x.need ∧ x'.pend = fun j => (x.pend j).map Cell.full) := by
  refine ⟨rfl, ⟨rfl, rfl⟩, rfl, fun _ _ _ h => h, fun i c => by cases c <;> rfl, ?_⟩
  intro i c ⟨need', pend'⟩ ⟨need, pend⟩ ⟨h1, h2⟩
  simp only at h1 h2
  subst h1 h2
  cases c with
  | term t => cases t <;> exact ⟨rfl, rfl, rfl⟩
  | next v =>
    have hp : update (fun j => (pend j).map Cell.full) i ((pend i).map Cell.full ++ [Cell.full v]) =
        fun j => (update pend i (pend i ++ [v]) j).map Cell.full := by
      funext j; simp only [update]; split <;> simp
    simp only [zipMoving, zipHub, Sig.full, Cell.take]
    rw [hp]
    generalize update pend i (pend i ++ [v]) = p
    simp only [List.isEmpty_map]
    by_cases hall : ((List.range n).all fun j => !(p j).isEmpty) = true
    · simp only [hall, if_true]
      have hargs : ((List.range n).filterMap fun j => (((p j).map Cell.full).head?).map fun c => c) =
          ((List.range n).filterMap fun j => (p j).head?).map Cell.full := by
        rw [List.map_filterMap]
        congr 1
        funext j
        cases p j <;> rfl
      rw [hargs, askAll_full]
      obtain ⟨b, hb⟩ := hsel ((List.range n).filterMap fun j => (p j).head?)
      rw [hb]
      refine ⟨rfl, rfl, ?_⟩
      funext j
      simp only
      split <;> cases p j <;> simp [moveFront]
    · simp [hall]

end Rpp.Comb
