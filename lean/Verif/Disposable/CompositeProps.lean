import Verif.Disposable.CompositeProofs

/-!
# C49, C50, C53: concurrent use of `composite_disposable`

All statements quantify over every configuration (capacity, what children do when they are disposed) and
every list of labels, that is every interleaving of any number of threads calling any operations.
-/

namespace Rpp.Composite

theorem reachable_inv (c : Cfg) (ls : List Lbl) : ∃ o p, Inv (exec c {} ls) o p :=
  Inv.exec c ls Inv.init

/-- C49: once the composite is disposed and all calls have returned, every child that was added and not
removed afterwards has been disposed. -/
theorem C49_no_leak (c : Cfg) (ls : List Lbl) (d : Nat)
    (hdisp : (exec c {} ls).st = .disposed) (hquiet : Quiet (exec c {} ls))
    (hkept : Kept (exec c {} ls).hist d) : d ∈ (exec c {} ls).dead := by
  obtain ⟨o, p, h⟩ := reachable_inv c ls
  have hp : p = none := by
    cases p with
    | none => rfl
    | some t =>
      have := h.dspc t
      rw [hquiet t] at this
      simp at this
  rcases h.owed d hkept with h1 | h1 | ⟨t, h1⟩
  · exact h1
  · rw [h.empt hdisp hp] at h1; simp at h1
  · rw [hquiet t] at h1; simp at h1

/-- Frames that read or write the (non-atomic) container. -/
def Frame.touches (f : Frame) : Bool := f.crit || f.dsp

/-- C49: the container is never touched by two calls at the same time (so the plain vector is free of data
races): two such frames belong to the same thread. -/
theorem C49_container_exclusive (c : Cfg) (ls : List Lbl) (t u : Nat) (f g : Frame)
    (hf : f ∈ (exec c {} ls).th t) (hg : g ∈ (exec c {} ls).th u)
    (hft : f.touches = true) (hgt : g.touches = true) : t = u := by
  obtain ⟨o, p, h⟩ := reachable_inv c ls
  have key : ∀ {t : Nat} {f : Frame}, f ∈ (exec c {} ls).th t → f.crit = true → o = some t := by
    intro t f hf hc
    have h1 := h.crit t
    have h2 := critN_pos hf hc
    by_cases ho : o = some t
    · exact ho
    · rw [if_neg ho] at h1; omega
  have key2 : ∀ {t : Nat} {f : Frame}, f ∈ (exec c {} ls).th t → f.dsp = true → p = some t := by
    intro t f hf hc
    have h1 := h.dspc t
    have h2 := dspN_pos hf hc
    by_cases ho : p = some t
    · exact ho
    · rw [if_neg ho] at h1; omega
  have excl : ∀ {t u : Nat}, o = some t → p = some u → False := by
    intro t u ho hp
    have h1 := h.edit.2 (by simp [ho])
    have h2 := h.disp (by simp [hp])
    rw [h1] at h2; cases h2
  simp only [Frame.touches, Bool.or_eq_true] at hft hgt
  rcases hft with hft | hft <;> rcases hgt with hgt | hgt
  · have := (key hf hft).symm.trans (key hg hgt); exact Option.some.inj this
  · exact (excl (key hf hft) (key2 hg hgt)).elim
  · exact (excl (key hg hgt) (key2 hf hft)).elim
  · have := (key2 hf hft).symm.trans (key2 hg hgt); exact Option.some.inj this

/-- What holds of `add d` on thread `t` once it started on a disposed composite. -/
def Adding (t d : Nat) (s : St) : Prop :=
  s.st = .disposed ∧
  (d ∈ s.dead ∨ ∃ f rest, s.th t = rest ++ [f] ∧ (f = .addCheck d ∨ f = .addCas d ∨ f = .addKill d) ∧
    rest = [])

theorem disposed_stays (c : Cfg) (s : St) (l : Lbl) {o p} (h : Inv s o p) (hd : s.st = .disposed) :
    (step c s l).st = .disposed := by
  have nocrit : ∀ {t f rest}, s.th t = f :: rest → f.crit = true → False := by
    intro t f rest hs hf
    have := h.noCrit (by simp [hd]) t (g := f) (by rw [hs]; simp)
    rw [hf] at this; cases this
  have hkill : ∀ (t d rest), (s.kill c t d rest).st = s.st := by
    intro t d rest; unfold St.kill; split <;> rfl
  cases l with
  | call t q => simp only [step]; split <;> simp [hd]
  | killChild d => exact hd
  | run t =>
    simp only [step]
    split
    · exact hd
    · rename_i f rest hs
      cases f with
      | addStore => exact (nocrit hs rfl).elim
      | addFail => exact (nocrit hs rfl).elim
      | remStore => exact (nocrit hs rfl).elim
      | clrStore => exact (nocrit hs rfl).elim
      | addPush d => exact (nocrit hs rfl).elim
      | remErase d => exact (nocrit hs rfl).elim
      | clrIter d => exact (nocrit hs rfl).elim
      | addCheck d => simp only [runFrame]; split <;> (try split) <;> simp [hd]
      | addCas d => simp only [runFrame, hd]; simp [hd]
      | remCas d => simp only [runFrame, hd]; simp [hd]
      | clrCas => simp only [runFrame, hd]; simp [hd]
      | dspCas => simp only [runFrame, hd]; simp [hd]
      | addKill d => simp only [runFrame]; rw [hkill]; exact hd
      | dspHook => simp [runFrame, hd]
      | dspIter i =>
        simp only [runFrame]
        split
        · rw [hkill]; exact hd
        · simp [hd]
      | script ops =>
        cases ops <;> simp [runFrame, hd]

theorem dead_mono (c : Cfg) (s : St) (l : Lbl) (d : Nat) (hd : d ∈ s.dead) : d ∈ (step c s l).dead := by
  have hkill : ∀ (t x rest), d ∈ (s.kill c t x rest).dead := by
    intro t x rest; unfold St.kill; split <;> simp [hd]
  cases l with
  | call t q => simp only [step]; split <;> simp [hd]
  | killChild x => simp [step, hd]
  | run t =>
    simp only [step]
    split
    · exact hd
    · rename_i f rest hs
      cases f with
      | script ops => cases ops <;> simp [runFrame, hd]
      | addKill x => exact hkill t x rest
      | clrIter i => simp only [runFrame]; split <;> first | exact hkill .. | simp [hd]
      | dspIter i => simp only [runFrame]; split <;> first | exact hkill .. | simp [hd]
      | _ => simp only [runFrame] <;> (repeat' split) <;> simp [hd]

theorem th_other (c : Cfg) (s : St) (t u : Nat) (hu : u ≠ t) (f rest) :
    (runFrame c s t f rest).th u = s.th u := by
  have hput : ∀ (s : St) (stk), (s.put t stk).th u = s.th u := by
    intro s stk; rw [put_th, if_neg hu]
  have hkill : ∀ (x rest), (s.kill c t x rest).th u = s.th u := by
    intro x rest; unfold St.kill; split <;> rw [hput]
  cases f with
  | script ops => cases ops <;> simp only [runFrame] <;> rw [hput]
  | addKill x => exact hkill x rest
  | clrIter i => simp only [runFrame]; split <;> first | exact hkill .. | rw [hput]
  | dspIter i => simp only [runFrame]; split <;> first | exact hkill .. | rw [hput]
  | _ => simp only [runFrame] <;> (repeat' split) <;> first | rfl | rw [hput]

theorem Adding.step {c : Cfg} {t d : Nat} {s : St} {o p} (hinv : Inv s o p) (h : Adding t d s)
    (hself : d ≠ c.self) (l : Lbl) : Adding t d (step c s l) := by
  obtain ⟨hd, h⟩ := h
  refine ⟨disposed_stays c s l hinv hd, ?_⟩
  rcases h with h | ⟨f, rest, hs, hf, rfl⟩
  · exact Or.inl (dead_mono c s l d h)
  · rw [List.nil_append] at hs
    cases l with
    | call u q =>
      simp only [Composite.step]
      split
      · rename_i hu
        have hne : t ≠ u := by rintro rfl; rw [hs] at hu; cases hu
        exact Or.inr ⟨f, [], by rw [put_th, if_neg hne]; exact hs, hf, rfl⟩
      · exact Or.inr ⟨f, [], hs, hf, rfl⟩
    | killChild x => exact Or.inr ⟨f, [], hs, hf, rfl⟩
    | run u =>
      simp only [Composite.step]
      by_cases hut : t = u
      · subst hut
        rw [hs]
        simp only
        rcases hf with rfl | rfl | rfl
        · simp only [runFrame]
          rw [if_neg hself]
          split
          · rename_i hdd; exact Or.inl hdd
          · exact Or.inr ⟨.addCas d, [], by simp, by simp, rfl⟩
        · simp only [runFrame, hd]
          exact Or.inr ⟨.addKill d, [], by simp, by simp, rfl⟩
        · left
          simp only [runFrame, St.kill]
          split
          · assumption
          · simp
      · split
        · exact Or.inr ⟨f, [], hs, hf, rfl⟩
        · rename_i g rest' hu
          exact Or.inr ⟨f, [], by rw [th_other c s u t hut]; exact hs, hf, rfl⟩

/-- C49: a child added to an already disposed composite has been disposed by the time `add` returns. -/
theorem C49_add_after_dispose (c : Cfg) (before after : List Lbl) (t d : Nat) (hself : d ≠ c.self)
    (hdisp : (exec c {} before).st = .disposed) (hidle : (exec c {} before).th t = [])
    (hret : (exec c {} (before ++ .call t (.add d) :: after)).th t = []) :
    d ∈ (exec c {} (before ++ .call t (.add d) :: after)).dead := by
  have happ : ∀ (s : St) (xs ys : List Lbl), exec c s (xs ++ ys) = exec c (exec c s xs) ys := by
    intro s xs ys; simp [exec, List.foldl_append]
  obtain ⟨o, p, hinv⟩ := reachable_inv c before
  have key : ∀ (ls : List Lbl) (s : St) o p, Inv s o p → Adding t d s → Adding t d (exec c s ls) := by
    intro ls
    induction ls with
    | nil => intro s o p _ h; exact h
    | cons l ls ih =>
      intro s o p hi h
      obtain ⟨o', p', hi'⟩ := hi.step c l
      exact ih _ o' p' hi' (h.step hi hself l)
  rw [happ] at hret ⊢
  have hstart : Adding t d (step c (exec c {} before) (.call t (.add d))) := by
    refine ⟨disposed_stays c _ _ hinv hdisp, Or.inr ⟨.addCheck d, [], ?_, by simp, rfl⟩⟩
    simp [step, hidle, Op.frame]
  obtain ⟨o', p', hinv'⟩ := hinv.step c (.call t (.add d))
  have := key after _ o' p' hinv' hstart
  rcases this.2 with h | ⟨f, rest, h, _⟩
  · exact h
  · have hret' : (exec c (step c (exec c {} before) (.call t (.add d))) after).th t = [] := hret
    rw [h] at hret'
    simp at hret'

-- Non-vacuity: an `add` racing with a `dispose`; the child ends up disposed.
example : let s := exec {} {} [.call 1 (.add 5), .call 2 .dispose, .run 1, .run 2, .run 1, .run 1, .run 2,
    .run 1, .run 2, .run 2]
    s.st = .disposed ∧ s.th 1 = [] ∧ s.th 2 = [] ∧ s.hist = [.added 5] ∧ s.dead = [5] := by decide
example : let s := exec {} {} [.call 1 (.add 5), .run 1, .run 1, .run 1, .run 1, .call 2 .dispose, .run 2, .run 2,
    .run 2, .run 2, .run 2, .run 2]
    s.st = .disposed ∧ s.th 1 = [] ∧ s.th 2 = [] ∧ s.hist = [.added 5] ∧ s.dead = [5] ∧ s.kids = [] := by decide

/-! C49 once more, in terms of the calls only (no ghost history). -/

/-- `add d` on thread `t` is still running or has taken effect. -/
def Recorded (t d : Nat) (s : St) : Prop :=
  Ev.added d ∈ s.hist ∨ s.th t = [.addCheck d] ∨ s.th t = [.addCas d] ∨ s.th t = [.addPush d]

theorem hist_mono (c : Cfg) (s : St) (l : Lbl) (e : Ev) (hd : e ∈ s.hist) : e ∈ (step c s l).hist := by
  have hkill : ∀ (t x rest), e ∈ (s.kill c t x rest).hist := by
    intro t x rest; unfold St.kill; split <;> simp [hd]
  cases l with
  | call t q => simp only [step]; split <;> simp [hd]
  | killChild x => simp [step, hd]
  | run t =>
    simp only [step]
    split
    · exact hd
    · rename_i f rest hs
      cases f with
      | script ops => cases ops <;> simp [runFrame, hd]
      | addKill x => exact hkill t x rest
      | clrIter i => simp only [runFrame]; split <;> first | exact hkill .. | simp [hd]
      | dspIter i => simp only [runFrame]; split <;> first | exact hkill .. | simp [hd]
      | _ => simp only [runFrame] <;> (repeat' split) <;> simp [hd]

theorem Recorded.step {c : Cfg} {t d : Nat} {s : St} (h : Recorded t d s)
    (hself : d ≠ c.self) (hcap : c.cap = none) (l : Lbl) : Recorded t d (step c s l) := by
  rcases h with h | h
  · exact Or.inl (hist_mono c s l _ h)
  · have hne : s.th t ≠ [] := by rcases h with h | h | h <;> simp [h]
    cases l with
    | call u q =>
      simp only [Composite.step]
      split
      · rename_i hu
        have hne : t ≠ u := by rintro rfl; exact hne hu
        right; rw [put_th, if_neg hne]; exact h
      · exact Or.inr h
    | killChild x => exact Or.inr h
    | run u =>
      simp only [Composite.step]
      by_cases hut : t = u
      · subst hut
        rcases h with h | h | h <;> rw [h] <;> simp only [runFrame]
        · rw [if_neg hself]
          split
          · left; simp
          · right; right; left; simp
        · split
          · right; right; right; simp
          · right; right; left; exact h
          · left; simp
        · simp only [Cfg.full, hcap]
          left; simp
      · split
        · exact Or.inr h
        · right; rw [th_other c s u t hut]; exact h

theorem kids_bound (c : Cfg) (n : Nat) (hcap : c.cap = some n) (s : St) (l : Lbl) (h : s.kids.length ≤ n) :
    (step c s l).kids.length ≤ n := by
  have hkill : ∀ (t x rest), (s.kill c t x rest).kids.length ≤ n := by
    intro t x rest; unfold St.kill; split <;> simpa using h
  cases l with
  | call t q => simp only [step]; split <;> simpa using h
  | killChild x => simpa [step] using h
  | run t =>
    simp only [step]
    split
    · exact h
    · rename_i f rest hs
      cases f with
      | script ops => cases ops <;> simpa [runFrame] using h
      | addKill x => exact hkill t x rest
      | clrIter i => simp only [runFrame]; split <;> first | exact hkill .. | simp
      | dspIter i => simp only [runFrame]; split <;> first | exact hkill .. | simp
      | remErase d => simpa [runFrame] using Nat.le_trans (List.length_filter_le _ _) h
      | addPush d =>
        simp only [runFrame]
        split
        · simpa using h
        · rename_i hf
          simp only [Cfg.full, hcap, decide_eq_true_eq] at hf
          simp only [St.put, List.length_append, List.length_singleton]
          omega
      | _ => simp only [runFrame] <;> (repeat' split) <;> simpa using h

/-- C49: a composite with room for `n` children never holds more, whatever threads do with it; and `add`, about to put its child into the
container, throws exactly if there are `n`. -/
theorem C49_capacity (c : Cfg) (n : Nat) (hcap : c.cap = some n) (ls : List Lbl) :
    (exec c {} ls).kids.length ≤ n ∧
    ∀ t d rest, (exec c {} ls).th t = .addPush d :: rest →
      ((exec c {} (ls ++ [.run t])).th t = .addFail :: rest ↔ (exec c {} ls).kids.length = n) ∧
      ((exec c {} (ls ++ [.run t])).th t = .addStore :: rest ↔ (exec c {} ls).kids.length < n) := by
  have hb : (exec c {} ls).kids.length ≤ n := by
    have h0 : ∀ (ls : List Lbl) (s : St), s.kids.length ≤ n → (exec c s ls).kids.length ≤ n := by
      intro ls
      induction ls with
      | nil => exact fun _ h => h
      | cons l ls ih => exact fun s h => ih _ (kids_bound c n hcap s l h)
    exact h0 ls {} (Nat.zero_le _)
  refine ⟨hb, fun t d rest ht => ?_⟩
  have he : exec c {} (ls ++ [.run t]) = step c (exec c {} ls) (.run t) := by simp [exec]
  rw [he]
  simp only [step, ht, runFrame, Cfg.full, hcap, decide_eq_true_eq]
  by_cases hf : (exec c {} ls).kids.length ≥ n
  · rw [if_pos hf]; simp only [put_th, if_true]
    exact ⟨⟨fun _ => by omega, fun _ => trivial⟩, ⟨fun h => by simp at h, fun h => by omega⟩⟩
  · rw [if_neg hf]; simp only [put_th, if_true]
    exact ⟨⟨fun h => by simp at h, fun h => by omega⟩, ⟨fun _ => by omega, fun _ => trivial⟩⟩

example : let s := exec { cap := some 1 } {} [.call 1 (.add 5), .run 1, .run 1, .run 1, .run 1, .call 1 (.add 6), .run 1, .run 1]
    s.kids = [5] ∧ s.th 1 = [.addPush 6] := by
  decide

/-- Frames that can lead to `remove d`. -/
def Frame.removes (d : Nat) : Frame → Bool
  | .remCas x | .remErase x => x == d
  | .script ops => ops.contains (.remove d)
  | _ => false

/-- Nobody removes `d`. -/
structure NoRemove (c : Cfg) (d : Nat) (s : St) : Prop where
  hist : Ev.removed d ∉ s.hist
  th : ∀ t, ∀ f ∈ s.th t, f.removes d = false

theorem NoRemove.put {c d s t stk} (h : NoRemove c d s) (hs : ∀ f ∈ stk, f.removes d = false) :
    NoRemove c d (s.put t stk) where
  hist := h.hist
  th := by
    intro u f hf
    rw [put_th] at hf
    split at hf
    · exact hs f hf
    · exact h.th u f hf

theorem NoRemove.kill {c : Cfg} {d s} (h : NoRemove c d s) (hc : ∀ x, Op.remove d ∉ c.child x) (t x rest)
    (hs : ∀ f ∈ rest, f.removes d = false) : NoRemove c d (s.kill c t x rest) := by
  unfold St.kill
  split
  · exact h.put hs
  · refine NoRemove.put ⟨h.hist, h.th⟩ ?_
    intro f hf
    rcases List.mem_cons.1 hf with rfl | hf
    · simp [Frame.removes, hc x]
    · exact hs f hf

theorem NoRemove.step {c : Cfg} {d s} (h : NoRemove c d s) (hc : ∀ x, Op.remove d ∉ c.child x)
    (hh : Op.remove d ∉ c.hook) (l : Lbl) (hl : ∀ t, l ≠ .call t (.remove d)) : NoRemove c d (step c s l) := by
  have hop : ∀ o : Op, o ≠ .remove d → o.frame.removes d = false := by
    intro o ho; cases o <;> simp [Op.frame, Frame.removes]
    rintro rfl; exact ho rfl
  cases l with
  | call t q =>
    simp only [Composite.step]
    split
    · refine h.put ?_
      intro f hf
      simp at hf; subst hf
      exact hop q (by rintro rfl; exact hl t rfl)
    · exact h
  | killChild x => exact ⟨h.hist, h.th⟩
  | run t =>
    simp only [Composite.step]
    split
    · exact h
    · rename_i f rest hs
      have hf := h.th t f (by rw [hs]; simp)
      have hr : ∀ g ∈ rest, g.removes d = false := fun g hg => h.th t g (by rw [hs]; simp [hg])
      have hcons : ∀ g : Frame, g.removes d = false → ∀ x ∈ g :: rest, x.removes d = false := by
        intro g hg x hx
        rcases List.mem_cons.1 hx with rfl | hx
        · exact hg
        · exact hr x hx
      have hcons2 : ∀ g g' : Frame, g.removes d = false → g'.removes d = false →
          ∀ x ∈ g :: g' :: rest, x.removes d = false := by
        intro g g' hg hg' x hx
        rcases List.mem_cons.1 hx with rfl | hx
        · exact hg
        · exact hcons g' hg' x hx
      have hadd : ∀ x, Ev.removed d ∉ s.hist ++ [Ev.added x] := by
        intro x; simp [h.hist]
      cases f with
      | addCheck x =>
        simp only [runFrame]
        split
        · exact h.put hr
        · split
          · exact NoRemove.put ⟨hadd x, h.th⟩ hr
          · exact h.put (hcons _ rfl)
      | addCas x =>
        simp only [runFrame]
        split
        · exact NoRemove.put ⟨h.hist, h.th⟩ (hcons _ rfl)
        · exact h
        · exact NoRemove.put ⟨hadd x, h.th⟩ (hcons _ rfl)
      | addPush x =>
        simp only [runFrame]
        split
        · exact h.put (hcons _ rfl)
        · exact NoRemove.put ⟨hadd x, h.th⟩ (hcons _ rfl)
      | addStore => exact NoRemove.put ⟨h.hist, h.th⟩ hr
      | addFail => exact NoRemove.put ⟨h.hist, h.th⟩ hr
      | addKill x => exact h.kill hc t x rest hr
      | remCas x =>
        simp only [runFrame]
        split
        · exact NoRemove.put ⟨h.hist, h.th⟩ (hcons _ (by simpa [Frame.removes] using hf))
        · exact h
        · exact h.put hr
      | remErase x =>
        simp [Frame.removes] at hf
        refine NoRemove.put ⟨?_, h.th⟩ (hcons _ rfl)
        simp [h.hist]; exact fun e => hf e.symm
      | remStore => exact NoRemove.put ⟨h.hist, h.th⟩ hr
      | clrCas =>
        simp only [runFrame]
        split
        · exact NoRemove.put ⟨h.hist, h.th⟩ (hcons _ rfl)
        · exact h
        · exact h.put hr
      | clrIter i =>
        simp only [runFrame]
        split
        · exact h.kill hc t _ _ (hcons _ rfl)
        · exact NoRemove.put ⟨h.hist, h.th⟩ (hcons _ rfl)
      | clrStore => exact NoRemove.put ⟨h.hist, h.th⟩ hr
      | dspCas =>
        simp only [runFrame]
        split
        · exact NoRemove.put ⟨h.hist, h.th⟩ (hcons _ rfl)
        · exact h
        · exact h.put hr
      | dspHook =>
        exact NoRemove.put ⟨h.hist, h.th⟩ (hcons2 _ _ (by simp [Frame.removes, hh]) rfl)
      | dspIter i =>
        simp only [runFrame]
        split
        · exact h.kill hc t _ _ (hcons _ rfl)
        · exact NoRemove.put ⟨h.hist, h.th⟩ hr
      | script ops =>
        cases ops with
        | nil => exact h.put hr
        | cons o os =>
          simp [Frame.removes] at hf
          exact h.put (hcons2 _ _ (hop o (fun e => hf.1 e.symm)) (by simp [Frame.removes, hf.2]))

/-- C49, in terms of calls: in any execution in which a thread calls `add(d)` on a composite with a dynamic
container, nobody calls `remove(d)`, and at the end the composite is disposed and all calls have returned,
`d` is disposed - wherever the `add` happened relative to `dispose`, `clear` and calls of other threads. -/
theorem C49_added_child_disposed (c : Cfg) (hcap : c.cap = none) (before after : List Lbl) (t d : Nat)
    (hself : d ≠ c.self) (hidle : (exec c {} before).th t = [])
    (hc : ∀ x, Op.remove d ∉ c.child x) (hh : Op.remove d ∉ c.hook)
    (hrem : ∀ u, Lbl.call u (.remove d) ∉ before ++ .call t (.add d) :: after)
    (hdisp : (exec c {} (before ++ .call t (.add d) :: after)).st = .disposed)
    (hquiet : Quiet (exec c {} (before ++ .call t (.add d) :: after))) :
    d ∈ (exec c {} (before ++ .call t (.add d) :: after)).dead := by
  apply C49_no_leak c _ d hdisp hquiet
  have hrec : ∀ (ls : List Lbl) (s : St), Recorded t d s → Recorded t d (exec c s ls) := by
    intro ls
    induction ls with
    | nil => intro s h; exact h
    | cons l ls ih => intro s h; exact ih _ (h.step hself hcap l)
  have hnr : ∀ (ls : List Lbl) (s : St), (∀ u, Lbl.call u (.remove d) ∉ ls) → NoRemove c d s →
      NoRemove c d (exec c s ls) := by
    intro ls
    induction ls with
    | nil => intro s _ h; exact h
    | cons l ls ih =>
      intro s hl h
      exact ih _ (fun u hu => hl u (by simp [hu])) (h.step hc hh l (fun u e => hl u (by simp [e])))
  have h1 : NoRemove c d (exec c {} (before ++ .call t (.add d) :: after)) :=
    hnr _ _ hrem ⟨by simp, by simp⟩
  have h2 : Recorded t d (exec c {} (before ++ .call t (.add d) :: after)) := by
    have : exec c {} (before ++ .call t (.add d) :: after) =
        exec c (step c (exec c {} before) (.call t (.add d))) after := by
      simp [exec, List.foldl_append]
    rw [this]
    refine hrec _ _ (Or.inr (Or.inl ?_))
    simp [step, hidle, Op.frame]
  rcases h2 with h2 | h2
  · obtain ⟨pre, post, h3⟩ := List.append_of_mem h2
    exact ⟨pre, post, h3, fun h => h1.hist (by rw [h3]; simp [h])⟩
  · rw [hquiet t] at h2; simp at h2

/-! ## C50 -/

/-- C50: however many threads call `dispose()`, the dispose action of a composite runs at most once, and
exactly once when the composite is disposed and all calls have returned. -/
theorem C50_composite_action_once (c : Cfg) (ls : List Lbl) :
    (exec c {} ls).hooks ≤ 1 ∧
    ((exec c {} ls).st ≠ .disposed → (exec c {} ls).hooks = 0) ∧
    ((exec c {} ls).st = .disposed → Quiet (exec c {} ls) → (exec c {} ls).hooks = 1) := by
  obtain ⟨o, p, h⟩ := reachable_inv c ls
  refine ⟨?_, h.hk0, ?_⟩
  · by_cases hd : (exec c {} ls).st = .disposed
    · rcases h.hk2 hd with ⟨t, ht⟩ | h1
      · rw [h.hk1 t ht]; omega
      · omega
    · rw [h.hk0 hd]; omega
  · intro hd hq
    rcases h.hk2 hd with ⟨t, ht⟩ | h1
    · rw [hq t] at ht; simp at ht
    · exact h1

example : let s := exec {} {} [.call 1 .dispose, .call 2 .dispose, .run 1, .run 2, .run 1, .run 1, .run 1]
    s.st = .disposed ∧ s.th 1 = [] ∧ s.th 2 = [] ∧ s.hooks = 1 := by decide

/-! ## C53 -/

/-- The configuration of the counterexample: disposing child 1 calls `add 2` on the composite. -/
def reentrant : Cfg := { child := fun d => if d = 1 then [.add 2] else [] }

/-- A thread that is inside `clear` with a re-entrant `add` on top. -/
def Stuck (s : St) : Prop :=
  s.st = .edit ∧ ∃ rest, s.th 0 = .addCas 2 :: rest ∧ critN rest = 1

theorem Stuck.step {c : Cfg} {s : St} {o p} (hi : Inv s o p) (h : Stuck s) (l : Lbl) : Stuck (step c s l) := by
  obtain ⟨hst, rest, hs, hr⟩ := h
  have ho : o = some 0 := by
    have h1 := hi.crit 0
    rw [hs] at h1
    simpa [Frame.crit, hr] using h1
  cases l with
  | call t q =>
    simp only [Composite.step]
    split
    · rename_i ht
      have hne : 0 ≠ t := by rintro rfl; rw [hs] at ht; cases ht
      exact ⟨hst, rest, by rw [put_th, if_neg hne]; exact hs, hr⟩
    · exact ⟨hst, rest, hs, hr⟩
  | killChild d => exact ⟨hst, rest, hs, hr⟩
  | run t =>
    simp only [Composite.step]
    by_cases ht : 0 = t
    · subst ht
      rw [hs]
      simp only [runFrame, hst]
      exact ⟨hst, rest, hs, hr⟩
    · split
      · exact ⟨hst, rest, hs, hr⟩
      · rename_i f rest' hu
        refine ⟨?_, rest, by rw [th_other c s t 0 ht]; exact hs, hr⟩
        -- the frame of another thread is not critical, and all others leave `Edit` alone
        have hf : f.crit = false := by
          cases hc : f.crit with
          | false => rfl
          | true =>
            have h1 := hi.crit t
            have h2 := critN_pos (show f ∈ s.th t by rw [hu]; simp) hc
            rw [ho, if_neg (by simpa using ht)] at h1
            omega
        have hfd := hi.noDsp (by simp [hst]) t (g := f) (by rw [hu]; simp)
        have hkill : ∀ (t d rest), (s.kill c t d rest).st = s.st := by
          intro t d rest; unfold St.kill; split <;> rfl
        cases f with
        | script ops => cases ops <;> simp [runFrame, hst]
        | addKill x => simp only [runFrame]; rw [hkill]; exact hst
        | addCheck d => simp only [runFrame]; split <;> (try split) <;> simp [hst]
        | addCas d => simp only [runFrame, hst]
        | remCas d => simp only [runFrame, hst]
        | clrCas => simp only [runFrame, hst]
        | dspCas => simp only [runFrame, hst]
        | _ => first | (simp [Frame.crit] at hf; done) | (simp [Frame.dsp] at hfd; done)

/-- C53 is false: if disposing a child calls `add` on the composite, `clear()` never returns, whatever
happens afterwards (the thread spins on the `Edit` state it set itself), and neither does anything that
waits for the composite. -/
theorem C53_clear_reentry_refutes :
    ∃ before : List Lbl, before = [.call 0 (.add 1), .run 0, .run 0, .run 0, .run 0, .call 0 .clear, .run 0,
      .run 0, .run 0, .run 0] ∧
      ∀ after : List Lbl, (exec reentrant {} (before ++ after)).th 0 ≠ [] ∧
        (exec reentrant {} (before ++ after)).st = .edit := by
  refine ⟨_, rfl, ?_⟩
  intro after
  have happ : ∀ (s : St) (xs ys : List Lbl), exec reentrant s (xs ++ ys) =
      exec reentrant (exec reentrant s xs) ys := by
    intro s xs ys; simp [exec, List.foldl_append]
  rw [happ]
  obtain ⟨o, p, hinv⟩ := reachable_inv reentrant [.call 0 (.add 1), .run 0, .run 0, .run 0, .run 0,
    .call 0 .clear, .run 0, .run 0, .run 0, .run 0]
  have hstuck : Stuck (exec reentrant {} [.call 0 (.add 1), .run 0, .run 0, .run 0, .run 0,
    .call 0 .clear, .run 0, .run 0, .run 0, .run 0]) :=
    ⟨by decide, [.script [], .clrIter 1], by decide, by decide⟩
  generalize exec reentrant {} [.call 0 (.add 1), .run 0, .run 0, .run 0, .run 0, .call 0 .clear, .run 0,
      .run 0, .run 0, .run 0] = s at *
  have key : ∀ (ls : List Lbl) (s : St) o p, Inv s o p → Stuck s → Stuck (exec reentrant s ls) := by
    intro ls
    induction ls with
    | nil => intro s o p _ h; exact h
    | cons l ls ih =>
      intro s o p hi h
      obtain ⟨o', p', hi'⟩ := hi.step reentrant l
      exact ih _ o' p' hi' (h.step hi l)
  obtain ⟨h1, rest, h2, _⟩ := key after s o p hinv hstuck
  exact ⟨by rw [h2]; simp, h1⟩

/-- Run thread `t` `n` times. -/
def runs (t n : Nat) : List Lbl := List.replicate n (.run t)

theorem clear_loop (c : Cfg) (t : Nat) : ∀ (n : Nat) (s : St) (i : Nat) (rest : List Frame),
    (∀ d ∈ s.kids, c.child d = []) → n = s.kids.length - i → i ≤ s.kids.length →
    s.st = .edit → s.th t = .clrIter i :: rest →
    ∃ k, let s' := exec c s (runs t k)
      s'.th t = rest ∧ s'.st = .none ∧ s'.kids = [] ∧
      (∀ d ∈ s.kids.drop i, d ∈ s'.dead) ∧ (∀ d ∈ s.dead, d ∈ s'.dead) := by
  intro n
  induction n with
  | zero =>
    intro s i rest _ hn hi hst hs
    refine ⟨2, ?_⟩
    have hk : s.kids[i]? = none := List.getElem?_eq_none_iff.2 (by omega)
    simp [runs, exec, List.replicate, step, hs, runFrame, hk, St.put, List.drop_eq_nil_of_le (show s.kids.length ≤ i by omega)]
  | succ n ih =>
    intro s i rest hc hn hi hst hs
    have hlt : i < s.kids.length := by omega
    have hk : s.kids[i]? = some s.kids[i] := List.getElem?_eq_getElem hlt
    -- one or two steps bring us to the next child
    have hnext : ∃ k s', s' = exec c s (runs t k) ∧ s'.th t = .clrIter (i + 1) :: rest ∧ s'.st = .edit ∧
        s'.kids = s.kids ∧ s.kids[i] ∈ s'.dead ∧ (∀ d ∈ s.dead, d ∈ s'.dead) := by
      by_cases hd : s.kids[i] ∈ s.dead
      · refine ⟨1, _, rfl, ?_⟩
        simp [runs, exec, step, hs, runFrame, hk, St.kill, hd, St.put, hst]
      · refine ⟨2, _, rfl, ?_⟩
        have hch := hc s.kids[i] (List.getElem_mem hlt)
        simp [runs, exec, List.replicate, step, hs, runFrame, hk, St.kill, hd, St.put, hch, hst]
        intro d hdd; simp [hdd]
    obtain ⟨k1, s1, hs1, h1, h2, h3, h4, h5⟩ := hnext
    obtain ⟨k2, g1, g2, g3, g4, g5⟩ := ih s1 (i + 1) rest (by rw [h3]; exact hc) (by rw [h3]; omega)
      (by rw [h3]; omega) h2 h1
    refine ⟨k1 + k2, ?_⟩
    have : exec c s (runs t (k1 + k2)) = exec c s1 (runs t k2) := by
      rw [hs1]; simp [exec, runs, ← List.replicate_append_replicate, List.foldl_append]
    simp only [this]
    refine ⟨g1, g2, g3, ?_, fun d hd => g5 d (h5 d hd)⟩
    intro d hd
    rw [List.drop_eq_getElem_cons hlt, List.mem_cons] at hd
    rcases hd with rfl | hd
    · exact g5 _ h4
    · exact g4 d (by rw [h3]; exact hd)

/-- C53 (part): `clear()` returns, with every child disposed and the composite usable again, if the
children do not touch the composite. Missing: re-entrant children, for which it is false
(`C53_clear_reentry_refutes`). -/
theorem C53_clear_returns_partial (c : Cfg) (t : Nat) (s : St) (hst : s.st = .none) (hidle : s.th t = [])
    (hc : ∀ d ∈ s.kids, c.child d = []) :
    ∃ k, let s' := exec c s (.call t .clear :: runs t k)
      s'.th t = [] ∧ s'.st = .none ∧ s'.kids = [] ∧ ∀ d ∈ s.kids, d ∈ s'.dead := by
  have h0 : exec c s [.call t .clear, .run t] = { s with st := .edit }.put t [.clrIter 0] := by
    simp [exec, step, hidle, Op.frame, runFrame, hst, St.put]
    funext u; by_cases h : u = t <;> simp [h]
  obtain ⟨k, h1, h2, h3, h4, _⟩ := clear_loop c t _ ({ s with st := .edit }.put t [.clrIter 0]) 0 []
    hc rfl (by simp) rfl (by simp)
  refine ⟨k + 1, ?_⟩
  have : exec c s (.call t .clear :: runs t (k + 1)) =
      exec c ({ s with st := .edit }.put t [.clrIter 0]) (runs t k) := by
    rw [← h0]; simp [exec, runs, List.replicate_succ]
  simp only [this]
  exact ⟨h1, h2, h3, by simpa using h4⟩

/-- C53: `dispose()` - unlike `clear()` - never waits for itself: once the composite is disposed every step
of every call, at any re-entrancy depth, makes progress. -/
theorem C53_disposed_never_spins (c : Cfg) (ls : List Lbl) (t : Nat)
    (hd : (exec c {} ls).st = .disposed) (hbusy : (exec c {} ls).th t ≠ []) :
    (step c (exec c {} ls) (.run t)).th t ≠ (exec c {} ls).th t := by
  obtain ⟨o, p, h⟩ := reachable_inv c ls
  generalize exec c {} ls = s at *
  cases hs : s.th t with
  | nil => exact absurd hs hbusy
  | cons f rest =>
    have hne : ∀ (f : Frame) (l : List Frame), l ≠ f :: l := by
      intro f l hl
      have := congrArg List.length hl
      simp at this
    have hne2 : ∀ (f g : Frame) (l : List Frame), f :: g :: l ≠ g :: l := by
      intro f g l hl
      have := congrArg List.length hl
      simp at this
    have hcrit := h.noCrit (by simp [hd]) t (g := f) (by rw [hs]; simp)
    simp only [step, hs]
    cases f with
    | addCheck d =>
      simp only [runFrame]
      split
      · simpa using hne _ _
      · split
        · simpa using hne _ _
        · simp
    | addCas d => simp [runFrame, hd]
    | remCas d => simp only [runFrame, hd]; simpa using hne _ _
    | clrCas => simp only [runFrame, hd]; simpa using hne _ _
    | dspCas => simp only [runFrame, hd]; simpa using hne _ _
    | addKill d =>
      simp only [runFrame, St.kill]
      split
      · simpa using hne _ _
      · simp
    | dspHook => simp [runFrame]
    | dspIter i =>
      simp only [runFrame]
      split
      · simp only [St.kill]; split <;> simp
      · simpa using hne _ _
    | script ops =>
      cases ops with
      | nil => simp only [runFrame]; simpa using hne _ _
      | cons o os =>
        simp only [runFrame, put_th_same]
        intro hl
        have := congrArg List.length hl
        simp at this
    | _ => simp [Frame.crit] at hcrit

example : let s := exec {} {} [.call 0 (.add 1), .run 0, .run 0, .run 0, .run 0]
    s.st = .none ∧ s.th 0 = [] ∧ s.kids = [1] := by decide

/-! ### Removed children are left alone -/

theorem Kept.snoc_other {hist d} (e : Ev) (he : e ≠ .removed d) (h : Kept hist d) : Kept (hist ++ [e]) d := by
  obtain ⟨pre, post, h1, h2⟩ := h
  refine ⟨pre, post ++ [e], by simp [h1], ?_⟩
  simp only [List.mem_append, List.mem_singleton, not_or]
  exact ⟨h2, fun h => he h.symm⟩

theorem Kept.snoc_self (hist d) : Kept (hist ++ [.added d]) d := ⟨hist, [], rfl, by simp⟩

/-- Whatever the composite may still dispose was added and not removed since. -/
structure Owned (s : St) : Prop where
  kids : ∀ d ∈ s.kids, Kept s.hist d
  late : ∀ t d, Frame.addKill d ∈ s.th t → s.st = .disposed ∧ Kept s.hist d

theorem Owned.step {c : Cfg} {s : St} {o p} (hi : Inv s o p) (h : Owned s) (l : Lbl) : Owned (step c s l) := by
  obtain ⟨hk, hl⟩ := h
  cases l with
  | call t op =>
    simp only [Composite.step]
    split
    · refine ⟨hk, fun u d hd => ?_⟩
      rw [put_th] at hd
      split at hd
      · cases op <;> simp [Op.frame] at hd
      · exact hl u d hd
    · exact ⟨hk, hl⟩
  | killChild d => exact ⟨hk, hl⟩
  | run t =>
    simp only [Composite.step]
    cases hs : s.th t with
    | nil => exact ⟨hk, hl⟩
    | cons f rest =>
      have hrest : ∀ d, Frame.addKill d ∈ rest → s.st = .disposed ∧ Kept s.hist d := fun d hd =>
        hl t d (by simp [hs, hd])
      have hcrit := fun hne => hi.noCrit hne t (g := f) (by simp [hs])
      have hkill : ∀ d new, (∀ x, Frame.addKill x ∈ new → s.st = .disposed ∧ Kept s.hist x) →
          Owned (s.kill c t d new) := by
        intro d new hn
        unfold St.kill
        split
        · refine ⟨hk, fun u x hx => ?_⟩
          rw [put_th] at hx
          split at hx
          · exact hn x hx
          · exact hl u x hx
        · refine ⟨hk, fun u x hx => ?_⟩
          rw [put_th] at hx
          split at hx
          · simp at hx; exact hn x hx
          · exact hl u x hx
      have hall : ∀ s' : St, s'.th = s.th → (∀ d ∈ s'.kids, Kept s'.hist d) →
          (s.st = .disposed → s'.st = .disposed) →
          (∀ d, s.st = .disposed → Kept s.hist d → Kept s'.hist d) →
          ∀ new, (∀ x, Frame.addKill x ∈ new → s'.st = .disposed ∧ Kept s'.hist x) → Owned (s'.put t new) := by
        intro s' hth hk' hst' hh new hn
        refine ⟨hk', fun u x hx => ?_⟩
        rw [put_th] at hx
        split at hx
        · exact hn x hx
        · rw [hth] at hx
          obtain ⟨h1, h2⟩ := hl u x hx
          exact ⟨hst' h1, hh x h1 h2⟩
      cases f <;> simp only [Composite.runFrame]
      all_goals try have hne : s.st = .edit := Classical.byContradiction fun h => by simpa [Frame.crit] using hcrit h
      case addCheck d =>
        split
        · exact hall s rfl hk id (fun _ _ h => h) _ hrest
        · split
          · exact hall { s with hist := s.hist ++ [Ev.added d] } rfl
              (fun x hx => (hk x hx).snoc_other _ (by simp)) id
              (fun x _ h => h.snoc_other _ (by simp)) _
              (fun x hx => ⟨(hrest x hx).1, (hrest x hx).2.snoc_other _ (by simp)⟩)
          · exact hall s rfl hk id (fun _ _ h => h) _ (fun x hx => hrest x (by simpa using hx))
      case addCas d =>
        split
        · rename_i hn
          exact hall { s with st := .edit } rfl hk (by simp [hn]) (fun _ _ h => h) _
            (fun x hx => by have := (hrest x (by simpa using hx)).1; simp [hn] at this)
        · exact ⟨hk, hl⟩
        · rename_i hn
          exact hall { s with hist := s.hist ++ [Ev.added d] } rfl
              (fun x hx => (hk x hx).snoc_other _ (by simp)) id
              (fun x _ h => h.snoc_other _ (by simp)) _
              (fun x hx => by
                rcases List.mem_cons.1 hx with hx | hx
                · cases hx; exact ⟨hn, Kept.snoc_self _ _⟩
                · exact ⟨hn, (hrest x hx).2.snoc_other _ (by simp)⟩)
      case addPush d =>
        split
        · exact hall s rfl hk id (fun _ _ h => h) _ (fun x hx => hrest x (by simpa using hx))
        · exact hall { s with kids := s.kids ++ [d], hist := s.hist ++ [Ev.added d] } rfl
            (fun x hx => by
              rcases List.mem_append.1 hx with hx | hx
              · exact (hk x hx).snoc_other _ (by simp)
              · simp at hx; subst hx; exact Kept.snoc_self _ _) id
            (fun x _ h => h.snoc_other _ (by simp)) _
            (fun x hx => by have := (hrest x (by simpa using hx)).1; simp [hne] at this)
      case addStore =>
        exact hall { s with st := .none } rfl hk (by simp [hne]) (fun _ _ h => h) _
            (fun x hx => by have := (hrest x hx).1; simp [hne] at this)
      case addFail =>
        exact hall { s with st := .none } rfl hk (by simp [hne]) (fun _ _ h => h) _
            (fun x hx => by have := (hrest x hx).1; simp [hne] at this)
      case addKill d => exact hkill d rest hrest
      case remCas d =>
        split
        · rename_i hn
          exact hall { s with st := .edit } rfl hk (by simp [hn]) (fun _ _ h => h) _
            (fun x hx => by have := (hrest x (by simpa using hx)).1; simp [hn] at this)
        · exact ⟨hk, hl⟩
        · exact hall s rfl hk id (fun _ _ h => h) _ hrest
      case remErase d =>
        exact hall { s with kids := s.kids.filter (fun x => x ≠ d), hist := s.hist ++ [Ev.removed d] } rfl
            (fun x hx => by
              simp at hx
              exact (hk x hx.1).snoc_other _ (by simp; exact fun h => hx.2 h.symm)) id
            (fun x h _ => by simp [hne] at h) _
            (fun x hx => by have := (hrest x (by simpa using hx)).1; simp [hne] at this)
      case remStore =>
        exact hall { s with st := .none } rfl hk (by simp [hne]) (fun _ _ h => h) _
            (fun x hx => by have := (hrest x hx).1; simp [hne] at this)
      case clrCas =>
        split
        · rename_i hn
          exact hall { s with st := .edit } rfl hk (by simp [hn]) (fun _ _ h => h) _
            (fun x hx => by have := (hrest x (by simpa using hx)).1; simp [hn] at this)
        · exact ⟨hk, hl⟩
        · exact hall s rfl hk id (fun _ _ h => h) _ hrest
      case clrIter i =>
        split
        · exact hkill _ _ (fun x hx => hrest x (by simpa using hx))
        · exact hall { s with kids := [] } rfl (by simp) id (fun _ _ h => h) _ (fun x hx => hrest x (by simpa using hx))
      case clrStore =>
        exact hall { s with st := .none } rfl hk (by simp [hne]) (fun _ _ h => h) _
            (fun x hx => by have := (hrest x hx).1; simp [hne] at this)
      case dspCas =>
        split
        · rename_i hn
          exact hall { s with st := .disposed } rfl hk (by simp) (fun _ _ h => h) _
            (fun x hx => by have := (hrest x (by simpa using hx)).1; simp [hn] at this)
        · exact ⟨hk, hl⟩
        · exact hall s rfl hk id (fun _ _ h => h) _ hrest
      case dspHook =>
        exact hall { s with hooks := s.hooks + 1 } rfl hk id (fun _ _ h => h) _
            (fun x hx => hrest x (by simpa using hx))
      case dspIter i =>
        split
        · exact hkill _ _ (fun x hx => hrest x (by simpa using hx))
        · exact hall { s with kids := [] } rfl (by simp) id (fun _ _ h => h) _ hrest
      case script ops =>
        cases ops with
        | nil => exact hall s rfl hk id (fun _ _ h => h) _ hrest
        | cons op ops =>
          exact hall s rfl hk id (fun _ _ h => h) _
            (fun x hx => hrest x (by cases op <;> simpa [Op.frame] using hx))

theorem Owned.exec {c : Cfg} (ls : List Lbl) : ∀ {s o p}, Inv s o p → Owned s → Owned (exec c s ls) := by
  induction ls with
  | nil => intro s o p _ h; exact h
  | cons l ls ih =>
    intro s o p hi h
    obtain ⟨o', p', hi'⟩ := hi.step c l
    exact ih hi' (h.step hi l)

/-- C50: a step of the composite (not somebody else disposing the child directly) disposes a child only if
the child was added and not removed since. -/
theorem C50_removed_spared (c : Cfg) (ls : List Lbl) (t d : Nat) (halive : d ∉ (exec c {} ls).dead)
    (hkilled : d ∈ (exec c {} (ls ++ [.run t])).dead) : Kept (exec c {} ls).hist d := by
  obtain ⟨o, p, hi⟩ := reachable_inv c ls
  have ho : Owned (exec c {} ls) := Owned.exec ls Inv.init ⟨by simp, by simp⟩
  rw [show exec c {} (ls ++ [.run t]) = step c (exec c {} ls) (.run t) by simp [Composite.exec]] at hkilled
  generalize exec c {} ls = s at *
  simp only [Composite.step] at hkilled
  cases hs : s.th t with
  | nil => simp [hs] at hkilled; exact absurd hkilled halive
  | cons f rest =>
    rw [hs] at hkilled
    have hkill : ∀ x new, d ∈ (s.kill c t x new).dead → d = x := by
      intro x new h
      unfold St.kill at h
      split at h
      · exact absurd h halive
      · simp only [St.put, List.mem_cons] at h; exact h.resolve_right halive
    cases f <;> simp only [Composite.runFrame] at hkilled
    case addKill x => cases hkill x _ hkilled; exact (ho.late t d (by simp [hs])).2
    case clrIter i =>
      split at hkilled
      · next x hx => cases hkill x _ hkilled; exact ho.kids d (List.mem_of_getElem? hx)
      · exact absurd hkilled halive
    case dspIter i =>
      split at hkilled
      · next x hx => cases hkill x _ hkilled; exact ho.kids d (List.mem_of_getElem? hx)
      · exact absurd hkilled halive
    case script ops => cases ops <;> exact absurd hkilled halive
    all_goals first
      | exact absurd hkilled halive
      | (split at hkilled <;> first
          | exact absurd hkilled halive
          | (split at hkilled <;> exact absurd hkilled halive))

/-- Non-vacuity: children 1 and 2 are added, 1 is removed, the composite is disposed: 2 is disposed, 1 is not. -/
example :
    let s := exec {} {} (.call 0 (.add 1) :: runs 0 4 ++ .call 0 (.add 2) :: runs 0 4 ++
      .call 0 (.remove 1) :: runs 0 3 ++ .call 0 .dispose :: runs 0 6)
    s.dead = [2] ∧ s.hist = [.added 1, .added 2, .removed 1] := by decide

end Rpp.Composite
