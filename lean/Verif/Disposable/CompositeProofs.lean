import Verif.Disposable.Composite

/-! # Invariants of the concurrent `composite_disposable` model -/

namespace Rpp.Composite

/-- Used in the proofs; models no code. -/
def critN (l : List Frame) : Nat := l.countP Frame.crit
/-- Used in the proofs; models no code. -/
def dspN (l : List Frame) : Nat := l.countP Frame.dsp

@[simp] theorem critN_cons (f l) : critN (f :: l) = critN l + (if f.crit then 1 else 0) := by
  simp [critN, List.countP_cons]
@[simp] theorem dspN_cons (f l) : dspN (f :: l) = dspN l + (if f.dsp then 1 else 0) := by
  simp [dspN, List.countP_cons]
@[simp] theorem critN_nil : critN [] = 0 := rfl
@[simp] theorem dspN_nil : dspN [] = 0 := rfl

theorem critN_pos {f : Frame} {l} (h : f ∈ l) (hf : f.crit = true) : 0 < critN l := by
  simp only [critN, List.countP_pos_iff]; exact ⟨f, h, hf⟩
theorem dspN_pos {f : Frame} {l} (h : f ∈ l) (hf : f.dsp = true) : 0 < dspN l := by
  simp only [dspN, List.countP_pos_iff]; exact ⟨f, h, hf⟩

theorem Op.frame_crit (o : Op) : o.frame.crit = false := by cases o <;> rfl
theorem Op.frame_dsp (o : Op) : o.frame.dsp = false := by cases o <;> rfl

/-- Invariant; `o` is the thread holding `Edit`, `p` the thread performing the disposal. -/
structure Inv (s : St) (o p : Option Nat) : Prop where
  edit : s.st = .edit ↔ o ≠ none
  crit : ∀ t, critN (s.th t) = if o = some t then 1 else 0
  disp : p ≠ none → s.st = .disposed
  dspc : ∀ t, dspN (s.th t) = if p = some t then 1 else 0
  empt : s.st = .disposed → p = none → s.kids = []
  iter : ∀ t i, (Frame.clrIter i ∈ s.th t ∨ Frame.dspIter i ∈ s.th t) →
    ∀ j d, j < i → s.kids[j]? = some d → d ∈ s.dead
  owed : ∀ d, Kept s.hist d → d ∈ s.dead ∨ d ∈ s.kids ∨ ∃ t, Frame.addKill d ∈ s.th t
  hk0 : s.st ≠ .disposed → s.hooks = 0
  hk1 : ∀ t, Frame.dspHook ∈ s.th t → s.hooks = 0
  hk2 : s.st = .disposed → (∃ t, Frame.dspHook ∈ s.th t) ∨ s.hooks = 1

theorem Inv.init : Inv {} none none where
  edit := by simp
  crit := by simp
  disp := by simp
  dspc := by simp
  empt := by simp
  iter := by simp
  owed := by rintro d ⟨pre, post, h, _⟩; simp at h
  hk0 := by simp
  hk1 := by simp
  hk2 := by simp

theorem Kept.snoc_added {hist d x} (h : Kept (hist ++ [.added x]) d) : d = x ∨ Kept hist d := by
  obtain ⟨pre, post, h1, h2⟩ := h
  rcases List.eq_nil_or_concat post with rfl | ⟨post', y, rfl⟩
  · have := List.append_inj_right' h1 rfl
    simp at this; exact Or.inl this.symm
  · rw [List.concat_eq_append] at *
    right
    refine ⟨pre, post', ?_, fun h => h2 (by simp [h])⟩
    rw [← List.cons_append, ← List.append_assoc] at h1
    exact List.append_inj_left' h1 rfl

theorem Kept.snoc_removed {hist d x} (h : Kept (hist ++ [.removed x]) d) : d ≠ x ∧ Kept hist d := by
  obtain ⟨pre, post, h1, h2⟩ := h
  rcases List.eq_nil_or_concat post with rfl | ⟨post', y, rfl⟩
  · have := List.append_inj_right' h1 rfl
    simp at this
  · rw [List.concat_eq_append] at *
    rw [← List.cons_append, ← List.append_assoc] at h1
    have h3 := List.append_inj_left' h1 rfl
    have h4 := List.append_inj_right' h1 rfl
    simp at h4
    subst h4
    refine ⟨?_, pre, post', h3, fun h => h2 (by simp [h])⟩
    rintro rfl
    exact h2 (by simp)

section
variable {s : St} {o p : Option Nat} {t : Nat} {f : Frame} {rest : List Frame}

@[simp] theorem put_th_same (stk) : (s.put t stk).th t = stk := by simp [St.put]
theorem put_th (stk u) : (s.put t stk).th u = if u = t then stk else s.th u := rfl
@[simp] theorem put_st (stk) : (s.put t stk).st = s.st := rfl
@[simp] theorem put_kids (stk) : (s.put t stk).kids = s.kids := rfl
@[simp] theorem put_dead (stk) : (s.put t stk).dead = s.dead := rfl
@[simp] theorem put_hooks (stk) : (s.put t stk).hooks = s.hooks := rfl
@[simp] theorem put_hist (stk) : (s.put t stk).hist = s.hist := rfl

/-- Owner of the lock when a critical frame is on top. -/
theorem Inv.owner (h : Inv s o p) (hs : s.th t = f :: rest) (hf : f.crit = true) :
    o = some t ∧ s.st = .edit ∧ critN rest = 0 := by
  have h1 := h.crit t
  rw [hs] at h1
  simp only [critN_cons, hf, if_true] at h1
  by_cases ho : o = some t
  · rw [if_pos ho] at h1
    exact ⟨ho, h.edit.2 (by simp [ho]), by omega⟩
  · rw [if_neg ho] at h1; omega

theorem Inv.disposer (h : Inv s o p) (hs : s.th t = f :: rest) (hf : f.dsp = true) :
    p = some t ∧ s.st = .disposed ∧ dspN rest = 0 := by
  have h1 := h.dspc t
  rw [hs] at h1
  simp only [dspN_cons, hf, if_true] at h1
  by_cases ho : p = some t
  · rw [if_pos ho] at h1
    exact ⟨ho, h.disp (by simp [ho]), by omega⟩
  · rw [if_neg ho] at h1; omega

theorem Inv.noCrit (h : Inv s o p) (hne : s.st ≠ .edit) (u : Nat) {g : Frame} (hg : g ∈ s.th u) :
    g.crit = false := by
  have ho : o = none := by
    cases o with
    | none => rfl
    | some x => exact absurd (h.edit.2 (by simp)) hne
  have := h.crit u
  rw [ho] at this
  cases hc : g.crit with
  | false => rfl
  | true => have := critN_pos hg hc; simp at *; omega

theorem Inv.noDsp (h : Inv s o p) (hne : s.st ≠ .disposed) (u : Nat) {g : Frame} (hg : g ∈ s.th u) :
    g.dsp = false := by
  have ho : p = none := by
    cases p with
    | none => rfl
    | some x => exact absurd (h.disp (by simp)) hne
  have := h.dspc u
  rw [ho] at this
  cases hc : g.dsp with
  | false => rfl
  | true => have := dspN_pos hg hc; simp at *; omega

/-- The workhorse: replace the top frame(s) of thread `t`, change nothing else but `hist`/`dead` growth. -/
theorem Inv.swap (h : Inv s o p) (stk new : List Frame) (s' : St)
    (hs : s.th t = stk)
    (hst : s'.st = s.st) (hkids : s'.kids = s.kids) (hhooks : s'.hooks = s.hooks)
    (hdead : ∀ d ∈ s.dead, d ∈ s'.dead)
    (hth : ∀ u, s'.th u = if u = t then new else s.th u)
    (hcrit : critN new = critN stk) (hdsp : dspN new = dspN stk)
    (hhk : (Frame.dspHook ∈ new) = (Frame.dspHook ∈ stk))
    (hit : ∀ i, (Frame.clrIter i ∈ new ∨ Frame.dspIter i ∈ new) →
      (Frame.clrIter i ∈ stk ∨ Frame.dspIter i ∈ stk) ∨ (∀ j d, j < i → s.kids[j]? = some d → d ∈ s'.dead))
    (how : ∀ d, Kept s'.hist d → d ∈ s'.dead ∨ Frame.addKill d ∈ new ∨
      (Kept s.hist d ∧ (Frame.addKill d ∈ stk → Frame.addKill d ∈ new))) :
    Inv s' o p where
  edit := by rw [hst]; exact h.edit
  crit u := by
    rw [hth]
    by_cases hu : u = t
    · rw [if_pos hu, hcrit, ← hs, hu]; exact h.crit t
    · rw [if_neg hu]; exact h.crit u
  disp := by rw [hst]; exact h.disp
  dspc u := by
    rw [hth]
    by_cases hu : u = t
    · rw [if_pos hu, hdsp, ← hs, hu]; exact h.dspc t
    · rw [if_neg hu]; exact h.dspc u
  empt := by rw [hst, hkids]; exact h.empt
  iter u i hi j d hj hd := by
    rw [hkids] at hd
    rw [hth] at hi
    by_cases hu : u = t
    · rw [if_pos hu] at hi
      rcases hit i hi with h1 | h1
      · exact hdead d (h.iter t i (hs ▸ h1) j d hj hd)
      · exact h1 j d hj hd
    · rw [if_neg hu] at hi
      exact hdead d (h.iter u i hi j d hj hd)
  owed d hk := by
    rcases how d hk with h1 | h1 | ⟨h1, h2⟩
    · exact Or.inl h1
    · exact Or.inr (Or.inr ⟨t, by rw [hth, if_pos rfl]; exact h1⟩)
    · rcases h.owed d h1 with h3 | h3 | ⟨u, h3⟩
      · exact Or.inl (hdead d h3)
      · exact Or.inr (Or.inl (hkids ▸ h3))
      · refine Or.inr (Or.inr ⟨u, ?_⟩)
        rw [hth]
        by_cases hu : u = t
        · rw [if_pos hu]; exact h2 (hs ▸ hu ▸ h3)
        · rw [if_neg hu]; exact h3
  hk0 := by rw [hst, hhooks]; exact h.hk0
  hk1 u hu := by
    rw [hhooks]
    rw [hth] at hu
    by_cases hut : u = t
    · rw [if_pos hut, hhk] at hu
      exact h.hk1 t (hs ▸ hu)
    · rw [if_neg hut] at hu; exact h.hk1 u hu
  hk2 := by
    rw [hst, hhooks]
    intro hd
    rcases h.hk2 hd with ⟨u, hu⟩ | h1
    · refine Or.inl ⟨u, ?_⟩
      rw [hth]
      by_cases hut : u = t
      · rw [if_pos hut, hhk]; exact hs ▸ hut ▸ hu
      · rw [if_neg hut]; exact hu
    · exact Or.inr h1

/-- Taking the lock. -/
theorem Inv.lock (h : Inv s o p) (hs : s.th t = f :: rest) (hn : s.st = .none) (g : Frame)
    (hf : f.crit = false) (hfd : f.dsp = false) (hfk : ∀ d, f ≠ .addKill d)
    (hg : g.crit = true) (hgi : ∀ i, g = .clrIter i → i = 0) :
    Inv ({ s with st := .edit }.put t (g :: rest)) (some t) p := by
  have ho : o = none := by
    cases o with
    | none => rfl
    | some x => have := h.edit.2 (by simp); rw [hn] at this; cases this
  have hp : p = none := by
    cases p with
    | none => rfl
    | some x => have := h.disp (by simp); rw [hn] at this; cases this
  have hgd : g.dsp = false := by cases g <;> simp_all [Frame.crit, Frame.dsp]
  have hgk : ∀ d, g ≠ .addKill d := by intro d hgk; rw [hgk] at hg; cases hg
  have hgh : g ≠ .dspHook := by intro hgk; rw [hgk] at hg; cases hg
  have hghi : ∀ i, g ≠ .dspIter i := by intro i hgk; rw [hgk] at hg; cases hg
  have hfh : f ≠ .dspHook := by rintro rfl; cases hfd
  have hth : ∀ u, ({ s with st := .edit }.put t (g :: rest)).th u = if u = t then g :: rest else s.th u :=
    fun u => rfl
  refine ⟨by simp, ?_, by simp [hp], ?_, by simp, ?_, ?_, ?_, ?_, by simp⟩
  · intro u
    have hc := h.crit u
    rw [ho] at hc
    rw [hth]
    by_cases hu : u = t
    · subst hu
      rw [hs] at hc
      simp [hf, hg] at hc ⊢; exact hc
    · have : ¬ t = u := fun h => hu h.symm
      simp [hu, this] at hc ⊢; exact hc
  · intro u
    have hc := h.dspc u
    rw [hp] at hc ⊢
    rw [hth]
    by_cases hu : u = t
    · subst hu
      rw [hs] at hc
      simp [hfd, hgd] at hc ⊢; exact hc
    · simp [hu] at hc ⊢; exact hc
  · intro u i hi j d hj hd
    rw [hth] at hi
    by_cases hu : u = t
    · rw [if_pos hu] at hi
      simp only [List.mem_cons] at hi
      rcases hi with (hi | hi) | (hi | hi)
      · have := hgi i hi.symm; omega
      · exact h.iter t i (by rw [hs]; simp [hi]) j d hj hd
      · exact absurd hi.symm (hghi i)
      · exact h.iter t i (by rw [hs]; simp [hi]) j d hj hd
    · rw [if_neg hu] at hi
      exact h.iter u i hi j d hj hd
  · intro d hk
    rcases h.owed d hk with h3 | h3 | ⟨u, h3⟩
    · exact Or.inl h3
    · exact Or.inr (Or.inl h3)
    · refine Or.inr (Or.inr ⟨u, ?_⟩)
      rw [hth]
      by_cases hu : u = t
      · rw [if_pos hu]
        rw [hu, hs] at h3
        rcases List.mem_cons.1 h3 with h4 | h4
        · exact absurd h4.symm (hfk d)
        · simp [h4]
      · rw [if_neg hu]; exact h3
  · intro _; exact h.hk0 (by simp [hn])
  · intro u hu
    exact h.hk0 (by simp [hn])

/-- Releasing the lock. -/
theorem Inv.unlock (h : Inv s o p) (hs : s.th t = f :: rest) (hf : f.crit = true)
    (hfk : ∀ d, f ≠ .addKill d) : Inv ({ s with st := .none }.put t rest) none p := by
  obtain ⟨ho, hst, hr⟩ := h.owner hs hf
  have hp : p = none := by
    cases p with
    | none => rfl
    | some x => have := h.disp (by simp); rw [hst] at this; cases this
  have hfd : f.dsp = false := h.noDsp (by simp [hst]) t (by rw [hs]; simp)
  have hth : ∀ u, ({ s with st := .none }.put t rest).th u = if u = t then rest else s.th u :=
    fun u => rfl
  refine ⟨by simp, ?_, by simp [hp], ?_, by simp, ?_, ?_, ?_, ?_, by simp⟩
  · intro u
    have hc := h.crit u
    rw [ho] at hc
    rw [hth]
    by_cases hu : u = t
    · simp [hu, hr]
    · have : ¬ t = u := fun h => hu h.symm
      simp [hu, this] at hc ⊢; exact hc
  · intro u
    have hc := h.dspc u
    rw [hp] at hc ⊢
    rw [hth]
    by_cases hu : u = t
    · subst hu
      rw [hs] at hc
      simp [hfd] at hc ⊢; exact hc
    · simp [hu] at hc ⊢; exact hc
  · intro u i hi j d hj hd
    rw [hth] at hi
    by_cases hu : u = t
    · rw [if_pos hu] at hi
      refine h.iter t i ?_ j d hj hd
      rw [hs]
      rcases hi with hi | hi <;> simp [hi]
    · rw [if_neg hu] at hi
      exact h.iter u i hi j d hj hd
  · intro d hk
    rcases h.owed d hk with h3 | h3 | ⟨u, h3⟩
    · exact Or.inl h3
    · exact Or.inr (Or.inl h3)
    · refine Or.inr (Or.inr ⟨u, ?_⟩)
      rw [hth]
      by_cases hu : u = t
      · rw [if_pos hu]
        rw [hu, hs] at h3
        rcases List.mem_cons.1 h3 with h4 | h4
        · exact absurd h4.symm (hfk d)
        · exact h4
      · rw [if_neg hu]; exact h3
  · intro _; exact h.hk0 (by simp [hst])
  · intro u hu
    exact h.hk0 (by simp [hst])

/-- Disposing a child from thread `t`, leaving `new` on the stack. -/
theorem Inv.kill (c : Cfg) (h : Inv s o p) (d : Nat) (hs : s.th t = f :: rest) (new : List Frame)
    (hcrit : critN new = critN (f :: rest)) (hdsp : dspN new = dspN (f :: rest))
    (hhk : (Frame.dspHook ∈ new) = (Frame.dspHook ∈ f :: rest))
    (hit : ∀ i, (Frame.clrIter i ∈ new ∨ Frame.dspIter i ∈ new) →
      (Frame.clrIter i ∈ f :: rest ∨ Frame.dspIter i ∈ f :: rest) ∨
      (∀ j x, j < i → s.kids[j]? = some x → x ∈ s.dead ∨ x = d))
    (how : ∀ x, Frame.addKill x ∈ f :: rest → x = d ∨ Frame.addKill x ∈ new) :
    Inv (s.kill c t d new) o p := by
  unfold St.kill
  split
  · rename_i hmem
    refine h.swap (f :: rest) new _ hs rfl rfl rfl (fun _ h => h) (fun _ => rfl) hcrit hdsp hhk ?_ ?_
    · intro i hi
      rcases hit i hi with h1 | h1
      · exact Or.inl h1
      · right
        intro j x hj hx
        rcases h1 j x hj hx with h2 | rfl
        · exact h2
        · exact hmem
    · intro x hx
      by_cases hxd : x = d
      · left; exact hxd ▸ hmem
      · refine Or.inr (Or.inr ⟨hx, fun hk => ?_⟩)
        rcases how x hk with h1 | h1
        · exact absurd h1 hxd
        · exact h1
  · refine h.swap (f :: rest) (.script (c.child d) :: new) _ hs rfl rfl rfl
      (fun _ h => by simp [h]) (fun _ => rfl) (by simpa [Frame.crit] using hcrit)
      (by simpa [Frame.dsp] using hdsp) (by simpa using hhk) ?_ ?_
    · intro i hi
      have hi' : Frame.clrIter i ∈ new ∨ Frame.dspIter i ∈ new := by simpa using hi
      rcases hit i hi' with h1 | h1
      · exact Or.inl h1
      · right
        intro j x hj hx
        rcases h1 j x hj hx with h2 | rfl
        · simp [h2]
        · simp
    · intro x hx
      by_cases hxd : x = d
      · left; simp [hxd]
      · refine Or.inr (Or.inr ⟨hx, fun hk => ?_⟩)
        rcases how x hk with h1 | h1
        · exact absurd h1 hxd
        · simp [h1]

/-- Changing the container while holding the lock. -/
theorem Inv.edit_kids (h : Inv s o p) (hs : s.th t = f :: rest) (g : Frame) (kids : List Nat)
    (hist : List Ev) (hf : f.crit = true) (hfk : ∀ d, f ≠ .addKill d) (hg : g.crit = true)
    (hgi : ∀ i, g ≠ .clrIter i)
    (how : ∀ d, Kept hist d → d ∈ s.dead ∨ d ∈ kids ∨ (Kept s.hist d ∧ (d ∈ s.kids → d ∈ kids ∨ d ∈ s.dead))) :
    Inv ({ s with kids := kids, hist := hist }.put t (g :: rest)) o p := by
  obtain ⟨ho, hst, hr⟩ := h.owner hs hf
  have hp : p = none := by
    cases p with
    | none => rfl
    | some x => have := h.disp (by simp); rw [hst] at this; cases this
  have hth : ∀ u, ({ s with kids := kids, hist := hist }.put t (g :: rest)).th u =
      if u = t then g :: rest else s.th u := fun u => rfl
  have hfd : f.dsp = false := h.noDsp (by simp [hst]) t (by rw [hs]; simp)
  have hgd : g.dsp = false := by cases g <;> simp_all [Frame.crit, Frame.dsp]
  -- nobody is iterating
  have hno : ∀ u i, Frame.clrIter i ∈ (if u = t then g :: rest else s.th u) ∨
      Frame.dspIter i ∈ (if u = t then g :: rest else s.th u) → False := by
    intro u i hi
    by_cases hu : u = t
    · rw [if_pos hu] at hi
      simp only [List.mem_cons] at hi
      rcases hi with (hi | hi) | (hi | hi)
      · exact hgi i hi.symm
      · have := critN_pos hi rfl; omega
      · rw [← hi] at hgd; cases hgd
      · have := h.noDsp (by simp [hst]) t (g := .dspIter i) (by rw [hs]; simp [hi])
        cases this
    · rw [if_neg hu] at hi
      rcases hi with hi | hi
      · have h1 := critN_pos hi rfl
        have h2 := h.crit u
        rw [ho, if_neg (by simpa using fun h => hu h.symm)] at h2
        omega
      · have := h.noDsp (by simp [hst]) u hi
        cases this
  refine ⟨by simpa using h.edit, ?_, by simp [hp], ?_, by simp [hst], ?_, ?_, ?_, ?_, ?_⟩
  · intro u
    have hc := h.crit u
    rw [hth]
    by_cases hu : u = t
    · subst hu
      rw [hs] at hc
      simp [hf, hg] at hc ⊢; exact hc
    · simp only [hu, if_false]; exact hc
  · intro u
    have hc := h.dspc u
    rw [hth]
    by_cases hu : u = t
    · subst hu
      rw [hs] at hc
      simp [hfd, hgd] at hc ⊢; exact hc
    · simp only [hu, if_false]; exact hc
  · intro u i hi
    rw [hth] at hi
    exact (hno u i hi).elim
  · intro d hk
    have key : (∃ u, Frame.addKill d ∈ s.th u) → ∃ u, Frame.addKill d ∈
        ({ s with kids := kids, hist := hist }.put t (g :: rest)).th u := by
      rintro ⟨u, h3⟩
      refine ⟨u, ?_⟩
      rw [hth]
      by_cases hu : u = t
      · rw [if_pos hu]
        rw [hu, hs] at h3
        rcases List.mem_cons.1 h3 with h4 | h4
        · exact absurd h4.symm (hfk d)
        · simp [h4]
      · rw [if_neg hu]; exact h3
    rcases how d hk with h1 | h1 | ⟨h1, h2⟩
    · exact Or.inl h1
    · exact Or.inr (Or.inl h1)
    · rcases h.owed d h1 with h3 | h3 | h3
      · exact Or.inl h3
      · rcases h2 h3 with h4 | h4
        · exact Or.inr (Or.inl h4)
        · exact Or.inl h4
      · exact Or.inr (Or.inr (key h3))
  · intro hd; exact h.hk0 hd
  · intro u hu; exact h.hk0 (by simp [hst])
  · intro hd; exact absurd hd (by simp [hst])

theorem iter_next (h : Inv s o p) {i d : Nat} (hd : s.kids[i]? = some d)
    (hi : Frame.clrIter i ∈ s.th t ∨ Frame.dspIter i ∈ s.th t) :
    ∀ j x, j < i + 1 → s.kids[j]? = some x → x ∈ s.dead ∨ x = d := by
  intro j x hj hx
  by_cases hji : j = i
  · subst hji; rw [hd] at hx; cases hx; exact Or.inr rfl
  · exact Or.inl (h.iter t i hi j x (by omega) hx)

theorem all_dead (h : Inv s o p) {i : Nat} (hn : s.kids[i]? = none)
    (hi : Frame.clrIter i ∈ s.th t ∨ Frame.dspIter i ∈ s.th t) : ∀ d ∈ s.kids, d ∈ s.dead := by
  intro d hd
  obtain ⟨j, hj, rfl⟩ := List.mem_iff_getElem.1 hd
  have : j < i := by
    have := List.getElem?_eq_none_iff.1 hn
    omega
  exact h.iter t i hi j _ this (List.getElem?_eq_getElem hj)

theorem Inv.runFrame (c : Cfg) (h : Inv s o p) (hs : s.th t = f :: rest) :
    ∃ o' p', Inv (runFrame c s t f rest) o' p' := by
  cases f with
  | addCheck d =>
    simp only [Composite.runFrame]
    split
    · refine ⟨o, p, h.swap _ rest _ hs rfl rfl rfl (fun _ h => h) (fun _ => rfl) ?_ ?_ ?_ ?_ ?_⟩ <;>
        simp [Frame.crit, Frame.dsp]
      · intro i hi; exact Or.inl hi
      · intro x hx; exact Or.inr (Or.inr hx)
    · split
      · rename_i hd
        refine ⟨o, p, h.swap _ rest _ hs rfl rfl rfl (fun _ h => h) (fun _ => rfl) ?_ ?_ ?_ ?_ ?_⟩ <;>
          simp [Frame.crit, Frame.dsp]
        · intro i hi; exact Or.inl hi
        · intro x hx
          rcases hx.snoc_added with rfl | hx
          · exact Or.inl hd
          · exact Or.inr (Or.inr hx)
      · refine ⟨o, p, h.swap _ (.addCas d :: rest) _ hs rfl rfl rfl (fun _ h => h) (fun _ => rfl)
          ?_ ?_ ?_ ?_ ?_⟩ <;> simp [Frame.crit, Frame.dsp]
        · intro i hi; exact Or.inl hi
        · intro x hx; exact Or.inr (Or.inr hx)
  | addCas d =>
    simp only [Composite.runFrame]
    split
    · rename_i hn
      exact ⟨_, _, h.lock hs hn (.addPush d) rfl rfl (by simp) rfl (by simp)⟩
    · exact ⟨o, p, h⟩
    · refine ⟨o, p, h.swap _ (.addKill d :: rest) _ hs rfl rfl rfl (fun _ h => h) (fun _ => rfl)
        ?_ ?_ ?_ ?_ ?_⟩ <;> simp [Frame.crit, Frame.dsp]
      · intro i hi; exact Or.inl hi
      · intro x hx
        rcases hx.snoc_added with rfl | hx
        · exact Or.inr (Or.inl (Or.inl rfl))
        · exact Or.inr (Or.inr ⟨hx, fun h => Or.inr h⟩)
  | addPush d =>
    simp only [Composite.runFrame]
    split
    · refine ⟨o, p, h.swap _ (.addFail :: rest) _ hs rfl rfl rfl (fun _ h => h) (fun _ => rfl)
        ?_ ?_ ?_ ?_ ?_⟩ <;> simp [Frame.crit, Frame.dsp]
      · intro i hi; exact Or.inl hi
      · intro x hx; exact Or.inr (Or.inr hx)
    · refine ⟨o, p, h.edit_kids hs .addStore _ _ rfl (by simp) rfl (by simp) ?_⟩
      intro x hx
      rcases hx.snoc_added with rfl | hx
      · simp
      · exact Or.inr (Or.inr ⟨hx, fun h => by simp [h]⟩)
  | addStore => exact ⟨_, _, h.unlock hs rfl (by simp)⟩
  | addFail => exact ⟨_, _, h.unlock hs rfl (by simp)⟩
  | addKill d =>
    refine ⟨o, p, h.kill c d hs rest ?_ ?_ ?_ ?_ ?_⟩ <;> simp [Frame.crit, Frame.dsp]
    · intro i hi; exact Or.inl hi
  | remCas d =>
    simp only [Composite.runFrame]
    split
    · rename_i hn
      exact ⟨_, _, h.lock hs hn (.remErase d) rfl rfl (by simp) rfl (by simp)⟩
    · exact ⟨o, p, h⟩
    · refine ⟨o, p, h.swap _ rest _ hs rfl rfl rfl (fun _ h => h) (fun _ => rfl) ?_ ?_ ?_ ?_ ?_⟩ <;>
        simp [Frame.crit, Frame.dsp]
      · intro i hi; exact Or.inl hi
      · intro x hx; exact Or.inr (Or.inr hx)
  | remErase d =>
    simp only [Composite.runFrame]
    refine ⟨o, p, h.edit_kids hs .remStore _ _ rfl (by simp) rfl (by simp) ?_⟩
    intro x hx
    obtain ⟨hne, hx⟩ := hx.snoc_removed
    exact Or.inr (Or.inr ⟨hx, fun h => by simp [h, hne]⟩)
  | remStore => exact ⟨_, _, h.unlock hs rfl (by simp)⟩
  | clrCas =>
    simp only [Composite.runFrame]
    split
    · rename_i hn
      exact ⟨_, _, h.lock hs hn (.clrIter 0) rfl rfl (by simp) rfl (by simp)⟩
    · exact ⟨o, p, h⟩
    · refine ⟨o, p, h.swap _ rest _ hs rfl rfl rfl (fun _ h => h) (fun _ => rfl) ?_ ?_ ?_ ?_ ?_⟩ <;>
        simp [Frame.crit, Frame.dsp]
      · intro i hi; exact Or.inl hi
      · intro x hx; exact Or.inr (Or.inr hx)
  | clrIter i =>
    simp only [Composite.runFrame]
    split
    · rename_i d hd
      refine ⟨o, p, h.kill c d hs (.clrIter (i + 1) :: rest) ?_ ?_ ?_ ?_ ?_⟩
      · simp [Frame.crit]
      · simp [Frame.dsp]
      · simp
      · intro k hk
        simp only [List.mem_cons, Frame.clrIter.injEq] at hk
        rcases hk with (rfl | hk) | hk
        · exact Or.inr (iter_next h hd (Or.inl (by rw [hs]; simp)))
        · exact Or.inl (Or.inl (by simp [hk]))
        · exact Or.inl (Or.inr (by simpa using hk))
      · intro x hx; right; simpa using hx
    · rename_i hn
      have hall := all_dead h hn (Or.inl (by rw [hs]; simp : Frame.clrIter i ∈ s.th t))
      refine ⟨o, p, h.edit_kids hs .clrStore [] s.hist rfl (by simp) rfl (by simp) ?_⟩
      intro x hx
      exact Or.inr (Or.inr ⟨hx, fun h => Or.inr (hall x h)⟩)
  | clrStore => exact ⟨_, _, h.unlock hs rfl (by simp)⟩
  | dspCas =>
    simp only [Composite.runFrame]
    split
    · rename_i hn
      have ho : o = none := by
        cases o with
        | none => rfl
        | some x => have := h.edit.2 (by simp); rw [hn] at this; cases this
      have hp : p = none := by
        cases p with
        | none => rfl
        | some x => have := h.disp (by simp); rw [hn] at this; cases this
      subst ho hp
      have hth : ∀ u, ({ s with st := .disposed }.put t (.dspHook :: rest)).th u =
          if u = t then .dspHook :: rest else s.th u := fun u => rfl
      refine ⟨none, some t, by simp, ?_, by simp, ?_, by simp, ?_, ?_, ?_, ?_, ?_⟩
      · intro u
        have hc := h.crit u
        rw [hth]
        by_cases hu : u = t
        · subst hu; rw [hs] at hc; simp [Frame.crit] at hc ⊢; exact hc
        · simp only [hu, if_false]; exact hc
      · intro u
        have hc := h.dspc u
        rw [hth]
        by_cases hu : u = t
        · subst hu; rw [hs] at hc; simp [Frame.dsp] at hc ⊢; exact hc
        · have : ¬ t = u := fun h => hu h.symm
          simp [hu, this] at hc ⊢; exact hc
      · intro u i hi j d hj hd
        rw [hth] at hi
        by_cases hu : u = t
        · rw [if_pos hu] at hi
          refine h.iter t i ?_ j d hj hd
          rw [hs]
          simpa using hi
        · rw [if_neg hu] at hi
          exact h.iter u i hi j d hj hd
      · intro d hk
        rcases h.owed d hk with h3 | h3 | ⟨u, h3⟩
        · exact Or.inl h3
        · exact Or.inr (Or.inl h3)
        · refine Or.inr (Or.inr ⟨u, ?_⟩)
          rw [hth]
          by_cases hu : u = t
          · rw [if_pos hu]; rw [hu, hs] at h3; simpa using h3
          · rw [if_neg hu]; exact h3
      · intro hd; exact absurd rfl hd
      · intro u hu; exact h.hk0 (by simp [hn])
      · intro _; exact Or.inl ⟨t, by rw [hth]; simp⟩
    · exact ⟨o, p, h⟩
    · refine ⟨o, p, h.swap _ rest _ hs rfl rfl rfl (fun _ h => h) (fun _ => rfl) ?_ ?_ ?_ ?_ ?_⟩ <;>
        simp [Frame.crit, Frame.dsp]
      · intro i hi; exact Or.inl hi
      · intro x hx; exact Or.inr (Or.inr hx)
  | dspHook =>
    obtain ⟨hp, hst, hr⟩ := h.disposer hs rfl
    have hk := h.hk1 t (by rw [hs]; simp)
    simp only [Composite.runFrame]
    have hth : ∀ u, ({ s with hooks := s.hooks + 1 }.put t (.script c.hook :: .dspIter 0 :: rest)).th u =
          if u = t then .script c.hook :: .dspIter 0 :: rest else s.th u := fun u => rfl
    refine ⟨o, p, by simpa using h.edit, ?_, by simpa using h.disp, ?_, by simp [hp], ?_, ?_, ?_, ?_, ?_⟩
    · intro u
      have hc := h.crit u
      rw [hth]
      by_cases hu : u = t
      · subst hu; rw [hs] at hc; simp [Frame.crit] at hc ⊢; exact hc
      · simp only [hu, if_false]; exact hc
    · intro u
      have hc := h.dspc u
      rw [hth]
      by_cases hu : u = t
      · subst hu; rw [hs] at hc; simp [Frame.dsp] at hc ⊢; exact hc
      · simp only [hu, if_false]; exact hc
    · intro u i hi j d hj hd
      rw [hth] at hi
      by_cases hu : u = t
      · rw [if_pos hu] at hi
        simp only [List.mem_cons, Frame.dspIter.injEq, reduceCtorEq, false_or] at hi
        rcases hi with hi | rfl | hi
        · exact h.iter t i (by rw [hs]; simp [hi]) j d hj hd
        · omega
        · exact h.iter t i (by rw [hs]; simp [hi]) j d hj hd
      · rw [if_neg hu] at hi
        exact h.iter u i hi j d hj hd
    · intro d hk
      rcases h.owed d hk with h3 | h3 | ⟨u, h3⟩
      · exact Or.inl h3
      · exact Or.inr (Or.inl h3)
      · refine Or.inr (Or.inr ⟨u, ?_⟩)
        rw [hth]
        by_cases hu : u = t
        · rw [if_pos hu]; rw [hu, hs] at h3; simpa using h3
        · rw [if_neg hu]; exact h3
    · intro hd; exact absurd hst hd
    · intro u hu
      rw [hth] at hu
      exfalso
      by_cases hut : u = t
      · rw [if_pos hut] at hu
        simp only [List.mem_cons, reduceCtorEq, false_or] at hu
        have := dspN_pos hu rfl
        omega
      · rw [if_neg hut] at hu
        have h1 := dspN_pos hu rfl
        have h2 := h.dspc u
        rw [hp, if_neg (by simpa using fun h => hut h.symm)] at h2
        omega
    · intro _; right; show s.hooks + 1 = 1; omega
  | dspIter i =>
    simp only [Composite.runFrame]
    split
    · rename_i d hd
      refine ⟨o, p, h.kill c d hs (.dspIter (i + 1) :: rest) ?_ ?_ ?_ ?_ ?_⟩
      · simp [Frame.crit]
      · simp [Frame.dsp]
      · simp
      · intro k hk
        simp only [List.mem_cons, Frame.dspIter.injEq] at hk
        rcases hk with hk | (rfl | hk)
        · exact Or.inl (Or.inl (by simpa using hk))
        · exact Or.inr (iter_next h hd (Or.inr (by rw [hs]; simp)))
        · exact Or.inl (Or.inr (by simp [hk]))
      · intro x hx; right; simpa using hx
    · rename_i hn
      have hall := all_dead h hn (Or.inr (by rw [hs]; simp : Frame.dspIter i ∈ s.th t))
      obtain ⟨hp, hst, hr⟩ := h.disposer hs rfl
      have hth : ∀ u, ({ s with kids := [] }.put t rest).th u = if u = t then rest else s.th u := fun u => rfl
      refine ⟨o, none, by simpa using h.edit, ?_, by simp, ?_, by simp, ?_, ?_, ?_, ?_, ?_⟩
      · intro u
        have hc := h.crit u
        rw [hth]
        by_cases hu : u = t
        · subst hu; rw [hs] at hc; simp [Frame.crit] at hc ⊢; exact hc
        · simp only [hu, if_false]; exact hc
      · intro u
        have hc := h.dspc u
        rw [hth]
        by_cases hu : u = t
        · subst hu; simp [hr]
        · have : ¬ t = u := fun h => hu h.symm
          rw [hp] at hc
          simp [hu, this] at hc ⊢; exact hc
      · intro u i hi j d hj hd; simp at hd
      · intro d hk
        rcases h.owed d hk with h3 | h3 | ⟨u, h3⟩
        · exact Or.inl h3
        · exact Or.inl (hall d h3)
        · refine Or.inr (Or.inr ⟨u, ?_⟩)
          rw [hth]
          by_cases hu : u = t
          · rw [if_pos hu]; rw [hu, hs] at h3; simpa using h3
          · rw [if_neg hu]; exact h3
      · intro hd; exact absurd hst hd
      · intro u hu
        rw [hth] at hu
        by_cases hut : u = t
        · rw [if_pos hut] at hu; exact h.hk1 t (by rw [hs]; simp [hu])
        · rw [if_neg hut] at hu; exact h.hk1 u hu
      · intro _
        rcases h.hk2 hst with ⟨u, hu⟩ | h1
        · left
          refine ⟨u, ?_⟩
          rw [hth]
          by_cases hut : u = t
          · rw [if_pos hut]; rw [hut, hs] at hu; simpa using hu
          · rw [if_neg hut]; exact hu
        · exact Or.inr h1
  | script ops =>
    cases ops with
    | nil =>
      refine ⟨o, p, h.swap _ rest _ hs rfl rfl rfl (fun _ h => h) (fun _ => rfl) ?_ ?_ ?_ ?_ ?_⟩ <;>
        simp [Frame.crit, Frame.dsp]
      · intro i hi; exact Or.inl hi
      · intro x hx; exact Or.inr (Or.inr hx)
    | cons q qs =>
      have hq : ∀ g, q.frame = g → g.crit = false ∧ g.dsp = false := by
        rintro g rfl; exact ⟨q.frame_crit, q.frame_dsp⟩
      refine ⟨o, p, h.swap _ (q.frame :: .script qs :: rest) _ hs rfl rfl rfl (fun _ h => h)
        (fun _ => rfl) ?_ ?_ ?_ ?_ ?_⟩
      · cases q <;> simp [Frame.crit, Op.frame]
      · cases q <;> simp [Frame.dsp, Op.frame]
      · cases q <;> simp [Op.frame]
      · intro i hi; left; cases q <;> simpa [Op.frame] using hi
      · intro x hx
        refine Or.inr (Or.inr ⟨hx, fun hk => ?_⟩)
        have : Frame.addKill x ∈ rest := by simpa using hk
        simp [this]

theorem Inv.step (c : Cfg) (h : Inv s o p) (l : Lbl) : ∃ o' p', Inv (step c s l) o' p' := by
  cases l with
  | call t q =>
    simp only [Composite.step]
    split
    · rename_i hs
      refine ⟨o, p, h.swap _ [q.frame] _ hs rfl rfl rfl (fun _ h => h) (fun _ => rfl) ?_ ?_ ?_ ?_ ?_⟩
      · simp [q.frame_crit]
      · simp [q.frame_dsp]
      · cases q <;> simp [Op.frame]
      · intro i hi; cases q <;> simp [Op.frame] at hi
      · intro x hx; exact Or.inr (Or.inr ⟨hx, by simp⟩)
    · exact ⟨o, p, h⟩
  | run t =>
    simp only [Composite.step]
    split
    · exact ⟨o, p, h⟩
    · rename_i f rest hs
      exact h.runFrame c hs
  | killChild d =>
    refine ⟨o, p, h.swap (t := 0) (s.th 0) (s.th 0) _ rfl rfl rfl rfl ?_ ?_ rfl rfl rfl ?_ ?_⟩
    · intro x hx; show x ∈ d :: s.dead; simp [hx]
    · intro u; by_cases hu : u = 0
      · rw [if_pos hu, hu]; rfl
      · rw [if_neg hu]; rfl
    · intro i hi; exact Or.inl hi
    · intro x hx; exact Or.inr (Or.inr ⟨hx, fun h => h⟩)

end

theorem Inv.exec (c : Cfg) (ls : List Lbl) : ∀ {s o p}, Inv s o p → ∃ o' p', Inv (exec c s ls) o' p' := by
  induction ls with
  | nil => intro s o p h; exact ⟨o, p, h⟩
  | cons l ls ih =>
    intro s o p h
    obtain ⟨o', p', h'⟩ := h.step c l
    exact ih h'

end Rpp.Composite
