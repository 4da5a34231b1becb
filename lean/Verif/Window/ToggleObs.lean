import Verif.Window.ToggleFed

/-!
# `window_toggle`: the observers of the windows
-/

namespace Rpp.Win.Toggle
variable {α ε : Type}
open Rpp.Win (Item)

theorem feds_append (w : Nat) (l m : List (Ev α ε)) : feds w (l ++ m) = feds w l ++ feds w m := by
  induction l with
  | nil => rfl
  | cons e l ih => cases e <;> simp [feds, ih]; grind

theorem gots_append (w : Nat) (l m : List (Ev α ε)) : gots w (l ++ m) = gots w l ++ gots w m := by
  induction l with
  | nil => rfl
  | cons e l ih => cases e <;> simp [gots, ih]; grind

theorem due_in (w : Nat) (l m : List (Ev α ε)) (h : .sub w ∈ l) : due w (l ++ m) = due w l ++ feds w m := by
  induction l with
  | nil => simp at h
  | cons e l ih =>
    cases e
    case sub v =>
      simp only [List.cons_append, due]
      by_cases hv : v = w
      · simp [hv, feds_append]
      · rw [if_neg hv, if_neg hv]
        refine ih ?_
        rcases List.mem_cons.mp h with h | h
        · cases h; exact absurd rfl hv
        · exact h
    all_goals
      simp only [List.mem_cons, reduceCtorEq, false_or] at h
      exact ih h

theorem due_out (w : Nat) (l m : List (Ev α ε)) (h : .sub w ∉ l) : due w (l ++ m) = due w m := by
  induction l with
  | nil => rfl
  | cons e l ih =>
    have h' : .sub w ∉ l := fun q => h (List.mem_cons_of_mem _ q)
    cases e
    case sub v =>
      have hv : ¬ v = w := by rintro rfl; simp at h
      simp only [List.cons_append, due, if_neg hv]
      exact ih h'
    all_goals exact ih h'

theorem due_none (w : Nat) (l : List (Ev α ε)) (h : .sub w ∉ l) : due w l = [] := by
  have := due_out w l [] h
  simpa [due] using this

theorem feds_contEv (w v : Nat) (k) : feds w (contEv v k : List (Ev α ε)) = [] := by cases k <;> rfl
theorem gots_contEv (w v : Nat) (k) : gots w (contEv v k : List (Ev α ε)) = [] := by cases k <;> rfl
theorem due_contEv (w v : Nat) (k) : due w (contEv v k : List (Ev α ε)) = [] := by cases k <;> rfl
theorem sub_contEv (w v : Nat) (k) : (Ev.sub w : Ev α ε) ∈ (contEv v k : List (Ev α ε)) ↔ False := by cases k <;> simp [contEv]
theorem unsub_contEv (w v : Nat) (k) : (Ev.unsub w : Ev α ε) ∈ (contEv v k : List (Ev α ε)) ↔ False := by cases k <;> simp [contEv]

/-- A prefix. -/
structure Pfx {β : Type} (a b : List β) : Prop where
  p : a <+: b

theorem Pfx.rfl' {β : Type} (a : List β) : Pfx a a := ⟨List.prefix_rfl⟩
theorem Pfx.ext {β : Type} {a b : List β} (c) (h : Pfx a b) : Pfx a (b ++ c) := ⟨h.p.trans (List.prefix_append _ _)⟩
theorem Pfx.cut {β : Type} {a b c : List β} (h : Pfx (a ++ c) b) : Pfx a b := ⟨(List.prefix_append _ _).trans h.p⟩

/-- What a call has on its way to the observer of window `w`, of the sort `p`. -/
def Pc.fl (p : Item α ε → Bool) (w : Nat) : Pc α ε → Option (Item α ε)
  | .deliv x v _ .chk => if v = w ∧ p x = true then some x else none
  | .deliv x v _ .go => if v = w ∧ p x = true then some x else none
  | _ => none

/-- Used in the proofs; models no code. -/
def Pc.flgo (p : Item α ε → Bool) (w : Nat) : Pc α ε → Option (Item α ε)
  | .deliv x v _ .go => if v = w ∧ p x = true then some x else none
  | _ => none

theorem fl_cont (p) (w : Nat) (x : Item α ε) (v k) : (cont x v k).fl p w = none := by cases k <;> rfl
theorem flgo_cont (p) (w : Nat) (x : Item α ε) (v k) : (cont x v k).flgo p w = none := by cases k <;> rfl

/-- Only one call at a time has something of the sort `p` on its way to window `w`. -/
def One (p : Item α ε → Bool) (w : Nat) (s : St α ε) : Prop :=
  ∀ a b x y, (s.pc a).fl p w = some x → (s.pc b).fl p w = some y → a = b

/-- The observer of window `w`, for the notifications of the sort `p`. -/
structure InvD (p : Item α ε → Bool) (w : Nat) (s : St α ε) : Prop where
  ds : .sub w ∈ s.log ↔ s.seen w = true
  d0 : s.seen w = false → gots w s.log = [] ∧ due w s.log = [] ∧ w ∉ s.refs
  df : s.seen w = false → ∀ a, (s.pc a).fl (fun _ => true) w = none
  d1 : w ∈ s.refs → ∀ a x, (s.pc a).fl p w = some x → (due w s.log).filter p = (gots w s.log).filter p ++ [x]
  d2 : w ∈ s.refs → (∀ a, (s.pc a).fl p w = none) → (due w s.log).filter p = (gots w s.log).filter p
  d3 : ∀ a x, (s.pc a).flgo p w = some x → Pfx ((gots w s.log).filter p ++ [x]) ((due w s.log).filter p)
  d4 : Pfx ((gots w s.log).filter p) ((due w s.log).filter p)

/-- Nothing changes for window `w`. -/
theorem InvD.same {p : Item α ε → Bool} {w : Nat} {s s' : St α ε} (h : InvD p w s) (es) (hlog : s'.log = s.log ++ es)
    (hfe : feds w es = []) (hgo : gots w es = []) (hdu : due w es = []) (hsu : .sub w ∉ es) (hseen : s'.seen w = s.seen w)
    (hrefs : w ∈ s'.refs → w ∈ s.refs)
    (hpc : s'.pc = s.pc) : InvD p w s' := by
  obtain ⟨ds, d0, df, d1, d2, d3, d4⟩ := h
  have hd : due w s'.log = due w s.log := by
    by_cases hs : .sub w ∈ s.log
    · rw [hlog, due_in w _ _ hs, hfe, List.append_nil]
    · rw [hlog, due_out w _ _ hs, hdu, due_none w _ hs]
  have hg : gots w s'.log = gots w s.log := by rw [hlog, gots_append, hgo, List.append_nil]
  have hs : .sub w ∈ s'.log ↔ .sub w ∈ s.log := by rw [hlog, List.mem_append]; simp [hsu]
  refine ⟨by rw [hs, hseen]; exact ds, ?_, ?_, ?_, ?_, ?_, ?_⟩
  · intro h; rw [hg, hd]
    obtain ⟨q1, q2, q3⟩ := d0 (hseen ▸ h)
    exact ⟨q1, q2, fun h => q3 (hrefs h)⟩
  · intro h a; rw [hpc]; exact df (hseen ▸ h) a
  · intro hr a x hx; rw [hg, hd]; exact d1 (hrefs hr) a x (hpc ▸ hx)
  · intro hr hx; rw [hg, hd]; exact d2 (hrefs hr) (fun a => hpc ▸ hx a)
  · intro a x hx; rw [hg, hd]; exact d3 a x (hpc ▸ hx)
  · rw [hg, hd]; exact d4

/-- A call ends its delivery to window `w` (or was not at one), or drops it when the observer is gone. -/
theorem InvD.drop {p : Item α ε → Bool} {w : Nat} {s s' : St α ε} (h : InvD p w s) (a : Actor) (es) (hlog : s'.log = s.log ++ es)
    (hfe : feds w es = []) (hgo : gots w es = []) (hdu : due w es = []) (hsu : .sub w ∉ es) (hseen : s'.seen w = s.seen w)
    (hrefs : w ∈ s'.refs → w ∈ s.refs)
    (ha : ∀ p, (s'.pc a).fl p w = none ∧ (s'.pc a).flgo p w = none) (hb : (s.pc a).fl p w = none ∨ w ∉ s.refs)
    (hpc : ∀ b, b ≠ a → s'.pc b = s.pc b) : InvD p w s' := by
  obtain ⟨ds, d0, df, d1, d2, d3, d4⟩ := h
  have hd : due w s'.log = due w s.log := by
    by_cases hs : .sub w ∈ s.log
    · rw [hlog, due_in w _ _ hs, hfe, List.append_nil]
    · rw [hlog, due_out w _ _ hs, hdu, due_none w _ hs]
  have hg : gots w s'.log = gots w s.log := by rw [hlog, gots_append, hgo, List.append_nil]
  have hs : .sub w ∈ s'.log ↔ .sub w ∈ s.log := by rw [hlog, List.mem_append]; simp [hsu]
  have hpc' : ∀ p b x, (s'.pc b).fl p w = some x → (s.pc b).fl p w = some x := by
    intro p b x hx
    by_cases q : b = a
    · subst q; rw [(ha p).1] at hx; cases hx
    · rw [← hpc b q]; exact hx
  refine ⟨by rw [hs, hseen]; exact ds, ?_, ?_, ?_, ?_, ?_, ?_⟩
  · intro h; rw [hg, hd]
    obtain ⟨q1, q2, q3⟩ := d0 (hseen ▸ h)
    exact ⟨q1, q2, fun h => q3 (hrefs h)⟩
  · intro h b
    cases hx : (s'.pc b).fl (fun _ => true) w with
    | none => rfl
    | some x => have := hpc' _ b x hx; rw [df (hseen ▸ h) b] at this; cases this
  · intro hr b x hx; rw [hg, hd]; exact d1 (hrefs hr) b x (hpc' _ b x hx)
  · intro hr hx; rw [hg, hd]
    refine d2 (hrefs hr) (fun b => ?_)
    by_cases q : b = a
    · subst q
      rcases hb with hb | hb
      · exact hb
      · exact absurd (hrefs hr) hb
    · rw [← hpc b q]; exact hx b
  · intro b x hx; rw [hg, hd]
    by_cases q : b = a
    · subst q; rw [(ha p).2] at hx; cases hx
    · rw [hpc b q] at hx; exact d3 b x hx
  · rw [hg, hd]; exact d4

theorem fl_sub {p : Item α ε → Bool} {w : Nat} {c : Pc α ε} (h : c.fl (fun _ => true) w = none) : c.fl p w = none ∧ c.flgo p w = none := by
  cases c <;> simp_all [Pc.fl, Pc.flgo]
  rename_i st
  cases st <;> simp_all

theorem flgo_fl {p : Item α ε → Bool} {w : Nat} {c : Pc α ε} {y} : c.flgo p w = some y → c.fl p w = some y := by
  cases c <;> simp [Pc.flgo, Pc.fl]
  rename_i st; cases st <;> simp

theorem fl_none_of {p : Item α ε → Bool} {w : Nat} {c : Pc α ε} (h : ∀ x v k st, c ≠ .deliv x v k st) : c.fl p w = none ∧ c.flgo p w = none := by
  cases c <;> simp_all [Pc.fl, Pc.flgo]

theorem InvD.tr {p : Item α ε → Bool} {w : Nat} {s s' : St α ε} (h : InvD p w s) (h1 : One p w s) (h1' : One p w s') (t : Tr s s') : InvD p w s' := by
  have updne : ∀ (a b : Actor) (c : Pc α ε), b ≠ a → upd s.pc a c b = s.pc b := by intro a b c q; simp [upd, q]
  have upeq : ∀ (a : Actor) (c : Pc α ε), upd s.pc a c a = c := by intro a c; simp [upd]
  cases t
  case src x q1 q2 q3 =>
    exact h.drop .src [] (by simp) rfl rfl rfl (by simp) rfl id (fun p => by simp only [upeq]; exact ⟨rfl, rfl⟩) (.inl (by rw [isIdle_eq q1]; rfl)) (fun b q => updne _ _ _ q)
  case opn q1 q2 q3 =>
    exact h.drop .opn _ rfl rfl rfl rfl (by simp) rfl id (fun p => by simp only [upeq]; exact ⟨rfl, rfl⟩) (.inl (by rw [isIdle_eq q1]; rfl)) (fun b q => updne _ _ _ q)
  case opnErr e q1 q2 q3 =>
    exact h.drop .opn [] (by simp) rfl rfl rfl (by simp) rfl id (fun p => by simp only [upeq]; exact ⟨rfl, rfl⟩) (.inl (by rw [isIdle_eq q1]; rfl)) (fun b q => updne _ _ _ q)
  case opnDone => exact h.same [] (by simp) rfl rfl rfl (by simp) rfl id rfl
  case selThrow e v q1 =>
    exact h.drop .opn [] (by simp) rfl rfl rfl (by simp) rfl id (fun p => by simp only [upeq]; exact ⟨rfl, rfl⟩) (.inl (by rw [q1]; rfl)) (fun b q => updne _ _ _ q)
  case fire v q1 q2 q3 =>
    exact h.drop (.cls v) _ rfl rfl rfl rfl (by simp) rfl id (fun p => by simp only [upeq]; exact ⟨rfl, rfl⟩) (.inl (by rw [isIdle_eq q1]; rfl)) (fun b q => updne _ _ _ q)
  case cErr v e q1 q2 q3 =>
    exact h.drop (.cls v) [] (by simp) rfl rfl rfl (by simp) rfl id (fun p => by simp only [upeq]; exact ⟨rfl, rfl⟩) (.inl (by rw [isIdle_eq q1]; rfl)) (fun b q => updne _ _ _ q)
  case lockItem a x q hl =>
    exact h.drop a _ rfl rfl rfl rfl (by simp) rfl id (fun p => by simp only [upeq]; exact ⟨rfl, rfl⟩) (.inl (by rw [q]; rfl)) (fun b q => updne _ _ _ q)
  case lockOpen a q hl hm =>
    exact h.drop a _ rfl rfl rfl rfl (by simp) rfl id (fun p => by simp only [upeq]; exact ⟨rfl, rfl⟩) (.inl (by rw [q]; rfl)) (fun b q => updne _ _ _ q)
  case lockOpenOff a q hl hm =>
    exact h.drop a _ rfl rfl rfl rfl (by simp) rfl id (fun p => by simp only [upeq]; exact ⟨rfl, rfl⟩) (.inl (by rw [q]; rfl)) (fun b q => updne _ _ _ q)
  case lockErase a v q hl =>
    exact h.drop a [] (by simp) rfl rfl rfl (by simp) rfl id (fun p => by simp only [upeq]; exact ⟨rfl, rfl⟩) (.inl (by rw [q]; rfl)) (fun b q => updne _ _ _ q)
  case giveNot a x v k hg hv =>
    refine h.drop a _ rfl (feds_contEv _ _ _) (gots_contEv _ _ _) (due_contEv _ _ _) (by rw [sub_contEv]; exact id) rfl id
      (fun p => by simp only [upeq]; exact ⟨fl_cont _ _ _ _ _, flgo_cont _ _ _ _ _⟩) (.inl ?_) (fun b q => updne _ _ _ q)
    rcases gives_eq hg with ⟨r, hp, rfl⟩ | ⟨hp, rfl, rfl⟩ <;> rw [hp] <;> rfl
  case loopEnd a x q hx =>
    exact h.drop a _ rfl rfl rfl rfl (by simp) rfl id (fun p => by simp only [upeq]; exact ⟨rfl, rfl⟩) (.inl (by rw [q]; rfl)) (fun b q => updne _ _ _ q)
  case loopMain a x q hx hm =>
    exact h.drop a _ rfl rfl rfl rfl (by simp) rfl id (fun p => by simp only [upeq]; exact ⟨rfl, rfl⟩) (.inl (by rw [q]; rfl)) (fun b q => updne _ _ _ q)
  case openCb a v q =>
    exact h.drop a _ rfl rfl rfl rfl (by simp) rfl id (fun p => by simp only [upeq]; exact ⟨rfl, rfl⟩) (.inl (by rw [q]; rfl)) (fun b q => updne _ _ _ q)
  case mainCb a v q =>
    exact h.drop a _ rfl rfl rfl rfl (by simp) rfl id (fun p => by simp only [upeq]; exact ⟨rfl, rfl⟩) (.inl (by rw [q]; rfl)) (fun b q => updne _ _ _ q)
  case mainOut a v q =>
    exact h.drop a _ rfl rfl rfl rfl (by simp) rfl id (fun p => by simp only [upeq]; exact ⟨rfl, rfl⟩) (.inl (by rw [q]; rfl)) (fun b q => updne _ _ _ q)
  case post a v q =>
    exact h.drop a [] (by simp) rfl rfl rfl (by simp) rfl id (fun p => by simp only [upeq]; exact ⟨rfl, rfl⟩) (.inl (by rw [q]; rfl)) (fun b q => updne _ _ _ q)
  case leave => exact h.same _ rfl rfl rfl rfl (by simp) rfl id rfl
  case refire => exact h.same _ rfl rfl rfl rfl (by simp) rfl id rfl
  case die => exact h.same _ rfl rfl rfl rfl (by simp) rfl id rfl
  case unsub v hv => exact h.same _ rfl rfl rfl rfl (by simp) rfl (fun q => (List.mem_filter.mp q).1) rfl
  case innT a x v k q hx =>
    exact h.drop a _ rfl (feds_contEv _ _ _) (gots_contEv _ _ _) (due_contEv _ _ _) (by simp [sub_contEv]) rfl (fun q => (List.mem_filter.mp q).1)
      (fun p => by simp only [upeq]; exact ⟨fl_cont _ _ _ _ _, flgo_cont _ _ _ _ _⟩) (.inl (by rw [q]; rfl)) (fun b q => updne _ _ _ q)
  case innV a x v k q hx =>
    exact h.drop a _ rfl (feds_contEv _ _ _) (gots_contEv _ _ _) (due_contEv _ _ _) (by simp [sub_contEv]) rfl id
      (fun p => by simp only [upeq]; exact ⟨fl_cont _ _ _ _ _, flgo_cont _ _ _ _ _⟩) (.inl (by rw [q]; rfl)) (fun b q => updne _ _ _ q)
  case chkOff a x v k q hr =>
    refine h.drop a _ rfl (feds_contEv _ _ _) (gots_contEv _ _ _) (due_contEv _ _ _) (by simp [sub_contEv]) rfl id
      (fun p => by simp only [upeq]; exact ⟨fl_cont _ _ _ _ _, flgo_cont _ _ _ _ _⟩) ?_ (fun b q => updne _ _ _ q)
    by_cases e : v = w
    · subst e; exact .inr hr
    · left; rw [q]; simp [Pc.fl, e]
  case sub v g1 g2 g3 g4 =>
    by_cases e : v = w
    · subst e
      obtain ⟨ds, d0, df, d1, d2, d3, d4⟩ := h
      obtain ⟨q1, q2, q3⟩ := d0 g3
      have hn : .sub v ∉ s.log := by rw [ds, g3]; simp
      have hD : due v (s.log ++ [.sub v]) = [] := by rw [due_out _ _ _ hn]; simp [due, feds]
      have hG : gots v (s.log ++ [.sub v]) = [] := by rw [gots_append, q1]; rfl
      refine ⟨by simp [upd], by simp [upd], by simp [upd], ?_, ?_, ?_, ?_⟩
      · intro _ a x hx; simp only at hx; rw [(fl_sub (df g3 a)).1] at hx; cases hx
      · intro _ _; simp only [hD, hG]
      · intro a x hx; simp only at hx; rw [(fl_sub (df g3 a)).2] at hx; cases hx
      · simp only [hD, hG]; exact Pfx.rfl' _
    · have e' : ¬ w = v := fun q => e q.symm
      exact h.same _ rfl rfl rfl (by simp [due, e]) (by simp [e']) (by simp [upd, e']) (by simp [e']) rfl
  case chk a x v k q hr =>
    obtain ⟨ds, d0, df, d1, d2, d3, d4⟩ := h
    have hfl : ∀ p b, (upd s.pc a (Pc.deliv x v k .go) b).fl p w = (s.pc b).fl p w := by
      intro p b; simp only [upd]; split
      · next e => subst e; rw [q]; rfl
      · rfl
    refine ⟨ds, d0, ?_, ?_, ?_, ?_, d4⟩
    · intro hs b; simp only [hfl]; exact df hs b
    · intro hs b y hy; simp only [hfl] at hy; exact d1 hs b y hy
    · intro hs hy; simp only [hfl] at hy; exact d2 hs hy
    · intro b y hy
      simp only [upd] at hy
      split at hy
      · next e =>
        subst e
        simp only [Pc.flgo] at hy
        split at hy
        · next e =>
          obtain ⟨rfl, e2⟩ := e
          cases hy
          simp only
          rw [d1 hr b x (by rw [q]; simp [Pc.fl, e2])]
          exact Pfx.rfl' _
        · cases hy
      · exact d3 b y hy
  case go a x v k q =>
    by_cases e : v = w
    · subst e
      obtain ⟨ds, d0, df, d1, d2, d3, d4⟩ := h
      have hseen : s.seen v = true := by
        cases hs : s.seen v
        · have := df hs a; rw [q] at this; simp [Pc.fl] at this
        · rfl
      have hD : due v (s.log ++ [.got v x]) = due v s.log := by
        rw [due_in _ _ _ (ds.mpr hseen)]; simp [feds]
      have hG : gots v (s.log ++ [.got v x]) = gots v s.log ++ [x] := by rw [gots_append]; simp [gots]
      by_cases hx : p x = true
      · have hfa : (s.pc a).fl p v = some x := by rw [q]; simp [Pc.fl, hx]
        have hga : (s.pc a).flgo p v = some x := by rw [q]; simp [Pc.flgo, hx]
        have hno : ∀ b, (upd s.pc a (Pc.deliv x v k .inn) b).fl p v = none := by
          intro b
          simp only [upd]; split
          · rfl
          · next e =>
            cases hb : (s.pc b).fl p v with
            | none => rfl
            | some y => exact absurd (h1 b a y x hb hfa) e
        refine ⟨by simpa using ds, ?_, ?_, ?_, ?_, ?_, ?_⟩
        · intro hs; simp only at hs; rw [hseen] at hs; cases hs
        · intro hs; simp only at hs; rw [hseen] at hs; cases hs
        · intro _ b y hy; simp only [hno] at hy; cases hy
        · intro hr _; simp only [hD, hG, List.filter_append]
          rw [d1 hr a x hfa]; simp [hx]
        · intro b y hy
          have := flgo_fl hy
          simp only [hno] at this; cases this
        · simp only [hD, hG, List.filter_append]
          have := d3 a x hga
          simpa [hx] using this
      · have hx' : p x = false := by simpa using hx
        have hfl : ∀ b, (upd s.pc a (Pc.deliv x v k .inn) b).fl p v = (s.pc b).fl p v := by
          intro b; simp only [upd]; split
          · next e => subst e; rw [q]; simp [Pc.fl, hx']
          · rfl
        have hflgo : ∀ b, (upd s.pc a (Pc.deliv x v k .inn) b).flgo p v = (s.pc b).flgo p v := by
          intro b; simp only [upd]; split
          · next e => subst e; rw [q]; simp [Pc.flgo, hx']
          · rfl
        have hG' : (gots v (s.log ++ [.got v x])).filter p = (gots v s.log).filter p := by rw [hG]; simp [hx']
        refine ⟨by simpa using ds, ?_, ?_, ?_, ?_, ?_, ?_⟩
        · intro hs; simp only at hs; rw [hseen] at hs; cases hs
        · intro hs; simp only at hs; rw [hseen] at hs; cases hs
        · intro hr b y hy; simp only [hfl] at hy; simp only [hD, hG']; exact d1 hr b y hy
        · intro hr hy; simp only [hfl] at hy; simp only [hD, hG']; exact d2 hr hy
        · intro b y hy; simp only [hflgo] at hy; simp only [hD, hG']; exact d3 b y hy
        · simp only [hD, hG']; exact d4
    · refine h.drop a _ rfl rfl (by simp [gots, e]) rfl (by simp) rfl id (fun p => by simp only [upeq]; simp [Pc.fl, Pc.flgo]) (.inl (by rw [q]; simp [Pc.fl, e])) (fun b q => updne _ _ _ q)
  case giveOn a x v k hg hv hr =>
    have hpa : ∀ p, (s.pc a).fl p w = none := by
      intro p
      rcases gives_eq hg with ⟨r, hp, rfl⟩ | ⟨hp, rfl, rfl⟩ <;> rw [hp] <;> rfl
    by_cases e : v = w
    · subst e
      obtain ⟨ds, d0, df, d1, d2, d3, d4⟩ := h
      have hseen : s.seen v = true := by
        cases hs : s.seen v
        · exact absurd hr (d0 hs).2.2
        · rfl
      have hD : due v (s.log ++ [.fed a v x]) = due v s.log ++ [x] := by
        rw [due_in _ _ _ (ds.mpr hseen)]; simp [feds]
      have hG : gots v (s.log ++ [.fed a v x]) = gots v s.log := by rw [gots_append]; simp [gots]
      by_cases hx : p x = true
      · have hfa : (upd s.pc a (Pc.deliv x v k .chk) a).fl p v = some x := by simp [upd, Pc.fl, hx]
        have hno : ∀ b, (s.pc b).fl p v = none := by
          intro b
          by_cases e : b = a
          · subst e; exact hpa p
          · cases hb : (s.pc b).fl p v with
            | none => rfl
            | some y => exact absurd (h1' b a y x (by simp only [updne a b _ e]; exact hb) hfa) e
        refine ⟨by simpa using ds, ?_, ?_, ?_, ?_, ?_, ?_⟩
        · intro hs; simp only at hs; rw [hseen] at hs; cases hs
        · intro hs; simp only at hs; rw [hseen] at hs; cases hs
        · intro hr b y hy
          have : b = a := h1' b a y x hy hfa
          subst this
          rw [hfa] at hy; cases hy
          simp only [hD, hG, List.filter_append, d2 hr hno]; simp [hx]
        · intro hr hy; have := hy a; rw [hfa] at this; cases this
        · intro b y hy
          have : b = a := h1' b a y x (flgo_fl hy) hfa
          subst this
          simp only [upeq, Pc.flgo] at hy; cases hy
        · simp only [hD, hG, List.filter_append]; exact d4.ext _
      · have hx' : p x = false := by simpa using hx
        have hfl : ∀ b, (upd s.pc a (Pc.deliv x v k .chk) b).fl p v = (s.pc b).fl p v := by
          intro b; simp only [upd]; split
          · next e => subst e; rw [hpa]; simp [Pc.fl, hx']
          · rfl
        have hflgo : ∀ b y, (upd s.pc a (Pc.deliv x v k .chk) b).flgo p v = some y → (s.pc b).flgo p v = some y := by
          intro b y; simp only [upd]; split
          · next e => simp [Pc.flgo]
          · exact id
        have hD' : (due v (s.log ++ [.fed a v x])).filter p = (due v s.log).filter p := by rw [hD]; simp [hx']
        refine ⟨by simpa using ds, ?_, ?_, ?_, ?_, ?_, ?_⟩
        · intro hs; simp only at hs; rw [hseen] at hs; cases hs
        · intro hs; simp only at hs; rw [hseen] at hs; cases hs
        · intro hr b y hy; simp only [hfl] at hy; simp only [hD', hG]; exact d1 hr b y hy
        · intro hr hy; simp only [hfl] at hy; simp only [hD', hG]; exact d2 hr hy
        · intro b y hy; simp only [hD', hG]; exact d3 b y (hflgo _ _ hy)
        · simp only [hD', hG]; exact d4
    · exact h.drop a _ rfl (by simp [feds, e]) rfl rfl (by simp) rfl id (fun p => by simp only [upeq]; simp [Pc.fl, Pc.flgo, e]) (.inl (hpa p)) (fun b q => updne _ _ _ q)
  case giveOff a x v k hg hv hr =>
    have hpa : ∀ p, (s.pc a).fl p w = none := by
      intro p
      rcases gives_eq hg with ⟨r, hp, rfl⟩ | ⟨hp, rfl, rfl⟩ <;> rw [hp] <;> rfl
    by_cases e : v = w
    · subst e
      obtain ⟨ds, d0, df, d1, d2, d3, d4⟩ := h
      have hpc' : ∀ p b y, (upd s.pc a (cont x v k) b).fl p v = some y → (s.pc b).fl p v = some y := by
        intro p b y; simp only [upd]; split
        · rw [fl_cont]; simp
        · exact id
      have hflgo : ∀ b y, (upd s.pc a (cont x v k) b).flgo p v = some y → (s.pc b).flgo p v = some y := by
        intro b y; simp only [upd]; split
        · rw [flgo_cont]; simp
        · exact id
      have hG : gots v (s.log ++ [.fed a v x] ++ contEv v k) = gots v s.log := by simp [gots_append, gots, gots_contEv]
      have hs : .sub v ∈ s.log ++ [.fed a v x] ++ contEv v k ↔ .sub v ∈ s.log := by simp [sub_contEv]
      have hD : ∃ c, due v (s.log ++ [.fed a v x] ++ contEv v k) = due v s.log ++ c ∧ (s.seen v = false → c = []) := by
        rw [List.append_assoc]
        by_cases hs : .sub v ∈ s.log
        · exact ⟨_, due_in _ _ _ hs, fun q => absurd (ds.mp hs) (by simp [q])⟩
        · refine ⟨[], ?_, fun _ => rfl⟩
          rw [due_out _ _ _ hs, due_none _ _ hs]
          simp [due, due_contEv]
      obtain ⟨c, hD, hc⟩ := hD
      refine ⟨hs.trans ds, ?_, ?_, ?_, ?_, ?_, ?_⟩
      · intro hs; simp only [hD, hG, hc hs, List.append_nil]; exact d0 hs
      · intro hs b
        cases hb : (upd s.pc a (cont x v k) b).fl (fun _ => true) v with
        | none => rfl
        | some y => have := hpc' _ _ _ hb; rw [df hs b] at this; cases this
      · intro hr'; exact absurd hr' hr
      · intro hr'; exact absurd hr' hr
      · intro b y hy; simp only [hD, hG, List.filter_append]; exact (d3 b y (hflgo _ _ hy)).ext _
      · simp only [hD, hG, List.filter_append]; exact d4.ext _
    · exact h.drop a _ (List.append_assoc _ _ _) (by simp [feds, e, feds_contEv]) (gots_contEv _ _ _) (due_contEv _ _ _) (by simp [sub_contEv]) rfl id (fun p => by simp only [upeq]; exact ⟨fl_cont _ _ _ _ _, flgo_cont _ _ _ _ _⟩) (.inl (hpa p)) (fun b q => updne _ _ _ q)

end Rpp.Win.Toggle
