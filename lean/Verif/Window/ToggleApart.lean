import Verif.Window.ToggleObs

/-!
# `window_toggle`: a window whose closing keeps apart from the calls that pass notifications on
-/

namespace Rpp.Win.Toggle
variable {α ε : Type}
open Rpp.Win (Item)

/-! ## Values, in every schedule -/

/-- A test on the constructor; models no code. -/
def isVal (x : Item α ε) : Bool := !x.term

theorem one_val {s : St α ε} (hA : InvA s) (w : Nat) : One isVal w s := by
  have key : ∀ a x, (s.pc a).fl isVal w = some x → s.lock = some a := by
    intro a x h
    refine (hA.lock a).mpr ?_
    have ho := hA.ok a
    revert h ho
    cases s.pc a with
    | deliv y v k st =>
      cases k with
      | none =>
        intro h ho
        have := (ok_deliv ho).2
        cases st <;> simp [Pc.fl, isVal, this] at h
      | some r => intros; rfl
    | _ => simp [Pc.fl]
  intro a b x y h1 h2
  have := (key a x h1).symm.trans (key b y h2)
  simpa using this

theorem invD_init (p : Item α ε → Bool) (w : Nat) : InvD p w ({} : St α ε) :=
  ⟨by simp, by simp [gots, due], by simp [Pc.fl], by simp, by simp, by simp [Pc.flgo], ⟨by simp [gots]⟩⟩

theorem invD_val (ls : List (Lbl α ε)) (w : Nat) : InvD isVal w (exec ls) :=
  (exec_induct (P := fun s => InvA s ∧ InvD isVal w s)
    ⟨invA [], invD_init _ _⟩ (fun _ _ h t => ⟨h.1.tr t, h.2.tr (one_val h.1 w) (one_val (h.1.tr t) w) t⟩) ls).2

/-! ## One at a time -/

/-- Used in the proofs; models no code. -/
def busy (w : Nat) (l : List (Ev α ε)) : Option (Option Actor) := l.foldl (busyStep w) (some none)

theorem busy_append (w : Nat) (l m : List (Ev α ε)) : busy w (l ++ m) = m.foldl (busyStep w) (busy w l) := by
  simp [busy, List.foldl_append]

theorem busyStep_none (w : Nat) (e : Ev α ε) : busyStep w none e = none := by
  cases e <;> simp [busyStep]

theorem busy_none (w : Nat) (m : List (Ev α ε)) : m.foldl (busyStep w) none = none := by
  induction m with
  | nil => rfl
  | cons e m ih => rw [List.foldl_cons, busyStep_none, ih]

theorem busy_some {w : Nat} {l m : List (Ev α ε)} {b} (h : busy w (l ++ m) = some b) : ∃ b', busy w l = some b' := by
  rw [busy_append] at h
  cases hl : busy w l with
  | none => rw [hl, busy_none] at h; cases h
  | some b' => exact ⟨b', rfl⟩

/-- Passing a notification on, with the mutex. -/
def Pc.item : Pc α ε → Bool
  | .loop _ _ => true
  | .deliv _ _ (some _) _ => true
  | .mainCb _ => true
  | .mainOut _ => true
  | _ => false

/-- Used in the proofs; models no code. -/
structure Busy (w : Nat) (s : St α ε) : Prop where
  b1 : ∀ b a, busy w s.log = some b → (s.pc a).item = true → b = some a
  b2 : ∀ b, busy w s.log = some b → (s.pc (.cls w)).closing = true → b = some (.cls w)

theorem busy_contEv (w v : Nat) (k) (c) : (contEv v k : List (Ev α ε)).foldl (busyStep w) c = if k = none ∧ v = w then c.map fun _ => none else c := by
  cases k <;> simp [contEv, busyStep]

theorem item_holds {c : Pc α ε} (h : c.item = true) : c.holds = true := by
  cases c <;> simp_all [Pc.item, Pc.holds]
  rename_i k st; cases k <;> simp_all

theorem Busy.tr {w : Nat} {s s' : St α ε} (h : Busy w s) (hA : InvA s) (t : Tr s s') : Busy w s' := by
  obtain ⟨b1, b2⟩ := h
  have hl : ∀ a, (s.pc a).item = true → s.lock = some a := fun a q => (hA.lock a).mpr (item_holds q)
  have ho := hA.ok
  clear hA
  generalize hc : busy w s.log = c at *
  cases t
  case giveOn a x v k hg h1 h2 =>
    rcases gives_eq hg with ⟨r, hp, rfl⟩ | ⟨hp, rfl, rfl⟩
    · clear ho
      constructor <;> simp only [upd, busy_append, hc, List.foldl_cons, List.foldl_nil, busyStep] at * <;> cases c <;> grind [Option.map_some, Option.map_none, Pc.item, Pc.closing]
    · obtain rfl := ok_fired (hp ▸ ho a)
      clear ho
      constructor <;> simp only [upd, busy_append, hc, List.foldl_cons, List.foldl_nil, busyStep] at * <;> cases c <;> grind [Option.map_some, Option.map_none, Pc.item, Pc.closing]
  case giveOff a x v k hg h1 h2 =>
    rcases gives_eq hg with ⟨r, hp, rfl⟩ | ⟨hp, rfl, rfl⟩
    · clear ho
      constructor <;> simp only [upd, busy_append, hc, List.foldl_cons, List.foldl_nil, busyStep, busy_contEv, reduceCtorEq, false_and, if_false, true_and] at * <;> cases c <;> grind [Option.map_some, Option.map_none, Pc.item, Pc.closing, cont]
    · obtain rfl := ok_fired (hp ▸ ho a)
      clear ho
      constructor <;> simp only [upd, busy_append, hc, List.foldl_cons, List.foldl_nil, busyStep, busy_contEv, reduceCtorEq, false_and, if_false, true_and] at * <;> cases c <;> grind [Option.map_some, Option.map_none, Pc.item, Pc.closing, cont]
  case giveNot a x v k hg h1 =>
    rcases gives_eq hg with ⟨r, hp, rfl⟩ | ⟨hp, rfl, rfl⟩
    · clear ho
      constructor <;> simp only [upd, busy_append, hc, busy_contEv, reduceCtorEq, false_and, if_false, true_and] at * <;> cases c <;> grind [Option.map_some, Option.map_none, Pc.item, Pc.closing, cont]
    · obtain rfl := ok_fired (hp ▸ ho a)
      clear ho
      constructor <;> simp only [upd, busy_append, hc, busy_contEv, reduceCtorEq, false_and, if_false, true_and] at * <;> cases c <;> grind [Option.map_some, Option.map_none, Pc.item, Pc.closing, cont]
  case chkOff a x v k hp h2 =>
    cases k with
    | some r => clear ho; constructor <;> simp only [upd, busy_append, hc, busy_contEv, reduceCtorEq, false_and, if_false, true_and] at * <;> cases c <;> grind [Option.map_some, Option.map_none, Pc.item, Pc.closing, cont]
    | none =>
      obtain ⟨rfl, hx⟩ := ok_deliv (hp ▸ ho a)
      clear ho
      constructor <;> simp only [upd, busy_append, hc, busy_contEv, reduceCtorEq, false_and, if_false, true_and] at * <;> cases c <;> grind [Option.map_some, Option.map_none, Pc.item, Pc.closing, cont]
  case innT a x v k hp hx =>
    cases k with
    | some r => clear ho; constructor <;> simp only [upd, busy_append, hc, List.foldl_cons, busyStep, busy_contEv, reduceCtorEq, false_and, if_false, true_and] at * <;> cases c <;> grind [Option.map_some, Option.map_none, Pc.item, Pc.closing, cont]
    | none =>
      obtain ⟨rfl, hx⟩ := ok_deliv (hp ▸ ho a)
      clear ho
      constructor <;> simp only [upd, busy_append, hc, List.foldl_cons, busyStep, busy_contEv, reduceCtorEq, false_and, if_false, true_and] at * <;> cases c <;> grind [Option.map_some, Option.map_none, Pc.item, Pc.closing, cont]
  case innV a x v k hp hx =>
    cases k with
    | some r => clear ho; constructor <;> simp only [upd, busy_append, hc, List.foldl_cons, busyStep, busy_contEv, reduceCtorEq, false_and, if_false, true_and] at * <;> cases c <;> grind [Option.map_some, Option.map_none, Pc.item, Pc.closing, cont]
    | none =>
      obtain ⟨rfl, hx'⟩ := ok_deliv (hp ▸ ho a)
      rw [hx] at hx'; cases hx'
  case chk a x v k hp h2 => clear ho; cases k <;> constructor <;> simp only [upd] at * <;> cases c <;> grind [Option.map_some, Option.map_none, Pc.item, Pc.closing]
  case go a x v k hp =>
    clear ho
    cases k <;> constructor <;> simp only [upd, busy_append, hc, List.foldl_cons, List.foldl_nil, busyStep] at * <;> cases c <;> grind [Option.map_some, Option.map_none, Pc.item, Pc.closing]
  case fire v g1 g2 g3 =>
    have := isIdle_eq g1
    clear ho
    constructor <;> simp only [upd, busy_append, hc, List.foldl_cons, List.foldl_nil, busyStep] at * <;> cases c <;> grind [Option.map_some, Option.map_none, Pc.item, Pc.closing]
  all_goals
    clear ho
    constructor <;> simp only [upd, busy_append, hc, List.foldl_cons, List.foldl_nil, busyStep] at * <;> cases c <;> grind [Option.map_some, Option.map_none, Pc.item, Pc.closing]

/-- The call has a delivery to window `w` going on. -/
def Pc.fly (w : Nat) : Pc α ε → Bool
  | .deliv _ v _ _ => v = w
  | _ => false

theorem fl_fly {p : Item α ε → Bool} {w : Nat} {c : Pc α ε} {x} (h : c.fl p w = some x) : c.fly w = true := by
  cases c <;> simp_all [Pc.fl, Pc.fly]
  rename_i st; cases st <;> simp_all

theorem fly_busy {w : Nat} {s : St α ε} {b} (h : Busy w s) (hA : InvA s) (hb : busy w s.log = some b) (a : Actor) (ha : (s.pc a).fly w = true) :
    b = some a := by
  have ho := hA.ok a
  have h1 := h.b1 b a hb
  have h2 := h.b2 b hb
  cases hp : s.pc a with
  | deliv x v k st =>
    rw [hp] at ho ha h1
    simp only [Pc.fly, decide_eq_true_eq] at ha
    subst ha
    cases k with
    | none =>
      obtain ⟨rfl, _⟩ := ok_deliv ho
      exact h2 (by rw [hp]; rfl)
    | some r => exact h1 rfl
  | _ => rw [hp] at ha; simp [Pc.fly] at ha

theorem fly_one {w : Nat} {s : St α ε} {b} (h : Busy w s) (hA : InvA s) (hb : busy w s.log = some b) {a a' : Actor} (ha : (s.pc a).fly w = true)
    (ha' : (s.pc a').fly w = true) : a = a' := by
  have := (fly_busy h hA hb a ha).symm.trans (fly_busy h hA hb a' ha')
  simpa using this

/-! ## The observer -/

theorem cbs_append (w : Nat) (l m : List (Ev α ε)) : cbs w (l ++ m) = m.foldl (cbStep w) (cbs w l) := by
  simp [cbs, List.foldl_append]

theorem cbs_contEv (w v : Nat) (k) (c) : (contEv v k : List (Ev α ε)).foldl (cbStep w) c = c := by cases k <;> rfl

/-- The observer's state while a delivery is going on. -/
def Stage.cb (x : Item α ε) : Stage → Cb
  | .inn => if x.term then .inEnd else .inVal
  | _ => .out

/-- Invariant of the proofs; models no code. -/
structure InvQ (w : Nat) (s : St α ε) : Prop where
  q0 : s.next ≤ w → cbs w s.log = .out
  q1 : ∀ a x k st, s.pc a = .deliv x w k st → cbs w s.log = st.cb x
  q2 : s.live w = true → (∀ a, (s.pc a).fly w = false) → cbs w s.log = .out
  q3 : cbs w s.log ≠ .bad
  e4 : s.seen w = true → s.live w = true → .unsub w ∉ s.log → w ∈ s.refs
  e5 : ∀ a, (s.pc a).fly w = true → .unsub w ∉ s.log → w ∈ s.refs
  e3 : s.seen w = true → .unsub w ∉ s.log → (∀ a, (s.pc a).fl (fun _ => true) w = none) → due w s.log = gots w s.log

theorem InvQ.quiet {w : Nat} {s s' : St α ε} (h : InvQ w s) (hD : InvD (fun _ => true) w s) (a : Actor) (es) (hlog : s'.log = s.log ++ es)
    (hcb : ∀ c, es.foldl (cbStep w) c = c) (hfe : feds w es = []) (hgo : gots w es = []) (hdu : due w es = [])
    (hseen : s'.seen w = s.seen w) (hrefs : w ∈ s.refs → w ∈ s'.refs ∨ .unsub w ∈ es) (hlive : s'.live w = true → s.live w = true)
    (hnext : s.next ≤ s'.next) (ha : s'.pc a = s.pc a ∨ ((s.pc a).fly w = false ∧ (s'.pc a).fly w = false)) (hpc : ∀ b, b ≠ a → s'.pc b = s.pc b) : InvQ w s' := by
  obtain ⟨q0, q1, q2, q3, e4, e5, e3⟩ := h
  have hc : cbs w s'.log = cbs w s.log := by rw [hlog, cbs_append, hcb]
  have hg : gots w s'.log = gots w s.log := by rw [hlog, gots_append, hgo, List.append_nil]
  have hd : due w s'.log = due w s.log := by
    by_cases hs : .sub w ∈ s.log
    · rw [hlog, due_in w _ _ hs, hfe, List.append_nil]
    · rw [hlog, due_out w _ _ hs, hdu, due_none w _ hs]
  have hun : .unsub w ∉ s'.log → .unsub w ∉ s.log ∧ .unsub w ∉ es := by
    rw [hlog]; intro h; simpa using h
  have hre : .unsub w ∉ s'.log → w ∈ s.refs → w ∈ s'.refs := by
    intro hu hr
    rcases hrefs hr with q | q
    · exact q
    · exact absurd q (hun hu).2
  have hfl : ∀ b, (s'.pc b).fly w = (s.pc b).fly w := by
    intro b
    by_cases e : b = a
    · subst e
      rcases ha with ha | ha
      · rw [ha]
      · rw [ha.1, ha.2]
    · rw [hpc b e]
  have hpd : ∀ b x k st, s'.pc b = .deliv x w k st → s.pc b = .deliv x w k st := by
    intro b x k st hp
    by_cases e : b = a
    · subst e
      rcases ha with ha | ha
      · rw [← ha]; exact hp
      · rw [hp] at ha; simp [Pc.fly] at ha
    · rw [← hpc b e]; exact hp
  have hno : (∀ b, (s'.pc b).fl (fun _ => true) w = none) → ∀ b, (s.pc b).fl (fun _ => true) w = none := by
    intro hn b
    by_cases e : b = a
    · subst e
      rcases ha with ha | ha
      · rw [← ha]; exact hn b
      · cases hq : (s.pc b).fl (fun _ => true) w with
        | none => rfl
        | some x => rw [fl_fly hq] at ha; simp at ha
    · rw [← hpc b e]; exact hn b
  refine ⟨?_, ?_, ?_, ?_, ?_, ?_, ?_⟩
  · intro h; rw [hc]; exact q0 (Nat.le_trans hnext h)
  · intro b x k st hp; rw [hc]; exact q1 b x k st (hpd b x k st hp)
  · intro hl hf; rw [hc]; exact q2 (hlive hl) (fun b => by rw [← hfl b]; exact hf b)
  · rw [hc]; exact q3
  · intro hs hl hu; exact hre hu (e4 (hseen ▸ hs) (hlive hl) (hun hu).1)
  · intro b hb hu; exact hre hu (e5 b (hfl b ▸ hb) (hun hu).1)
  · intro hs hu hn; rw [hg, hd]; exact e3 (hseen ▸ hs) (hun hu).1 (hno hn)

theorem cont_fly (x : Item α ε) (v k) (w : Nat) : (cont x v k).fly w = false := by cases k <;> rfl

theorem InvQ.tr {w : Nat} {s s' : St α ε} (h : InvQ w s) (hA : InvA s) (hB : InvB s) (hY : Busy w s) (hD : InvD (fun _ => true) w s)
    {b} (hb : busy w s'.log = some b) (hD' : InvD (fun _ => true) w s') (hY' : Busy w s') (hA' : InvA s') (t : Tr s s') : InvQ w s' := by
  have updne : ∀ (a b : Actor) (c : Pc α ε), b ≠ a → upd s.pc a c b = s.pc b := by intro a b c q; simp [upd, q]
  have upeq : ∀ (a : Actor) (c : Pc α ε), upd s.pc a c a = c := by intro a c; simp [upd]
  have one' := fun a a' => fly_one (a := a) (a' := a') hY' hA' hb
  have one : ∀ a a', (s.pc a).fly w = true → (s.pc a').fly w = true → a = a' := by
    obtain ⟨es, hl, _⟩ := tr_log t
    rw [hl] at hb
    obtain ⟨b', hb'⟩ := busy_some hb
    exact fun a a' h1 h2 => fly_one hY hA hb' h1 h2
  have gfl : ∀ {a x v k}, (s.pc a).gives = some (x, v, k) → (s.pc a).fly w = false := by
    intro a x v k hg
    rcases gives_eq hg with ⟨r, hp, rfl⟩ | ⟨hp, rfl, rfl⟩ <;> rw [hp] <;> rfl
  cases t
  case src x q1 q2 q3 =>
    exact h.quiet hD .src [] (by simp) (fun _ => rfl) rfl rfl rfl rfl .inl id (Nat.le_refl _) (.inr ⟨by rw [isIdle_eq q1]; rfl, by simp only [upeq]; rfl⟩) (fun b q => updne _ _ _ q)
  case opn q1 q2 q3 =>
    exact h.quiet hD .opn _ rfl (fun _ => rfl) rfl rfl rfl rfl .inl id (Nat.le_refl _) (.inr ⟨by rw [isIdle_eq q1]; rfl, by simp only [upeq]; rfl⟩) (fun b q => updne _ _ _ q)
  case opnErr e q1 q2 q3 =>
    exact h.quiet hD .opn [] (by simp) (fun _ => rfl) rfl rfl rfl rfl .inl id (Nat.le_refl _) (.inr ⟨by rw [isIdle_eq q1]; rfl, by simp only [upeq]; rfl⟩) (fun b q => updne _ _ _ q)
  case opnDone => exact h.quiet hD .opn [] (by simp) (fun _ => rfl) rfl rfl rfl rfl .inl id (Nat.le_refl _) (.inl rfl) (fun b q => rfl)
  case selThrow e v q1 =>
    exact h.quiet hD .opn [] (by simp) (fun _ => rfl) rfl rfl rfl rfl .inl (by simp only [upd]; grind) (Nat.le_refl _) (.inr ⟨by rw [q1]; rfl, by simp only [upeq]; rfl⟩) (fun b q => updne _ _ _ q)
  case fire v q1 q2 q3 =>
    exact h.quiet hD (.cls v) _ rfl (fun _ => rfl) rfl rfl rfl rfl .inl id (Nat.le_refl _) (.inr ⟨by rw [isIdle_eq q1]; rfl, by simp only [upeq]; rfl⟩) (fun b q => updne _ _ _ q)
  case cErr v e q1 q2 q3 =>
    exact h.quiet hD (.cls v) [] (by simp) (fun _ => rfl) rfl rfl rfl rfl .inl id (Nat.le_refl _) (.inr ⟨by rw [isIdle_eq q1]; rfl, by simp only [upeq]; rfl⟩) (fun b q => updne _ _ _ q)
  case lockItem a x q hl =>
    exact h.quiet hD a _ rfl (fun _ => rfl) rfl rfl rfl rfl .inl id (Nat.le_refl _) (.inr ⟨by rw [q]; rfl, by simp only [upeq]; rfl⟩) (fun b q => updne _ _ _ q)
  case lockErase a v q hl =>
    exact h.quiet hD a [] (by simp) (fun _ => rfl) rfl rfl rfl rfl .inl id (Nat.le_refl _) (.inr ⟨by rw [q]; rfl, by simp only [upeq]; rfl⟩) (fun b q => updne _ _ _ q)
  case giveNot a x v k hg hv =>
    exact h.quiet hD a _ rfl (cbs_contEv _ _ _) (feds_contEv _ _ _) (gots_contEv _ _ _) (due_contEv _ _ _) rfl .inl id (Nat.le_refl _)
      (.inr ⟨gfl hg, by simp only [upeq]; exact cont_fly _ _ _ _⟩) (fun b q => updne _ _ _ q)
  case loopEnd a x q hx =>
    exact h.quiet hD a _ rfl (fun _ => rfl) rfl rfl rfl rfl .inl id (Nat.le_refl _) (.inr ⟨by rw [q]; rfl, by simp only [upeq]; rfl⟩) (fun b q => updne _ _ _ q)
  case loopMain a x q hx hm =>
    exact h.quiet hD a _ rfl (fun _ => rfl) rfl rfl rfl rfl .inl id (Nat.le_refl _) (.inr ⟨by rw [q]; rfl, by simp only [upeq]; rfl⟩) (fun b q => updne _ _ _ q)
  case openCb a v q =>
    exact h.quiet hD a _ rfl (fun _ => rfl) rfl rfl rfl rfl .inl id (Nat.le_refl _) (.inr ⟨by rw [q]; rfl, by simp only [upeq]; rfl⟩) (fun b q => updne _ _ _ q)
  case mainCb a v q =>
    exact h.quiet hD a _ rfl (fun _ => rfl) rfl rfl rfl rfl .inl id (Nat.le_refl _) (.inr ⟨by rw [q]; rfl, by simp only [upeq]; rfl⟩) (fun b q => updne _ _ _ q)
  case mainOut a v q =>
    exact h.quiet hD a _ rfl (fun _ => rfl) rfl rfl rfl rfl .inl id (Nat.le_refl _) (.inr ⟨by rw [q]; rfl, by simp only [upeq]; rfl⟩) (fun b q => updne _ _ _ q)
  case post a v q =>
    exact h.quiet hD a [] (by simp) (fun _ => rfl) rfl rfl rfl rfl .inl (by simp only [upd]; grind) (Nat.le_refl _) (.inr ⟨by rw [q]; rfl, by simp only [upeq]; rfl⟩) (fun b q => updne _ _ _ q)
  case leave => exact h.quiet hD .opn _ rfl (fun _ => rfl) rfl rfl rfl rfl .inl id (Nat.le_refl _) (.inl rfl) (fun b q => rfl)
  case refire => exact h.quiet hD .opn _ rfl (fun _ => rfl) rfl rfl rfl rfl .inl id (Nat.le_refl _) (.inl rfl) (fun b q => rfl)
  case die => exact h.quiet hD .opn _ rfl (fun _ => rfl) rfl rfl rfl rfl .inl (by simp only [Bool.and_eq_true]; exact And.left) (Nat.le_refl _) (.inl rfl) (fun b q => rfl)
  case unsub v hv =>
    refine h.quiet hD .opn _ rfl (fun _ => rfl) rfl rfl rfl rfl ?_ id (Nat.le_refl _) (.inl rfl) (fun b q => rfl)
    intro hr
    by_cases e : w = v
    · subst e; right; simp
    · left; simp [hr, e]
  case lockOpen a q hl hm =>
    by_cases e : w = s.next
    · obtain ⟨q0, q1, q2, q3, e4, e5, e3⟩ := h
      have hc : cbs w (s.log ++ [.created s.next, .opened s.next]) = .out := by rw [cbs_append, q0 (by omega)]; rfl
      have hns : s.seen w = false := by
        cases hs : s.seen w
        · rfl
        · have := hB.sl w (hB.sn w hs); omega
      have hnf : ∀ b, (upd s.pc a (Pc.openCb s.next) b).fly w = false := by
        intro b; simp only [upd]; split
        · rfl
        · cases hp : s.pc b with
          | deliv x v k st =>
            simp only [Pc.fly, decide_eq_false_iff_not]
            have := hB.td b v (by rw [hp]; cases k <;> simp [Pc.todo])
            omega
          | _ => rfl
      refine ⟨fun _ => hc, ?_, fun _ _ => hc, ?_, ?_, ?_, ?_⟩
      · intro b x k st hp; have := hnf b; simp only at hp; rw [hp] at this; simp [Pc.fly] at this
      · simp only [hc]; simp
      · intro hs; simp only [hns] at hs; cases hs
      · intro b hb; rw [hnf b] at hb; cases hb
      · intro hs; simp only [hns] at hs; cases hs
    · exact h.quiet hD a _ rfl (fun _ => rfl) rfl rfl rfl rfl .inl (by simp only [upd, if_neg e]; exact id) (Nat.le_succ _) (.inr ⟨by rw [q]; rfl, by simp only [upeq]; rfl⟩) (fun b q => updne _ _ _ q)
  case lockOpenOff a q hl hm =>
    by_cases e : w = s.next
    · obtain ⟨q0, q1, q2, q3, e4, e5, e3⟩ := h
      have hc : cbs w (s.log ++ [.created s.next]) = .out := by rw [cbs_append, q0 (by omega)]; rfl
      have hns : s.seen w = false := by
        cases hs : s.seen w
        · rfl
        · have := hB.sl w (hB.sn w hs); omega
      have hnf : ∀ b, (upd s.pc a (Pc.post s.next) b).fly w = false := by
        intro b; simp only [upd]; split
        · rfl
        · cases hp : s.pc b with
          | deliv x v k st =>
            simp only [Pc.fly, decide_eq_false_iff_not]
            have := hB.td b v (by rw [hp]; cases k <;> simp [Pc.todo])
            omega
          | _ => rfl
      refine ⟨fun _ => hc, ?_, fun _ _ => hc, ?_, ?_, ?_, ?_⟩
      · intro b x k st hp; have := hnf b; simp only at hp; rw [hp] at this; simp [Pc.fly] at this
      · simp only [hc]; simp
      · intro hs; simp only [hns] at hs; cases hs
      · intro b hb; rw [hnf b] at hb; cases hb
      · intro hs; simp only [hns] at hs; cases hs
    · exact h.quiet hD a _ rfl (fun _ => rfl) rfl rfl rfl rfl .inl (by simp only [upd, if_neg e]; exact id) (Nat.le_succ _) (.inr ⟨by rw [q]; rfl, by simp only [upeq]; rfl⟩) (fun b q => updne _ _ _ q)
  case sub v g1 g2 g3 g4 =>
    by_cases e : w = v
    · subst e
      obtain ⟨q0, q1, q2, q3, e4, e5, e3⟩ := h
      have hc : cbs w (s.log ++ [.sub w]) = cbs w s.log := by rw [cbs_append]; rfl
      have hn : .sub w ∉ s.log := by rw [hD.ds, g3]; simp
      have hDu : due w (s.log ++ [.sub w]) = [] := by rw [due_out _ _ _ hn]; simp [due, feds]
      have hG : gots w (s.log ++ [.sub w]) = [] := by rw [gots_append, (hD.d0 g3).1]; rfl
      refine ⟨?_, ?_, ?_, ?_, ?_, ?_, ?_⟩
      · simp only [hc]; exact q0
      · simp only [hc]; exact q1
      · simp only [hc]; exact q2
      · simp only [hc]; exact q3
      · intro _ _ _; simp
      · intro _ _ _; simp
      · intro _ _ _; simp only [hDu, hG]
    · refine h.quiet hD .opn _ rfl (fun _ => rfl) rfl rfl (by simp [due, show ¬ v = w from fun q => e q.symm]) (by simp [upd, e]) (fun q => .inl (by simp [q])) id (Nat.le_refl _) (.inl rfl) (fun b q => rfl)
  case giveOn a x v k hg hv hr =>
    by_cases e : v = w
    · subst e
      obtain ⟨q0, q1, q2, q3, e4, e5, e3⟩ := h
      have hfa : (upd s.pc a (Pc.deliv x v k .chk) a).fly v = true := by simp [upd, Pc.fly]
      have hno : ∀ b, (s.pc b).fly v = false := by
        intro b
        by_cases e : b = a
        · subst e; exact gfl hg
        · cases hf : (s.pc b).fly v
          · rfl
          · exact absurd (one' b a (by simp only [updne a b _ e]; exact hf) hfa) e
      have hc : cbs v (s.log ++ [.fed a v x]) = .out := by rw [cbs_append, q2 hv hno]; rfl
      refine ⟨fun _ => hc, ?_, fun _ _ => hc, ?_, ?_, ?_, ?_⟩
      · intro b y k' st hp
        have : b = a := one' b a (by simp only at hp; simp only [hp, Pc.fly, decide_true]) hfa
        subst this
        simp only [upeq] at hp
        cases hp
        exact hc
      · simp only [hc]; simp
      · intro _ _ _; exact hr
      · intro _ _ _; exact hr
      · intro _ _ hn; have := hn a; simp [upd, Pc.fl] at this
    · have e' : ¬ w = v := fun q => e q.symm
      exact h.quiet hD a _ rfl (fun _ => rfl) (by simp [feds, e]) rfl rfl rfl .inl (by simp only [upd, if_neg e']; exact id) (Nat.le_refl _) (.inr ⟨gfl hg, by simp [upeq, Pc.fly, e]⟩) (fun b q => updne _ _ _ q)
  case giveOff a x v k hg hv hr =>
    by_cases e : v = w
    · subst e
      obtain ⟨q0, q1, q2, q3, e4, e5, e3⟩ := h
      have hc : cbs v (s.log ++ [.fed a v x] ++ contEv v k) = cbs v s.log := by rw [cbs_append, cbs_contEv, cbs_append]; rfl
      have hfl : ∀ b, (upd s.pc a (cont x v k) b).fly v = (s.pc b).fly v := by
        intro b; simp only [upd]; split
        · next e => subst e; rw [cont_fly, gfl hg]
        · rfl
      have hun : .unsub v ∉ s.log ++ [.fed a v x] ++ contEv v k → .unsub v ∉ s.log := fun h q => h (by simp [q])
      refine ⟨?_, ?_, ?_, ?_, ?_, ?_, ?_⟩
      · simp only [hc]; exact q0
      · intro b y k' st hp
        simp only [hc]
        simp only [upd] at hp
        split at hp
        · have := cont_fly x v k v; rw [hp] at this; simp [Pc.fly] at this
        · exact q1 b y k' st hp
      · intro _ hn; simp only [hfl] at hn; simp only [hc]; exact q2 hv hn
      · simp only [hc]; exact q3
      · intro hs _ h; exact e4 hs hv (hun h)
      · intro b hb h; simp only [hfl] at hb; exact e5 b hb (hun h)
      · intro hs h; exact absurd (e4 hs hv (hun h)) hr
    · have e' : ¬ w = v := fun q => e q.symm
      exact h.quiet hD a _ (List.append_assoc _ _ _) (by intro c; simp [cbStep, cbs_contEv]) (by simp [feds, e, feds_contEv]) (gots_contEv _ _ _) (due_contEv _ _ _) rfl .inl (by simp only [upd, if_neg e']; exact id) (Nat.le_refl _) (.inr ⟨gfl hg, by simp only [upeq]; exact cont_fly _ _ _ _⟩) (fun b q => updne _ _ _ q)
  case chk a x v k q hr =>
    by_cases e : v = w
    · subst e
      obtain ⟨q0, q1, q2, q3, e4, e5, e3⟩ := h
      have hfl : ∀ b, (upd s.pc a (Pc.deliv x v k .go) b).fly v = (s.pc b).fly v := by
        intro b; simp only [upd]; split
        · next e => subst e; rw [q]; rfl
        · rfl
      refine ⟨q0, ?_, ?_, q3, e4, ?_, ?_⟩
      · intro b y k' st hp
        simp only [upd] at hp
        split at hp
        · cases hp; exact q1 a x k .chk q
        · exact q1 b y k' st hp
      · intro hl hn; simp only [hfl] at hn; exact q2 hl hn
      · intro b hb; simp only [hfl] at hb; exact e5 b hb
      · intro _ _ hn; have := hn a; simp [upd, Pc.fl] at this
    · exact h.quiet hD a [] (by simp) (fun _ => rfl) rfl rfl rfl rfl .inl id (Nat.le_refl _) (.inr ⟨by rw [q]; simp [Pc.fly, e], by simp [upeq, Pc.fly, e]⟩) (fun b q => updne _ _ _ q)
  case chkOff a x v k q hr =>
    by_cases e : v = w
    · subst e
      obtain ⟨q0, q1, q2, q3, e4, e5, e3⟩ := h
      have hc : cbs v (s.log ++ contEv v k) = .out := by rw [cbs_append, cbs_contEv, q1 a x k .chk q]; rfl
      have hfa : (s.pc a).fly v = true := by rw [q]; simp [Pc.fly]
      have hno : ∀ b, (upd s.pc a (cont x v k) b).fly v = false := by
        intro b; simp only [upd]; split
        · exact cont_fly _ _ _ _
        · next e =>
          cases hf : (s.pc b).fly v
          · rfl
          · exact absurd (one b a hf hfa) e
      have hu : ∀ {P : Prop}, .unsub v ∉ s.log ++ contEv v k → P := by
        intro P h
        exact absurd (e5 a hfa (fun q => h (List.mem_append_left _ q))) hr
      refine ⟨fun _ => hc, ?_, fun _ _ => hc, ?_, ?_, ?_, ?_⟩
      · intro b y k' st hp; have := hno b; simp only at hp; rw [hp] at this; simp [Pc.fly] at this
      · simp only [hc]; simp
      · intro _ _ h; exact hu h
      · intro _ _ h; exact hu h
      · intro _ h; exact hu h
    · exact h.quiet hD a _ rfl (cbs_contEv _ _ _) (feds_contEv _ _ _) (gots_contEv _ _ _) (due_contEv _ _ _) rfl .inl id (Nat.le_refl _) (.inr ⟨by rw [q]; simp [Pc.fly, e], by simp only [upeq]; exact cont_fly _ _ _ _⟩) (fun b q => updne _ _ _ q)
  case go a x v k q =>
    by_cases e : v = w
    · subst e
      obtain ⟨q0, q1, q2, q3, e4, e5, e3⟩ := h
      have hfa : (s.pc a).fly v = true := by rw [q]; simp [Pc.fly]
      have hfla : (s.pc a).fl (fun _ => true) v = some x := by rw [q]; simp [Pc.fl]
      have hc : cbs v (s.log ++ [.got v x]) = Stage.cb x .inn := by
        rw [cbs_append, q1 a x k .go q]
        simp [cbStep, Stage.cb]
      have hseen : s.seen v = true := by
        cases hs : s.seen v
        · have := hD.df hs a; rw [hfla] at this; cases this
        · rfl
      have hDu : due v (s.log ++ [.got v x]) = due v s.log := by rw [due_in _ _ _ (hD.ds.mpr hseen)]; simp [feds]
      have hG : gots v (s.log ++ [.got v x]) = gots v s.log ++ [x] := by rw [gots_append]; simp [gots]
      have hfl : ∀ b, (upd s.pc a (Pc.deliv x v k .inn) b).fly v = (s.pc b).fly v := by
        intro b; simp only [upd]; split
        · next e => subst e; rw [q]; rfl
        · rfl
      have hu : .unsub v ∉ s.log ++ [.got v x] → .unsub v ∉ s.log := fun h q => h (List.mem_append_left _ q)
      refine ⟨?_, ?_, ?_, ?_, ?_, ?_, ?_⟩
      · intro hl
        have := hB.td a v (by rw [q]; cases k <;> simp [Pc.todo])
        simp only at hl; omega
      · intro b y k' st hp
        have : b = a := by
          refine one b a ?_ hfa
          rw [← hfl b]; simp only at hp; rw [hp]; simp [Pc.fly]
        subst this
        simp only [upeq] at hp; cases hp
        exact hc
      · intro _ hn; have := hn a; simp [upd, Pc.fly] at this
      · simp only [hc, Stage.cb]; split <;> simp
      · intro hs hl h; exact e4 hs hl (hu h)
      · intro b _ h; exact e5 a hfa (hu h)
      · intro _ h _
        have := hD.d1 (e5 a hfa (hu h)) a x hfla
        have ft : ∀ l : List (Item α ε), l.filter (fun _ => true) = l := fun l => by simp
        rw [ft, ft] at this
        simp only [hDu, hG, this]
    · exact h.quiet hD a _ rfl (by intro c; simp [cbStep, e]) rfl (by simp [gots, e]) rfl rfl .inl id (Nat.le_refl _) (.inr ⟨by rw [q]; simp [Pc.fly, e], by simp [upeq, Pc.fly, e]⟩) (fun b q => updne _ _ _ q)
  case innT a x v k q hx =>
    by_cases e : v = w
    · subst e
      obtain ⟨q0, q1, q2, q3, e4, e5, e3⟩ := h
      have hfa : (s.pc a).fly v = true := by rw [q]; simp [Pc.fly]
      have hc : cbs v (s.log ++ .ret v :: contEv v k) = .over := by
        rw [cbs_append, q1 a x k .inn q]
        simp [cbStep, Stage.cb, hx, cbs_contEv]
      have hno : ∀ b, (upd s.pc a (cont x v k) b).fly v = false := by
        intro b; simp only [upd]; split
        · exact cont_fly _ _ _ _
        · next e =>
          cases hf : (s.pc b).fly v
          · rfl
          · exact absurd (one b a hf hfa) e
      have hnl : ∀ b, (s.pc b).fl (fun _ => true) v = none := by
        intro b
        cases hf : (s.pc b).fl (fun _ => true) v with
        | none => rfl
        | some y =>
          have := one b a (fl_fly hf) hfa
          subst this
          rw [q] at hf; cases hf
      have hG : gots v (s.log ++ .ret v :: contEv v k) = gots v s.log := by rw [gots_append]; simp [gots, gots_contEv]
      have hDu : due v (s.log ++ .ret v :: contEv v k) = due v s.log := by
        by_cases hs : .sub v ∈ s.log
        · rw [due_in _ _ _ hs]; simp [feds, feds_contEv]
        · rw [due_out _ _ _ hs, due_none _ _ hs]; simp [due, due_contEv]
      have hun : .unsub v ∉ s.log ++ .ret v :: contEv v k → .unsub v ∉ s.log := fun h q => h (List.mem_append_left _ q)
      have hlv := (hB.cl a v (by rw [q]; simp [Pc.ends, hx])).1
      refine ⟨?_, ?_, ?_, ?_, ?_, ?_, ?_⟩
      · intro hl; have := hB.td a v (by rw [q]; cases k <;> simp [Pc.todo]); simp only at hl; omega
      · intro b y k' st hp; have := hno b; simp only at hp; rw [hp] at this; simp [Pc.fly] at this
      · intro hl; simp only [hlv] at hl; cases hl
      · simp only [hc]; simp
      · intro _ hl; simp only [hlv] at hl; cases hl
      · intro b hb; simp only [hno] at hb; cases hb
      · intro hs h _; simp only [hG, hDu]; exact e3 hs (hun h) hnl
    · have e' : ¬ w = v := fun q => e q.symm
      exact h.quiet hD a _ rfl (by intro c; simp [cbStep, e, cbs_contEv]) (feds_contEv _ _ _) (gots_contEv _ _ _) (due_contEv _ _ _) rfl (fun hr => .inl (by simp [hr, e'])) id (Nat.le_refl _) (.inr ⟨by rw [q]; simp [Pc.fly, e], by simp only [upeq]; exact cont_fly _ _ _ _⟩) (fun b q => updne _ _ _ q)
  case innV a x v k q hx =>
    by_cases e : v = w
    · subst e
      obtain ⟨q0, q1, q2, q3, e4, e5, e3⟩ := h
      have hfa : (s.pc a).fly v = true := by rw [q]; simp [Pc.fly]
      have hc : cbs v (s.log ++ .ret v :: contEv v k) = .out := by
        rw [cbs_append, q1 a x k .inn q]
        simp [cbStep, Stage.cb, hx, cbs_contEv]
      have hno : ∀ b, (upd s.pc a (cont x v k) b).fly v = false := by
        intro b; simp only [upd]; split
        · exact cont_fly _ _ _ _
        · next e =>
          cases hf : (s.pc b).fly v
          · rfl
          · exact absurd (one b a hf hfa) e
      have hnl : ∀ b, (s.pc b).fl (fun _ => true) v = none := by
        intro b
        cases hf : (s.pc b).fl (fun _ => true) v with
        | none => rfl
        | some y =>
          have := one b a (fl_fly hf) hfa
          subst this
          rw [q] at hf; cases hf
      have hG : gots v (s.log ++ .ret v :: contEv v k) = gots v s.log := by rw [gots_append]; simp [gots, gots_contEv]
      have hDu : due v (s.log ++ .ret v :: contEv v k) = due v s.log := by
        by_cases hs : .sub v ∈ s.log
        · rw [due_in _ _ _ hs]; simp [feds, feds_contEv]
        · rw [due_out _ _ _ hs, due_none _ _ hs]; simp [due, due_contEv]
      have hun : .unsub v ∉ s.log ++ .ret v :: contEv v k → .unsub v ∉ s.log := fun h q => h (List.mem_append_left _ q)
      refine ⟨?_, ?_, ?_, ?_, ?_, ?_, ?_⟩
      · intro hl; have := hB.td a v (by rw [q]; cases k <;> simp [Pc.todo]); simp only at hl; omega
      · intro b y k' st hp; have := hno b; simp only at hp; rw [hp] at this; simp [Pc.fly] at this
      · intro _ _; exact hc
      · simp only [hc]; simp
      · intro hs hl h; exact e4 hs hl (hun h)
      · intro b hb; simp only [hno] at hb; cases hb
      · intro hs h _; simp only [hG, hDu]; exact e3 hs (hun h) hnl
    · exact h.quiet hD a _ rfl (by intro c; simp [cbStep, e, cbs_contEv]) (feds_contEv _ _ _) (gots_contEv _ _ _) (due_contEv _ _ _) rfl .inl id (Nat.le_refl _) (.inr ⟨by rw [q]; simp [Pc.fly, e], by simp only [upeq]; exact cont_fly _ _ _ _⟩) (fun b q => updne _ _ _ q)

theorem invQ_init (w : Nat) : InvQ w ({} : St α ε) :=
  ⟨fun _ => rfl, by simp, by simp, by simp [cbs], by simp, by simp [Pc.fly], by simp⟩

/-- All of it, for a window whose closing kept apart. -/
theorem invApart (ls : List (Lbl α ε)) (w : Nat) (h : apart w (exec ls).log = true) :
    InvD (fun _ => true) w (exec ls) ∧ InvQ w (exec ls) := by
  have key : (InvA (exec ls) ∧ InvB (exec ls) ∧ Busy w (exec ls)) ∧
      (∀ b, busy w (exec ls).log = some b → InvD (fun _ => true) w (exec ls) ∧ InvQ w (exec ls)) := by
    refine exec_induct (P := fun s => (InvA s ∧ InvB s ∧ Busy w s) ∧ (∀ b, busy w s.log = some b → InvD (fun _ => true) w s ∧ InvQ w s)) ?_ ?_ ls
    · exact ⟨⟨invA [], invB [], ⟨by simp [Pc.item], by simp [Pc.closing]⟩⟩, fun _ _ => ⟨invD_init _ _, invQ_init _⟩⟩
    · intro s s' h t
      obtain ⟨⟨hA, hB, hY⟩, hQ⟩ := h
      have hA' := hA.tr t
      have hB' := hB.tr hA t
      have hY' := hY.tr hA t
      refine ⟨⟨hA', hB', hY'⟩, ?_⟩
      intro b hb
      obtain ⟨es, hl, _⟩ := tr_log t
      obtain ⟨b0, hb0⟩ := busy_some (hl ▸ hb)
      obtain ⟨hD, hq⟩ := hQ b0 hb0
      have o : One (fun _ => true) w s := fun a a' x y h1 h2 => fly_one hY hA hb0 (fl_fly h1) (fl_fly h2)
      have o' : One (fun _ => true) w s' := fun a a' x y h1 h2 => fly_one hY' hA' hb (fl_fly h1) (fl_fly h2)
      have hD' := hD.tr o o' t
      exact ⟨hD', hq.tr hA hB hY hD hb hD' hY' hA' t⟩
  simp only [apart] at h
  obtain ⟨b, hb⟩ := Option.isSome_iff_exists.mp h
  exact key.2 b hb

/-! ## At most one terminal callback, in every schedule -/

/-- Invariant of the proofs; models no code. -/
structure InvT (w : Nat) (s : St α ε) : Prop where
  t1 : s.live w = true → (gots w s.log).countP Item.term = 0
  t0 : s.next ≤ w → (gots w s.log).countP Item.term = 0
  t2 : ∀ a b x y, (s.pc a).fl Item.term w = some x → (s.pc b).fl Item.term w = some y → a = b
  t3 : ∀ a x, (s.pc a).fl Item.term w = some x → (gots w s.log).countP Item.term = 0
  t4 : (gots w s.log).countP Item.term ≤ 1

theorem fl_ends {w : Nat} {c : Pc α ε} {x} (h : c.fl Item.term w = some x) : c.ends = some w := by
  cases c <;> simp_all [Pc.fl, Pc.ends]
  rename_i st; cases st <;> grind

theorem InvT.tr {w : Nat} {s s' : St α ε} (h : InvT w s) (hA : InvA s) (hB : InvB s) (t : Tr s s') : InvT w s' := by
  obtain ⟨t1, t0, t2, t3, t4⟩ := h
  have cl : ∀ a x, (s.pc a).fl Item.term w = some x → s.live w = false := fun a x h => (hB.cl a w (fl_ends h)).1
  have lv := hB.lv w
  have td : ∀ a, w ∈ (s.pc a).todo → w < s.next := fun a => hB.td a w
  clear hA hB
  generalize hc : (gots w s.log).countP Item.term = c at *
  cases t
  case giveOn a x v k hg h1 h2 =>
    have : (s.pc a).fl Item.term w = none := by rcases gives_eq hg with ⟨r, hp, rfl⟩ | ⟨hp, rfl, rfl⟩ <;> rw [hp] <;> rfl
    constructor <;> simp only [upd, gots_append, gots, List.countP_append, List.countP_nil, hc, Nat.add_zero] at * <;> grind [Pc.fl]
  case giveOff a x v k hg h1 h2 =>
    have : (s.pc a).fl Item.term w = none := by rcases gives_eq hg with ⟨r, hp, rfl⟩ | ⟨hp, rfl, rfl⟩ <;> rw [hp] <;> rfl
    constructor <;> simp only [upd, gots_append, gots, gots_contEv, List.countP_append, List.countP_nil, hc, Nat.add_zero] at * <;> grind [fl_cont]
  case giveNot a x v k hg h1 =>
    have : (s.pc a).fl Item.term w = none := by rcases gives_eq hg with ⟨r, hp, rfl⟩ | ⟨hp, rfl, rfl⟩ <;> rw [hp] <;> rfl
    constructor <;> simp only [upd, gots_append, gots, gots_contEv, List.countP_append, List.countP_nil, hc, Nat.add_zero] at * <;> grind [fl_cont]
  case go a x v k hp =>
    have : v = w → w < s.next := fun e => td a (by rw [hp]; cases k <;> simp [Pc.todo, e])
    by_cases e : v = w
    · have hf : x.term = true → (s.pc a).fl Item.term w = some x := fun hx => by rw [hp]; simp [Pc.fl, e, hx]
      have hf1 := fun hx => cl a x (hf hx)
      have hf2 := fun hx => t3 a x (hf hx)
      constructor <;> simp only [upd, gots_append, gots, List.countP_append, List.countP_nil, List.countP_cons, hc, Nat.add_zero, if_pos e] at * <;> grind [Pc.fl]
    · constructor <;> simp only [upd, gots_append, gots, List.countP_append, List.countP_nil, hc, Nat.add_zero, if_neg e] at * <;> grind [Pc.fl]
  case innT a x v k hp hx =>
    constructor <;> simp only [upd, gots_append, gots, gots_contEv, List.countP_append, List.countP_nil, hc, Nat.add_zero] at * <;> grind [fl_cont]
  case innV a x v k hp hx =>
    constructor <;> simp only [upd, gots_append, gots, gots_contEv, List.countP_append, List.countP_nil, hc, Nat.add_zero] at * <;> grind [fl_cont]
  case chkOff a x v k hp hx =>
    constructor <;> simp only [upd, gots_append, gots, gots_contEv, List.countP_append, List.countP_nil, hc, Nat.add_zero] at * <;> grind [fl_cont]
  all_goals
    constructor <;> simp only [upd, gots_append, gots, List.countP_append, List.countP_nil, hc, Nat.add_zero] at * <;> grind [Pc.fl]

theorem invT (ls : List (Lbl α ε)) (w : Nat) : InvT w (exec ls) :=
  (exec_induct (P := fun s => InvA s ∧ InvB s ∧ InvT w s)
    ⟨invA [], invB [], by constructor <;> simp [gots, Pc.fl]⟩
    (fun _ _ h t => ⟨h.1.tr t, h.2.1.tr h.1 t, h.2.2.tr h.1 h.2.1 t⟩) ls).2.2

end Rpp.Win.Toggle
