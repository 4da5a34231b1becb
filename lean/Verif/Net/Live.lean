import Verif.Net.JoinLive
import Verif.Net.RestProofs

/-! A whole expression can always come to rest. -/

namespace Rpp.Net

open Comb (Sig)

variable {ε : Type}

/-- Not the disposal of the observer from outside; a test on the label. -/
def FlatAct.safe : FlatAct → Bool
  | .gone => false
  | _ => true

/-- Nobody disposes of anything from outside (other than because a sequence has ended); a test on the label. -/
def Net.tidy : {γ : Type} → (n : Net ε γ) → n.Lbl → Bool
  | _, .src _, .call _ => true
  | _, .join _ _ _, .push _ => true
  | _, .join j _ _, .act a => j.safe a
  | _, .join _ kids _, .kid i l => (kids i).tidy l
  | _, .flat _ _ _ _, .outer => true
  | _, .flat _ _ _ _, .inner _ => true
  | _, .flat _ _ _ _, .merge a => a.safe
  | _, .flat _ q _ _, .inSrc l => q.tidy l
  | _, .flat _ _ f _, .inKid _ x l => (f x).tidy l
  | _, .follow _ _ _ _, .hear => true
  | _, .follow _ _ _ _, .drop => false
  | _, .follow _ ks _ _, .inOne i l => (ks i).tidy l

/-- A step of the operators and the subscriber, not of a source, and no disposal; a test on the label. -/
def Net.inner : {γ : Type} → (n : Net ε γ) → n.Lbl → Bool
  | _, .src _, .call _ => false
  | _, .join _ _ _, .push _ => true
  | _, .join j _ _, .act a => j.safe a
  | _, .join _ kids _, .kid i l => (kids i).inner l
  | _, .flat _ _ _ _, .outer => true
  | _, .flat _ _ _ _, .inner _ => true
  | _, .flat _ _ _ _, .merge a => a.safe
  | _, .flat _ q _ _, .inSrc l => q.inner l
  | _, .flat _ _ f _, .inKid _ x l => (f x).inner l
  | _, .follow _ _ _ _, .hear => true
  | _, .follow _ _ _ _, .drop => false
  | _, .follow _ ks _ _, .inOne i l => (ks i).inner l

theorem inner_tidy : {γ : Type} → (n : Net ε γ) → (l : n.Lbl) → n.inner l = true → n.tidy l = true
  | _, .src _, .call _, h => nomatch h
  | _, .join _ _ _, .push _, _ => rfl
  | _, .join _ _ _, .act _, h => h
  | _, .join _ kids _, .kid i l, h => inner_tidy (kids i) l h
  | _, .flat _ _ _ _, .outer, _ => rfl
  | _, .flat _ _ _ _, .inner _, _ => rfl
  | _, .flat _ _ _ _, .merge _, h => h
  | _, .flat _ q _ _, .inSrc l, h => inner_tidy q l h
  | _, .flat _ _ f _, .inKid _ x l, h => inner_tidy (f x) l h
  | _, .follow _ _ _ _, .hear, _ => rfl
  | _, .follow _ _ _ _, .drop, h => nomatch h
  | _, .follow _ ks _ _, .inOne i l, h => inner_tidy (ks i) l h

/-! ## Nobody is cut off -/

theorem hub_cut {α β σ : Type} (H : Comb.Hub α β ε σ) (s : Comb.St α β ε σ) (l : Comb.Lbl α ε) (hl : l ≠ .gone) (h : .gone ∉ s.log) :
    .gone ∉ (Comb.step H s l).log := by
  have emit : ∀ (s' : Comb.St α β ε σ) ev, ev ≠ .gone → .gone ∉ s'.log → .gone ∉ (s'.emit ev).log := by
    intro s' ev he hs hm
    rcases List.mem_append.1 hm with hm | hm
    · exact hs hm
    · simp at hm; exact he hm.symm
  have proc : ∀ i c ev, ev ≠ .gone → .gone ∉ (s.process H i c ev).log := by
    intro i c ev he
    unfold Comb.St.process
    simp only
    split
    · split <;> exact emit _ _ he h
    · split
      · exact h
      · split <;> exact emit _ _ he h
  cases l with
  | next i v => simp only [Comb.step]; split <;> first | exact h | exact emit _ _ (by simp) h
  | term i t => simp only [Comb.step]; split <;> first | exact h | exact emit _ _ (by simp) h
  | opn k => simp only [Comb.step]; split <;> first | exact h | exact emit _ _ (by simp) h
  | run i =>
    simp only [Comb.step, Comb.St.advance]
    split <;> first | exact h | skip
    · exact proc _ _ _ (by simp)
    · split
      · exact h
      · exact proc _ _ _ (by simp)
    · split <;> exact h
    · split
      · exact h
      · exact emit _ _ (by simp) h
    · split
      · exact h
      · exact emit _ _ (by simp) h
  | ret i r => simp only [Comb.step]; split <;> first | exact h | exact emit _ _ (by simp) h
  | gone => exact absurd rfl hl
  | shut => simp only [Comb.step]; split <;> exact h

theorem delay_cut {α : Type} (d : Nat) (s : Time.Delay.St α ε) (l : Time.Delay.Lbl α ε) (hl : l ≠ .dispose) (h : .gone ∉ s.log) :
    .gone ∉ (Time.Delay.step false d s l).log := by
  have emit : ∀ (s' : Time.Delay.St α ε) ev, ev ≠ .gone → .gone ∉ s'.log → .gone ∉ (s'.emit ev).log := by
    intro s' ev he hs hm
    rcases List.mem_append.1 hm with hm | hm
    · exact hs hm
    · simp at hm; exact he hm.symm
  cases l with
  | tick k => exact h
  | dispose => exact absurd rfl hl
  | arrive i x => simp only [Time.Delay.step]; split <;> first | exact h | (split <;> exact h)
  | call i =>
    simp only [Time.Delay.step, Time.Delay.stepCall]
    split
    · exact h
    · split
      · exact h
      · unfold Time.Delay.St.emplace
        split <;> exact emit _ _ (by simp) h
    · exact h
    · split
      · exact h
      · exact emit _ _ (by simp) h
    · exact emit _ _ (by simp) h
  | task t =>
    simp only [Time.Delay.step, Time.Delay.stepTask]
    split
    · exact h
    · exact h
    · exact h
    · split
      · exact h
      · split
        · exact h
        · split
          · exact h
          · exact emit _ _ (by simp) h
    · split
      · exact emit _ _ (by simp) h
      · exact emit _ _ (by simp) h
    · exact emit _ _ (by simp) (emit _ _ (by simp) h)

theorem hubMachine_cut {α β σ : Type} (H : Comb.Hub α β ε σ) (n : Nat) (port : Nat → Nat) (s : Comb.St α β ε σ) (h : .gone ∉ s.log) :
    (∀ a : HubAct, a.safe = true → .gone ∉ Comb.St.log (α := α) (β := β) (ε := ε) (σ := σ) ((hubMachine H n port).act s a)) ∧
    ∀ i x, .gone ∉ Comb.St.log (α := α) (β := β) (ε := ε) (σ := σ) ((hubMachine H n port).feed s i x) := by
  refine ⟨fun a ha => ?_, fun i x => ?_⟩
  · cases a with
    | run i => exact hub_cut H s _ (by simp) h
    | ret i => exact hub_cut H s _ (by simp) h
    | gone => cases ha
    | shut => exact hub_cut H s _ (by simp) h
    | opn k =>
      suffices hh : ∀ s' : Comb.St α β ε σ, s' = Comb.step H s (.opn (port k)) ∨ s' = s → .gone ∉ s'.log by
        refine hh _ ?_
        show (if k < n then Comb.step H s (.opn (port k)) else s) = _ ∨ (if k < n then Comb.step H s (.opn (port k)) else s) = _
        by_cases hk : k < n
        · rw [if_pos hk]; exact .inl rfl
        · rw [if_neg hk]; exact .inr rfl
      rintro s' (rfl | rfl)
      · exact hub_cut H s _ (by simp) h
      · exact h
    | outer =>
      suffices hh : ∀ s' : Comb.St α β ε σ, s' = Comb.step H s (.term 0 .completed) ∨ s' = s → .gone ∉ s'.log by
        refine hh _ ?_
        show (if H.dyn && (List.range n).all (fun k => s.active (port k)) then Comb.step H s (.term 0 .completed) else s) = _ ∨
          (if H.dyn && (List.range n).all (fun k => s.active (port k)) then Comb.step H s (.term 0 .completed) else s) = _
        by_cases hk : (H.dyn && (List.range n).all (fun k => s.active (port k))) = true
        · rw [if_pos hk]; exact .inl rfl
        · rw [if_neg hk]; exact .inr rfl
      rintro s' (rfl | rfl)
      · exact hub_cut H s _ (by simp) h
      · exact h
  · cases x with
    | next v => exact hub_cut H s _ (by simp [lbl]) h
    | term t => exact hub_cut H s _ (by simp [lbl]) h

theorem join_cut : {α β : Type} → (j : Join ε α β) → (s : j.machine.S) → ¬ j.Cut s →
    (∀ a, j.safe a = true → ¬ j.Cut (j.machine.act s a)) ∧ ∀ i x, ¬ j.Cut (j.machine.feed s i x)
  | _, _, .merge _, s, h => hubMachine_cut _ _ _ s h
  | _, _, .zip _ _, s, h => hubMachine_cut _ _ _ s h
  | _, _, .combineLatest _ _, s, h => hubMachine_cut _ _ _ s h
  | _, _, .withLatest _ _, s, h => hubMachine_cut _ _ _ s h
  | _, _, .takeUntil, s, h => hubMachine_cut _ _ _ s h
  | _, _, .delay d, s, h => by
    refine ⟨fun (a : DelayAct) ha => ?_, fun i x => delay_cut d s.1 _ (by simp) h⟩
    cases a with
    | call => exact delay_cut d s.1 _ (by simp) h
    | task t => exact delay_cut d s.1 _ (by simp) h
    | tick k => exact delay_cut d s.1 _ (by simp) h
    | dispose => cases ha

theorem init_cut : {α β : Type} → (j : Join ε α β) → ¬ j.Cut j.machine.init
  | _, _, .merge _ => fun h => nomatch h
  | _, _, .zip _ _ => fun h => nomatch h
  | _, _, .combineLatest _ _ => fun h => nomatch h
  | _, _, .withLatest _ _ => fun h => nomatch h
  | _, _, .takeUntil => fun h => nomatch h
  | _, _, .delay _ => fun h => nomatch h

/-- No operator of the expression is disposed of. -/
def Whole : {γ : Type} → (n : Net ε γ) → n.State → Prop
  | _, .src _, _ => True
  | _, .join j kids _, s => ¬ j.Cut s.1 ∧ ∀ i, Whole (kids i) (s.2 i)
  | _, .flat _ q f _, s => .gone ∉ s.1.log ∧ Whole q s.2.1 ∧ ∀ (k : Nat) z, s.2.2[k]? = some z → Whole (f z.1) z.2
  | _, .follow _ ks _ _, s => s.1.gone = false ∧ ∀ i, Whole (ks i) (s.2 i)

theorem whole_init : {γ : Type} → (n : Net ε γ) → Whole n n.init
  | _, .src _ => trivial
  | _, .join j kids _ => ⟨init_cut j, fun i => whole_init (kids i)⟩
  | _, .flat _ q _ _ => ⟨(fun h => nomatch h), whole_init q, fun k z hk => by cases hk⟩
  | _, .follow _ ks _ _ => ⟨rfl, fun i => whole_init (ks i)⟩

theorem push_gone {α : Type} (sw : List (Term ε) → Term ε → Bool) (s : FollowSt α ε) (o : Trace α ε) : (pushFollow sw s o).gone = s.gone := by
  unfold pushFollow
  split
  · next x _ =>
    cases x with
    | next v => rfl
    | term t => unfold hear; simp only; split <;> rfl
  · rfl

theorem whole_step : {γ : Type} → (n : Net ε γ) → (s : n.State) → Whole n s → (l : n.Lbl) → n.tidy l = true → Whole n (n.step s l)
  | _, .src _, _, _, .call _, _ => trivial
  | _, .join j kids p, s, h, .push i, _ => by
    refine ⟨?_, h.2⟩
    show ¬ j.Cut (push j.machine s.1 i ((kids i).seq (s.2 i)))
    unfold push
    split
    · split
      · exact (join_cut j s.1 h.1).2 _ _
      · exact h.1
    · exact h.1
  | _, .join j kids p, s, h, .act a, ha => ⟨(join_cut j s.1 h.1).1 a ha, h.2⟩
  | _, .join j kids p, s, h, .kid i l, hl => by
    refine ⟨h.1, fun k => ?_⟩
    show Whole (kids k) (setKid s.2 i ((kids i).step (s.2 i) l) k)
    unfold setKid
    by_cases hk : i = k
    · subst hk
      simp only [dif_pos]
      exact whole_step (kids i) _ (h.2 i) l hl
    · simp only [hk, dif_neg, not_false_eq_true]
      exact h.2 k
  | _, .flat eq q f p, s, h, .outer, _ => by
    show Whole (.flat eq q f p) ((pushOuter s.1 (s.2.2.map (·.1)) s.2.2 (fun x => ⟨x, (f x).init⟩) (q.seq s.2.1)).1, s.2.1,
      (pushOuter s.1 (s.2.2.map (·.1)) s.2.2 (fun x => ⟨x, (f x).init⟩) (q.seq s.2.1)).2)
    unfold pushOuter
    split
    · next x _ =>
      refine ⟨hub_cut _ _ _ (by simp) h.1, h.2.1, fun k z hk => ?_⟩
      have hk : (s.2.2 ++ [⟨x, (f x).init⟩])[k]? = some z := hk
      rw [List.getElem?_append] at hk
      split at hk
      · exact h.2.2 k z hk
      · rw [List.getElem?_singleton] at hk
        split at hk
        · cases hk; exact whole_init (f x)
        · cases hk
    · exact ⟨hub_cut _ _ _ (by simp) h.1, h.2⟩
    · exact h
  | _, .flat eq q f p, s, h, .inner k, _ => by
    show Whole (.flat eq q f p) (match s.2.2[k]? with | some z => pushInner s.1 k ((f z.1).seq z.2) | none => s.1, s.2)
    split
    · next z _ =>
      refine ⟨?_, h.2⟩
      rcases pushInner_cases s.1 k ((f z.1).seq z.2) with e | ⟨x, -, -, e⟩
      · simp only [e]; exact h.1
      · simp only [e]
        cases x with
        | next v => exact hub_cut _ _ _ (by simp [lbl]) h.1
        | term t => exact hub_cut _ _ _ (by simp [lbl]) h.1
    · exact h
  | _, .flat eq q f p, s, h, .merge a, ha => by
    refine ⟨?_, h.2⟩
    cases a with
    | run i => exact hub_cut _ _ _ (by simp) h.1
    | ret i => exact hub_cut _ _ _ (by simp) h.1
    | gone => cases ha
    | shut => exact hub_cut _ _ _ (by simp) h.1
  | _, .flat eq q f p, s, h, .inSrc l, hl => ⟨h.1, whole_step q _ h.2.1 l hl, h.2.2⟩
  | _, .flat eq q f p, s, h, .inKid k x l, hl => by
    refine ⟨h.1, h.2.1, fun j z hj => ?_⟩
    obtain ⟨w, hw, ⟨rfl, rfl⟩ | ⟨-, rfl⟩⟩ := modify_get hj
    · obtain ⟨y, w⟩ := w
      by_cases e : y = x
      · subst e; rw [stepAt_same]; exact whole_step (f y) w (h.2.2 j _ hw) l hl
      · rw [stepAt_ne _ _ _ e]; exact h.2.2 j _ hw
    · exact h.2.2 j z hw
  | _, .follow eq ks sw p, s, h, .hear, _ => ⟨(push_gone sw s.1 _).trans h.1, h.2⟩
  | _, .follow eq ks sw p, s, h, .drop, hl => nomatch hl
  | _, .follow eq ks sw p, s, h, .inOne i l, hl => by
    rcases inOne_cases eq ks sw p s i l with ⟨-, e⟩ | ⟨-, e⟩
    · rw [e]
      refine ⟨h.1, fun k => ?_⟩
      show Whole (ks k) (setKid s.2 i ((ks i).step (s.2 i) l) k)
      by_cases hk : i = k
      · subst hk; rw [setKid_same]; exact whole_step (ks i) _ (h.2 i) l hl
      · rw [setKid_ne _ _ _ _ hk]; exact h.2 k
    · rw [e]; exact h

theorem whole_kept : {γ : Type} → (n : Net ε γ) → (s : n.State) → Whole n s → n.Kept s
  | _, .src _, _, _ => trivial
  | _, .join _ kids _, s, h => fun _ => ⟨h.1, fun i _ => whole_kept (kids i) (s.2 i) (h.2 i)⟩
  | _, .flat _ q f _, s, h => fun _ => ⟨h.1, whole_kept q _ h.2.1, fun k z hk => whole_kept (f z.1) z.2 (h.2.2 k z hk)⟩
  | _, .follow _ ks _ _, s, h => fun _ => ⟨h.1, fun i _ => whole_kept (ks i) (s.2 i) (h.2 i)⟩

/-! ## Coming to rest -/

theorem setKid_self {I : Type} [DecidableEq I] {S : I → Type} (f : ∀ i, S i) (i : I) : setKid f i (f i) = f := by
  funext k
  by_cases h : i = k
  · subst h; exact setKid_same ..
  · exact setKid_ne _ _ _ _ h

theorem setKid_setKid {I : Type} [DecidableEq I] {S : I → Type} (f : ∀ i, S i) (i : I) (x y : S i) : setKid (setKid f i x) i y = setKid f i y := by
  funext k
  by_cases h : i = k
  · subst h; rw [setKid_same, setKid_same]
  · rw [setKid_ne _ _ _ _ h, setKid_ne _ _ _ _ h, setKid_ne _ _ _ _ h]

theorem fold_kid {α β γ : Type} (j : Join ε α β) (kids : Nat → Net ε α) (p : Pipe ε β γ) (i : Nat) (ls : List (kids i).Lbl) :
    ∀ s : (Net.join j kids p).State, (ls.map (fun l => Net.Lbl.kid i l)).foldl (Net.join j kids p).step s =
      (s.1, setKid s.2 i (ls.foldl (kids i).step (s.2 i))) := by
  induction ls with
  | nil => intro s; exact congrArg (Prod.mk s.1) (setKid_self (S := fun i => (kids i).State) s.2 i).symm
  | cons l ls ih =>
    intro s
    refine (ih _).trans ?_
    refine congrArg (Prod.mk s.1) ?_
    show setKid (setKid s.2 i ((kids i).step (s.2 i) l)) i (ls.foldl (kids i).step (setKid s.2 i ((kids i).step (s.2 i) l) i)) = _
    rw [setKid_same, setKid_setKid]
    rfl

theorem fold_act {α β γ : Type} (j : Join ε α β) (kids : Nat → Net ε α) (p : Pipe ε β γ) (as : List j.machine.A) :
    ∀ s : (Net.join j kids p).State, (as.map (fun a => Net.Lbl.act a)).foldl (Net.join j kids p).step s = (as.foldl j.machine.act s.1, s.2) := by
  induction as with
  | nil => exact fun s => rfl
  | cons a as ih => exact fun s => ih _

theorem got_acts {α β : Type} (j : Join ε α β) (as : List j.machine.A) : ∀ s i, j.machine.got (as.foldl j.machine.act s) i = j.machine.got s i := by
  induction as with
  | nil => exact fun _ _ => rfl
  | cons a as ih => exact fun s i => (ih _ i).trans (by rw [((join_fair j).act s a).1])

theorem reach_acts {α β : Type} (j : Join ε α β) (as : List j.machine.A) : ∀ s, j.machine.Reach s → j.machine.Reach (as.foldl j.machine.act s) := by
  induction as with
  | nil => exact fun _ h => h
  | cons a as ih => exact fun s h => ih _ (.act a h)

theorem good_fold {γ : Type} (n : Net ε γ) (ls : List n.Lbl) : ∀ s, Good n s → Good n (ls.foldl n.step s) := by
  induction ls with
  | nil => exact fun _ h => h
  | cons l ls ih => exact fun s h => ih _ (good_step n s h l)

/-- Some steps of the operators alone lead to a state with `P`. -/
def Leads {γ : Type} (n : Net ε γ) (s : n.State) (P : n.State → Prop) : Prop :=
  ∃ ls : List n.Lbl, (∀ l ∈ ls, n.inner l = true) ∧ P (ls.foldl n.step s)

theorem Leads.bind {γ : Type} {n : Net ε γ} {s : n.State} {P Q : n.State → Prop} (h : Leads n s P) (hq : ∀ s', P s' → Leads n s' Q) : Leads n s Q := by
  obtain ⟨as, h1, h2⟩ := h
  obtain ⟨bs, h3, h4⟩ := hq _ h2
  refine ⟨as ++ bs, fun a ha => ?_, by rw [List.foldl_append]; exact h4⟩
  rcases List.mem_append.1 ha with ha | ha
  · exact h1 a ha
  · exact h3 a ha

theorem Leads.here {γ : Type} {n : Net ε γ} {s : n.State} {P : n.State → Prop} (h : P s) : Leads n s P := ⟨[], (fun _ h => by cases h), h⟩

theorem fold_src {ι α γ : Type} (eq : DecidableEq ι) (q : Net ε ι) (f : ι → Net ε α) (p : Pipe ε α γ) (ls : List q.Lbl) :
    ∀ s : (Net.flat eq q f p).State, (ls.map (fun l => Net.Lbl.inSrc l)).foldl (Net.flat eq q f p).step s = (s.1, ls.foldl q.step s.2.1, s.2.2) := by
  induction ls with
  | nil => exact fun s => rfl
  | cons l ls ih => exact fun s => ih _

theorem fold_merge {ι α γ : Type} (eq : DecidableEq ι) (q : Net ε ι) (f : ι → Net ε α) (p : Pipe ε α γ) (as : List FlatAct) :
    ∀ s : (Net.flat eq q f p).State, (as.map (fun a => Net.Lbl.merge a)).foldl (Net.flat eq q f p).step s = (as.foldl flatAct s.1, s.2) := by
  induction as with
  | nil => exact fun s => rfl
  | cons a as ih => exact fun s => ih _

theorem fold_inKid {ι α γ : Type} (eq : DecidableEq ι) (q : Net ε ι) (f : ι → Net ε α) (p : Pipe ε α γ) (k : Nat) (x : ι) (ls : List (f x).Lbl) :
    ∀ (s : (Net.flat eq q f p).State) z, s.2.2[k]? = some ⟨x, z⟩ →
      (ls.map (fun l => Net.Lbl.inKid k x l)).foldl (Net.flat eq q f p).step s = (s.1, s.2.1, s.2.2.modify k fun _ => ⟨x, ls.foldl (f x).step z⟩) := by
  have hid : ∀ {Z : Type} (zs : List Z) z, zs[k]? = some z → zs.modify k (fun _ => z) = zs := by
    intro Z zs z hz
    apply List.ext_getElem?
    intro j
    rw [List.getElem?_modify]
    by_cases e : k = j
    · subst e; rw [hz]; simp
    · simp [e]
  have hmm : ∀ {Z : Type} (zs : List Z) (g : Z → Z) z, (zs.modify k g).modify k (fun _ => z) = zs.modify k (fun _ => z) := by
    intro Z zs g z
    apply List.ext_getElem?
    intro j
    rw [List.getElem?_modify, List.getElem?_modify, List.getElem?_modify]
    by_cases e : k = j
    · subst e; cases zs[k]? <;> simp
    · simp [e]
  induction ls with
  | nil =>
    intro s z hz
    have : s.2.2.modify k (fun _ => ⟨x, z⟩) = s.2.2 := hid s.2.2 _ hz
    show s = (s.1, s.2.1, s.2.2.modify k fun _ => ⟨x, z⟩)
    rw [this]
    rfl
  | cons l ls ih =>
    intro s z hz
    refine (ih ((Net.flat eq q f p).step s (.inKid k x l)) ((f x).step z l) ?_).trans ?_
    · show (s.2.2.modify k (stepAt x fun z => (f x).step z l))[k]? = _
      rw [List.getElem?_modify, hz]
      simp [stepAt_same]
    · show (s.1, s.2.1, (s.2.2.modify k (stepAt x fun z => (f x).step z l)).modify k fun _ => _) = _
      rw [hmm]
      rfl

theorem fold_inOne {α γ : Type} (eq : DecidableEq ε) (ks : List (Term ε) → Net ε α) (sw : List (Term ε) → Term ε → Bool) (p : Pipe ε α γ)
    (i : List (Term ε)) (ls : List (ks i).Lbl) :
    ∀ s : (Net.follow eq ks sw p).State, i <+: s.1.ends → (ls.map (fun l => Net.Lbl.inOne i l)).foldl (Net.follow eq ks sw p).step s =
      (s.1, setKid s.2 i (ls.foldl (ks i).step (s.2 i))) := by
  induction ls with
  | nil => intro s _; exact congrArg (Prod.mk s.1) (setKid_self (S := fun i => (ks i).State) s.2 i).symm
  | cons l ls ih =>
    intro s hi
    rcases inOne_cases eq ks sw p s i l with ⟨-, e⟩ | ⟨hn, -⟩
    · rw [List.map_cons, List.foldl_cons, e]
      refine (ih (s.1, setKid s.2 i ((ks i).step (s.2 i) l)) hi).trans ?_
      refine congrArg (Prod.mk s.1) ?_
      show setKid (setKid s.2 i ((ks i).step (s.2 i) l)) i (ls.foldl (ks i).step (setKid s.2 i ((ks i).step (s.2 i) l) i)) = _
      rw [setKid_same, setKid_setKid]
      rfl
    · exact absurd hi hn

theorem flat_quiet {α : Type} {h : Comb.St α α ε Nat} (hr : ∃ ls, h = Comb.exec Comb.mergeHub ls) :
    ∃ as : List FlatAct, (∀ a ∈ as, a.safe = true) ∧ (∀ i, (as.foldl flatAct h).calls i = .idle) ∧ Calm h (as.foldl flatAct h) := by
  obtain ⟨ls, rfl⟩ := hr
  obtain ⟨ks, h1, h2, h3⟩ := hub_ends (Comb.mergeHub : Comb.Hub α α ε Nat) (fun i e x e' h => by cases h) ls
  have : ∀ ks : List (Comb.Lbl α ε), (∀ l ∈ ks, ∃ k, l = .run k ∨ l = .ret k .ok) →
      ∃ as : List FlatAct, (∀ a ∈ as, a.safe = true) ∧ ∀ h : Comb.St α α ε Nat, as.foldl flatAct h = ks.foldl (Comb.step Comb.mergeHub) h := by
    intro ks
    induction ks with
    | nil => exact fun _ => ⟨[], (fun _ h => by cases h), fun _ => rfl⟩
    | cons l ks ih =>
      intro hk
      obtain ⟨as, h1, h2⟩ := ih fun l hl => hk l (List.mem_cons_of_mem _ hl)
      obtain ⟨k, rfl | rfl⟩ := hk l List.mem_cons_self
      · refine ⟨.run k :: as, fun a ha => ?_, fun h => h2 _⟩
        rcases List.mem_cons.1 ha with rfl | ha
        · rfl
        · exact h1 a ha
      · refine ⟨.ret k :: as, fun a ha => ?_, fun h => h2 _⟩
        rcases List.mem_cons.1 ha with rfl | ha
        · rfl
        · exact h1 a ha
  obtain ⟨as, h4, h5⟩ := this ks h1
  exact ⟨as, h4, by rw [h5]; exact h2, by rw [h5]; exact h3⟩

/-- What is left of inner observable `k`; models no code. -/
def left {Z α : Type} (says : Z → Trace α ε) (h : Comb.St α α ε Nat) (zs : List Z) (k : Nat) : Nat :=
  match zs[k]? with
  | some z => (notes (says z)).length - (Comb.received (k + 1) h.log).length
  | none => 0

theorem leads_rest : {γ : Type} → (n : Net ε γ) → n.Bounded → (s : n.State) → Good n s → Leads n s n.Rest
  | _, .src _, _, _, _ => .here trivial
  | _, .join j kids p, hB, s, h => by
    -- the operands first
    have kidsRest : ∀ m, Leads (.join j kids p) s fun s' => Good (.join j kids p) s' ∧ ∀ i < m, (kids i).Rest (s'.2 i) := by
      intro m
      induction m with
      | zero => exact .here ⟨h, fun i hi => absurd hi (Nat.not_lt_zero i)⟩
      | succ m ih =>
        refine ih.bind fun s' ⟨hg, hr⟩ => ?_
        obtain ⟨ls, h1, h2⟩ := leads_rest (kids m) (hB m) (s'.2 m) (hg.2 m).2
        refine ⟨ls.map (fun l => .kid m l), fun l hl => ?_, good_fold _ _ _ hg, fun i hi => ?_⟩
        · obtain ⟨k, hk, rfl⟩ := List.mem_map.1 hl
          exact h1 k hk
        · rw [fold_kid]
          show (kids i).Rest (setKid s'.2 m (ls.foldl (kids m).step (s'.2 m)) i)
          by_cases hm : m = i
          · subst hm; rw [setKid_same]; exact h2
          · rw [setKid_ne _ _ _ _ hm]; exact hr i (by omega)
    refine (kidsRest j.arity).bind fun s1 ⟨hg1, hr1⟩ => ?_
    -- then everything they have said
    have loop : ∀ (m : Nat) (s' : (Net.join j kids p).State), Good (.join j kids p) s' → (∀ i < j.arity, (kids i).Rest (s'.2 i)) →
        total (fun i => (notes ((kids i).seq (s'.2 i))).length - (j.machine.got s'.1 i).length) j.arity = m →
        Leads (.join j kids p) s' (Net.Rest (.join j kids p)) := by
      intro m
      induction m using Nat.strongRecOn with
      | ind m ih =>
        intro s' hg hr hm
        obtain ⟨as, ha, hR, hrest⟩ := join_goes j hg.1
        let s2 : (Net.join j kids p).State := (as.foldl j.machine.act s'.1, s'.2)
        have e2 : (as.map (fun a => Net.Lbl.act a)).foldl (Net.join j kids p).step s' = s2 := fold_act j kids p as s'
        have hg2 : Good (.join j kids p) s2 := e2 ▸ good_fold _ _ _ hg
        have go : Leads (.join j kids p) s' (fun x => x = s2) := by
          refine ⟨as.map (fun a => .act a), fun l hl => ?_, e2⟩
          obtain ⟨a, hm, rfl⟩ := List.mem_map.1 hl
          exact ha a hm
        refine go.bind ?_
        rintro _ rfl
        by_cases hp : ∀ i < j.arity, push j.machine s2.1 i ((kids i).seq (s2.2 i)) = s2.1
        · exact .here ⟨hrest, fun i hi => ⟨hp i hi, hr i hi⟩⟩
        · have hp : ∃ i, i < j.arity ∧ push j.machine s2.1 i ((kids i).seq (s2.2 i)) ≠ s2.1 := by
            apply Classical.byContradiction
            intro hn
            exact hp fun i hi => Classical.byContradiction fun hne => hn ⟨i, hi, hne⟩
          obtain ⟨i, hi, hne⟩ := hp
          let s3 : (Net.join j kids p).State := (push j.machine s2.1 i ((kids i).seq (s2.2 i)), s2.2)
          have hg3 : Good (.join j kids p) s3 := good_step (.join j kids p) s2 hg2 (.push i)
          have : Leads (.join j kids p) s2 (fun x => x = s3) := ⟨[.push i], fun l hl => (by
            rw [List.mem_singleton] at hl; rw [hl]; exact rfl), rfl⟩
          refine this.bind ?_
          rintro _ rfl
          refine ih _ ?_ s3 hg3 hr rfl
          have hgot : ∀ k, j.machine.got s2.1 k = j.machine.got s'.1 k := fun k => got_acts j as s'.1 k
          have key : ∃ x, (notes ((kids i).seq (s'.2 i)))[(j.machine.got s2.1 i).length]? = some x ∧ j.machine.ready s2.1 i = true ∧
              s3.1 = j.machine.feed s2.1 i x := by
            show ∃ x, _ ∧ _ ∧ push j.machine s2.1 i ((kids i).seq (s'.2 i)) = _
            unfold push at hne ⊢
            split at hne
            · next x hx =>
              split at hne
              · next hr => refine ⟨x, hx, hr, ?_⟩; rw [hx]; simp only [hr, if_true]
              · exact absurd rfl hne
            · exact absurd rfl hne
          obtain ⟨x, hx, hr', e3⟩ := key
          obtain ⟨f1, f2, -⟩ := (join_fair j).feed s2.1 i x hr'
          rw [← hm]
          refine total_lt hi ?_ fun k hk => ?_
          · show (notes ((kids i).seq (s'.2 i))).length - (j.machine.got s3.1 i).length < _
            rw [e3, f1, ← hgot i]
            have := (List.getElem?_eq_some_iff.1 hx).1
            simp only [List.length_append, List.length_singleton]
            omega
          · show (notes ((kids k).seq (s'.2 k))).length - (j.machine.got s3.1 k).length = _
            rw [e3, f2 k hk, hgot k]
    exact loop _ s1 hg1 hr1 rfl
  | _, .flat eq q f p, hB, s, h => by
    let says : (Σ x, (f x).State) → Trace _ ε := fun z => (f z.1).seq z.2
    -- the outer observable first
    have srcRest : Leads (.flat eq q f p) s fun s' => Good (.flat eq q f p) s' ∧ q.Rest s'.2.1 := by
      obtain ⟨ls, h1, h2⟩ := leads_rest q hB.1 s.2.1 h.2.1
      refine ⟨ls.map (fun l => .inSrc l), fun l hl => ?_, good_fold _ _ _ h, ?_⟩
      · obtain ⟨k, hk, rfl⟩ := List.mem_map.1 hl
        exact h1 k hk
      · rw [fold_src]; exact h2
    refine srcRest.bind fun s1 ⟨hg1, hr1⟩ => ?_
    -- the inner ones
    have kidsRest : ∀ (s : (Net.flat eq q f p).State), Good (.flat eq q f p) s → ∀ m : Nat, Leads (.flat eq q f p) s fun s' =>
        Good (.flat eq q f p) s' ∧ s'.1 = s.1 ∧ s'.2.1 = s.2.1 ∧ s'.2.2.map (·.1) = s.2.2.map (·.1) ∧
          ∀ k < m, ∀ z : Σ x, (f x).State, s'.2.2[k]? = some z → (f z.1).Rest z.2 := by
      intro s h m
      induction m with
      | zero => exact .here ⟨h, rfl, rfl, rfl, fun i hi => absurd hi (Nat.not_lt_zero i)⟩
      | succ m ih =>
        refine ih.bind fun s' ⟨hg, e1, e2, e3, hr⟩ => ?_
        cases hm : s'.2.2[m]? with
        | none =>
          refine .here ⟨hg, e1, e2, e3, fun k hk z hz => ?_⟩
          by_cases hkm : k = m
          · subst hkm; rw [hm] at hz; cases hz
          · exact hr k (by omega) z hz
        | some z =>
          obtain ⟨x, z⟩ := z
          obtain ⟨ls, h1, h2⟩ := leads_rest (f x) (hB.2 x) z (hg.2.2 m _ hm)
          have e := fold_inKid eq q f p m x ls s' z hm
          refine ⟨ls.map (fun l => .inKid m x l), fun l hl => ?_, good_fold _ _ _ hg, ?_⟩
          · obtain ⟨k, hk, rfl⟩ := List.mem_map.1 hl
            exact h1 k hk
          · rw [e]
            refine ⟨e1, e2, ?_, fun k hk w hw => ?_⟩
            · refine Eq.trans ?_ e3
              apply List.ext_getElem?
              intro j
              show ((s'.2.2.modify m fun _ => ⟨x, ls.foldl (f x).step z⟩).map (·.1))[j]? = _
              rw [List.getElem?_map, List.getElem?_map, List.getElem?_modify]
              by_cases hj : m = j
              · subst hj; rw [hm]; simp
              · simp [hj]
            · obtain ⟨v, hv, ⟨rfl, rfl⟩ | ⟨hne, rfl⟩⟩ := modify_get hw
              · exact h2
              · exact hr k (by omega) w hv
    -- everything the inner ones have said
    have feedAll : ∀ (m : Nat) (s : (Net.flat eq q f p).State), Good (.flat eq q f p) s → total (left says s.1 s.2.2) s.2.2.length = m →
        Leads (.flat eq q f p) s fun s' => Good (.flat eq q f p) s' ∧ s'.2 = s.2 ∧ outerFin s'.1 = outerFin s.1 ∧ (∀ i, s'.1.calls i = .idle) ∧
          ∀ (k : Nat) z, s.2.2[k]? = some z → pushInner s'.1 k (says z) = s'.1 := by
      intro m
      induction m using Nat.strongRecOn with
      | ind m ih =>
        intro s hg hm
        obtain ⟨as, ha, hidle, hcalm⟩ := flat_quiet hg.1.inv.run
        let s2 : (Net.flat eq q f p).State := (as.foldl flatAct s.1, s.2)
        have e2 : (as.map (fun a => Net.Lbl.merge a)).foldl (Net.flat eq q f p).step s = s2 := fold_merge eq q f p as s
        have hg2 : Good (.flat eq q f p) s2 := e2 ▸ good_fold _ _ _ hg
        have go : Leads (.flat eq q f p) s (fun x => x = s2) := by
          refine ⟨as.map (fun a => .merge a), fun l hl => ?_, e2⟩
          obtain ⟨a, hm, rfl⟩ := List.mem_map.1 hl
          exact ha a hm
        refine go.bind ?_
        rintro _ rfl
        have ho2 : outerFin s2.1 = outerFin s.1 := outerFin_congr (hcalm.recv 0)
        by_cases hp : ∀ (k : Nat) z, s.2.2[k]? = some z → pushInner s2.1 k (says z) = s2.1
        · exact .here ⟨hg2, rfl, ho2, hidle, hp⟩
        · have hp : ∃ (k : Nat) (z : _), s.2.2[k]? = some z ∧ pushInner s2.1 k (says z) ≠ s2.1 := by
            apply Classical.byContradiction
            intro hn
            exact hp fun k z hz => Classical.byContradiction fun hne => hn ⟨k, z, hz, hne⟩
          obtain ⟨k, z, hz, hne⟩ := hp
          let s3 : (Net.flat eq q f p).State := (pushInner s2.1 k (says z), s2.2)
          have e3 : (Net.flat eq q f p).step s2 (.inner k) = s3 := by
            show ((match s.2.2[k]? with | some z => pushInner s2.1 k ((f z.1).seq z.2) | none => s2.1), s.2) = s3
            rw [hz]
          have hg3 : Good (.flat eq q f p) s3 := e3 ▸ good_step (.flat eq q f p) s2 hg2 (.inner k)
          have : Leads (.flat eq q f p) s2 (fun x => x = s3) := ⟨[.inner k], fun l hl => (by
            rw [List.mem_singleton] at hl; rw [hl]; exact rfl), e3⟩
          refine this.bind ?_
          rintro _ rfl
          rcases pushInner_cases s2.1 k (says z) with e | ⟨x, hx, hr, e⟩
          · exact absurd e hne
          obtain ⟨-, i2, i3, i4, -⟩ := inner_step hg2.1.inv hr x
          have e' : s3.1 = Comb.step Comb.mergeHub s2.1 (lbl (k + 1) x) := e
          have hk : k < s.2.2.length := (List.getElem?_eq_some_iff.1 hz).1
          have hr2 : ∀ i, Comb.received i s2.1.log = Comb.received i s.1.log := hcalm.recv
          refine (ih _ ?_ s3 hg3 rfl).bind fun s4 ⟨g1, g2, g3, g4, g5⟩ => .here ⟨g1, g2, ?_, g4, g5⟩
          · rw [← hm]
            refine total_lt hk ?_ fun j hj => ?_
            · show left says s3.1 s.2.2 k < _
              unfold left
              rw [hz, e', i3, hr2]
              have hx := (List.getElem?_eq_some_iff.1 hx).1
              rw [hr2] at hx
              simp only [List.length_append, List.length_singleton]
              omega
            · show left says s3.1 s.2.2 j = _
              unfold left
              rw [e', i4 (j + 1) (by omega), hr2]
          · rw [g3, e', i2]; exact ho2
    -- and what the outer one has said, one by one
    have loop : ∀ (m : Nat) (s : (Net.flat eq q f p).State), Good (.flat eq q f p) s → q.Rest s.2.1 →
        (notes (q.seq s.2.1)).length - (notes (⟨s.2.2.map (·.1), outerFin s.1⟩ : Trace _ ε)).length = m →
        Leads (.flat eq q f p) s (Net.Rest (.flat eq q f p)) := by
      intro m
      induction m using Nat.strongRecOn with
      | ind m ih =>
        intro s hg hr hm
        refine (kidsRest s hg s.2.2.length).bind fun s1 ⟨hg1, e1, e2, e3, hr1⟩ => ?_
        refine (feedAll _ s1 hg1 rfl).bind fun s2 ⟨hg2, e4, e5, hidle, hp⟩ => ?_
        have hlen : s1.2.2.length = s.2.2.length := by
          have := congrArg List.length e3
          simpa using this
        have hrest : ∀ (k : Nat) (z : Σ x, (f x).State), s2.2.2[k]? = some z → (f z.1).Rest z.2 := by
          intro k z hz
          rw [e4] at hz
          exact hr1 k (hlen ▸ (List.getElem?_eq_some_iff.1 hz).1) z hz
        have hp2 : ∀ (k : Nat) (z : Σ x, (f x).State), s2.2.2[k]? = some z → pushInner s2.1 k ((f z.1).seq z.2) = s2.1 := by
          intro k z hz
          rw [e4] at hz
          exact hp k z hz
        have hq : s2.2.1 = s.2.1 := by rw [e4]; exact e2
        have hkeys : s2.2.2.map (·.1) = s.2.2.map (·.1) := by rw [e4]; exact e3
        have hfin : outerFin s2.1 = outerFin s.1 := by rw [e5, e1]
        have hr2 : q.Rest s2.2.1 := by rw [hq]; exact hr
        cases hn : outerNext s2.1 (s2.2.2.map (·.1)) (q.seq s2.2.1) with
        | none => exact .here ⟨hidle, hn, hr2, fun k z hz => ⟨hp2 k z hz, hrest k z hz⟩⟩
        | some x =>
          let s3 : (Net.flat eq q f p).State := (Net.flat eq q f p).step s2 .outer
          have hg3 : Good (.flat eq q f p) s3 := good_step (.flat eq q f p) s2 hg2 .outer
          have : Leads (.flat eq q f p) s2 (fun x => x = s3) := ⟨[.outer], fun l hl => (by
            rw [List.mem_singleton] at hl; rw [hl]; exact rfl), rfl⟩
          refine this.bind ?_
          rintro _ rfl
          refine ih _ ?_ s3 hg3 hr2 rfl
          rw [← hm, ← hq, ← hkeys, ← hfin]
          rcases pushOuter_cases hg2.1 (fun x => ⟨x, (f x).init⟩) (fun _ => rfl) with ⟨e, -⟩ | ⟨y, hy, hf, hrd, e, -⟩ | ⟨t, ht, hf, hrd, e, -⟩
          · rw [e] at hn; cases hn
          · have hl := (List.getElem?_eq_some_iff.1 hy).1
            have e1 : s3.1 = Comb.step Comb.mergeHub s2.1 (.opn (s2.2.2.length + 1)) := congrArg Prod.fst e
            have e2 : s3.2.2 = s2.2.2 ++ [⟨y, (f y).init⟩] := congrArg Prod.snd e
            have hof : outerFin s3.1 = none := by
              rw [e1, outerFin_congr ((open_step hg2.1.inv hrd).2.1 0)]; exact hf
            rw [e2, hof, hf]
            show (notes (q.seq s2.2.1)).length - _ < _
            simp only [notes, List.length_append, List.length_map, Option.toList_none, List.length_nil, List.length_singleton, List.map_append] at hl ⊢
            omega
          · have hl := (List.getElem?_eq_some_iff.1 ht).1
            have e1 : s3.1 = Comb.step Comb.mergeHub s2.1 (.term 0 t) := congrArg Prod.fst e
            have e2 : s3.2.2 = s2.2.2 := by have := congrArg Prod.snd e; exact this
            have hof : outerFin s3.1 = some t := by rw [e1]; exact (end_step hg2.1.inv hrd t).2.2.1
            rw [e2, hof, hf]
            show (notes (q.seq s2.2.1)).length - _ < _
            simp only [notes, List.length_append, List.length_map, Option.toList_none, Option.toList_some, List.length_nil, List.length_singleton] at hl ⊢
            omega
    exact loop _ s1 hg1 hr1 rfl
  | _, .follow eq ks sw p, hB, s, h => by
    obtain ⟨⟨M, hM⟩, hB⟩ := hB
    -- the observables so far
    have kidsRest : ∀ (s : (Net.follow eq ks sw p).State), Good (.follow eq ks sw p) s → ∀ m : Nat, Leads (.follow eq ks sw p) s fun s' =>
        Good (.follow eq ks sw p) s' ∧ s'.1 = s.1 ∧ ∀ k < m, (ks (s.1.ends.take k)).Rest (s'.2 (s.1.ends.take k)) := by
      intro s h m
      induction m with
      | zero => exact .here ⟨h, rfl, fun i hi => absurd hi (Nat.not_lt_zero i)⟩
      | succ m ih =>
        refine ih.bind fun s' ⟨hg, e1, hr⟩ => ?_
        let i := s.1.ends.take m
        obtain ⟨ls, h1, h2⟩ := leads_rest (ks i) (hB i) (s'.2 i) (hg.2 i)
        refine ⟨ls.map (fun l => .inOne i l), fun l hl => ?_, good_fold _ _ _ hg, ?_⟩
        · obtain ⟨k, hk, rfl⟩ := List.mem_map.1 hl
          exact h1 k hk
        · rw [fold_inOne eq ks sw p i ls s' (by rw [e1]; exact List.take_prefix ..)]
          refine ⟨e1, fun k hk => ?_⟩
          show (ks (s.1.ends.take k)).Rest (setKid s'.2 i (ls.foldl (ks i).step (s'.2 i)) (s.1.ends.take k))
          by_cases hi : i = s.1.ends.take k
          · rw [← hi, setKid_same]; exact h2
          · rw [setKid_ne _ _ _ _ hi]
            refine hr k (Nat.lt_of_le_of_ne (Nat.le_of_lt_succ hk) fun e => hi ?_)
            rw [e]
    have outer : ∀ (d : Nat) (s : (Net.follow eq ks sw p).State), Good (.follow eq ks sw p) s → M - s.1.ends.length = d →
        Leads (.follow eq ks sw p) s (Net.Rest (.follow eq ks sw p)) := by
      intro d
      induction d using Nat.strongRecOn with
      | ind d ihd =>
        intro s hg hd
        refine (kidsRest s hg (s.1.ends.length + 1)).bind fun s1 ⟨hg1, e1, hr1⟩ => ?_
        have hrest : ∀ i, i <+: s1.1.ends → (ks i).Rest (s1.2 i) := by
          intro i hi
          rw [e1] at hi
          have := List.prefix_iff_eq_take.1 hi
          rw [this]
          exact hr1 _ (Nat.lt_succ_of_le hi.length_le)
        have hd1 : M - s1.1.ends.length = d := by rw [e1]; exact hd
        -- what the present one has said
        have loop : ∀ (r : Nat) (s : (Net.follow eq ks sw p).State), Good (.follow eq ks sw p) s → M - s.1.ends.length = d →
            (∀ i, i <+: s.1.ends → (ks i).Rest (s.2 i)) →
            (notes ((ks s.1.ends).seq (s.2 s.1.ends))).length - s.1.got.length = r →
            Leads (.follow eq ks sw p) s (Net.Rest (.follow eq ks sw p)) := by
          intro r
          induction r using Nat.strongRecOn with
          | ind r ihr =>
            intro s hg hd hrest hr
            cases hn : followNext s.1 ((ks s.1.ends).seq (s.2 s.1.ends)) with
            | none => exact .here ⟨hn, hrest⟩
            | some x =>
              let s3 : (Net.follow eq ks sw p).State := (Net.follow eq ks sw p).step s .hear
              have hg3 : Good (.follow eq ks sw p) s3 := good_step (.follow eq ks sw p) s hg .hear
              have : Leads (.follow eq ks sw p) s (fun x => x = s3) := ⟨[.hear], fun l hl => (by
                rw [List.mem_singleton] at hl; rw [hl]; exact rfl), rfl⟩
              refine this.bind ?_
              rintro _ rfl
              have e3 : s3.1 = hear sw s.1 x := by
                show pushFollow sw s.1 ((ks s.1.ends).seq (s.2 s.1.ends)) = _
                unfold pushFollow
                rw [hn]
              have hl : s.1.got.length < (notes ((ks s.1.ends).seq (s.2 s.1.ends))).length := by
                unfold followNext at hn
                split at hn
                · cases hn
                · exact (List.getElem?_eq_some_iff.1 hn).1
              have stay : ∀ x, s3.1.ends = s.1.ends → s3.1.got = s.1.got ++ [x] → Leads (.follow eq ks sw p) s3 (Net.Rest (.follow eq ks sw p)) := by
                intro x he hgot
                refine ihr _ ?_ s3 hg3 (by rw [he]; exact hd) (by rw [he]; exact hrest) rfl
                rw [← hr, he, hgot, List.length_append]
                show (notes ((ks s.1.ends).seq (s.2 s.1.ends))).length - _ < _
                simp only [List.length_singleton]
                omega
              cases x with
              | next v => exact stay (.next v) (by rw [e3]; rfl) (by rw [e3]; rfl)
              | term t =>
                by_cases hs : sw s.1.ends t = true
                · have he : s3.1.ends = s.1.ends ++ [t] := by rw [e3]; simp [hear, hs]
                  refine ihd _ ?_ s3 hg3 rfl
                  rw [he, List.length_append, List.length_singleton, ← hd]
                  have : s.1.ends.length < M := Nat.lt_of_not_le fun hle => by rw [hM _ t hle] at hs; cases hs
                  omega
                · exact stay (.term t) (by rw [e3]; simp [hear, hs]) (by rw [e3]; simp [hear, hs])
        exact loop _ s1 hg1 hd1 hrest rfl
    exact outer _ s h rfl

/-! ## What the sources have notified -/

theorem later_refl : {γ : Type} → (n : Net ε γ) → (x : n.Inp) → n.Later x x
  | _, .src _, _ => rfl
  | _, .join _ kids _, x => fun i => later_refl (kids i) (x i)
  | _, .flat _ q f _, x => ⟨later_refl q x.1, Nat.le_refl _, fun _ z hz => .inl ⟨z.2, hz, later_refl (f z.1) z.2⟩⟩
  | _, .follow _ ks _ _, x => fun i => later_refl (ks i) (x i)

theorem later_trans : {γ : Type} → (n : Net ε γ) → {x y z : n.Inp} → n.Later x y → n.Later y z → n.Later x z
  | _, .src _, _, _, _, h, g => g.trans h
  | _, .join _ kids _, _, _, _, h, g => fun i => later_trans (kids i) (h i) (g i)
  | _, .flat _ q f _, _, _, _, h, g => by
    refine ⟨later_trans q h.1 g.1, Nat.le_trans h.2.1 g.2.1, fun k c hc => ?_⟩
    rcases g.2.2 k c hc with ⟨w, hw, hl⟩ | ⟨hk, hl⟩
    · rcases h.2.2 k _ hw with ⟨v, hv, hl'⟩ | ⟨hk, hl'⟩
      · exact .inl ⟨v, hv, later_trans (f c.1) hl' hl⟩
      · exact .inr ⟨hk, later_trans (f c.1) hl' hl⟩
    · exact .inr ⟨Nat.le_trans h.2.1 hk, hl⟩
  | _, .follow _ ks _ _, _, _, _, h, g => fun i => later_trans (ks i) (h i) (g i)

theorem later_eq : {γ : Type} → (n : Net ε γ) → n.Fixed → {x y : n.Inp} → n.Later x y → y = x
  | _, .src _, _, _, _, h => h
  | _, .join _ kids _, hf, _, _, h => funext fun i => later_eq (kids i) (hf i) (h i)
  | _, .flat .., hf, _, _, _ => hf.elim
  | _, .follow _ ks _ _, hf, _, _, h => funext fun i => later_eq (ks i) (hf i) (h i)

theorem given_inner : {γ : Type} → (n : Net ε γ) → (s : n.State) → (l : n.Lbl) → n.inner l = true → n.Later (n.given s) (n.given (n.step s l))
  | _, .src _, _, .call _, h => nomatch h
  | _, .join j kids p, s, .push _, _ => later_refl (.join j kids p) _
  | _, .join j kids p, s, .act _, _ => later_refl (.join j kids p) _
  | _, .join _ kids _, s, .kid i l, h => by
    intro k
    show (kids k).Later ((kids k).given (s.2 k)) ((kids k).given (setKid s.2 i ((kids i).step (s.2 i) l) k))
    by_cases hk : i = k
    · subst hk; rw [setKid_same]; exact given_inner (kids i) _ l h
    · rw [setKid_ne _ _ _ _ hk]; exact later_refl _ _
  | _, .flat eq q f p, s, .outer, _ => by
    refine ⟨later_refl q _, ?_, fun k z hz => ?_⟩
    · show (s.2.2.map fun z => (⟨z.1, (f z.1).given z.2⟩ : Σ x, (f x).Inp)).length ≤
        ((pushOuter s.1 (s.2.2.map (·.1)) s.2.2 (fun x => ⟨x, (f x).init⟩) (q.seq s.2.1)).2.map fun z =>
          (⟨z.1, (f z.1).given z.2⟩ : Σ x, (f x).Inp)).length
      rw [List.length_map, List.length_map]
      unfold pushOuter
      split <;> simp
    · have hz : ((pushOuter s.1 (s.2.2.map (·.1)) s.2.2 (fun x => ⟨x, (f x).init⟩) (q.seq s.2.1)).2.map fun z =>
          (⟨z.1, (f z.1).given z.2⟩ : Σ x, (f x).Inp))[k]? = some z := hz
      show (∃ w, (s.2.2.map fun z => (⟨z.1, (f z.1).given z.2⟩ : Σ x, (f x).Inp))[k]? = some ⟨z.1, w⟩ ∧ _) ∨
        ((s.2.2.map fun z => (⟨z.1, (f z.1).given z.2⟩ : Σ x, (f x).Inp)).length ≤ k ∧ _)
      rw [List.getElem?_map] at hz
      obtain ⟨w, hw, rfl⟩ := Option.map_eq_some_iff.1 hz
      have hsp : s.2.2[k]? = some w ∨ (s.2.2.length ≤ k ∧ ∃ x, w = ⟨x, (f x).init⟩) := by
        unfold pushOuter at hw
        split at hw
        · next x _ =>
          rw [List.getElem?_append] at hw
          split at hw
          · exact .inl hw
          · next hk =>
            rw [List.getElem?_singleton] at hw
            split at hw
            · exact .inr ⟨by omega, x, by cases hw; rfl⟩
            · cases hw
        · exact .inl hw
        · exact .inl hw
      rcases hsp with hk | ⟨hk, x, rfl⟩
      · exact .inl ⟨_, by rw [List.getElem?_map, hk]; rfl, later_refl _ _⟩
      · exact .inr ⟨by rw [List.length_map]; exact hk, later_refl _ _⟩
  | _, .flat eq q f p, s, .inner k, _ => later_refl (.flat eq q f p) _
  | _, .flat eq q f p, s, .merge a, _ => later_refl (.flat eq q f p) _
  | _, .flat eq q f p, s, .inSrc l, h => ⟨given_inner q _ l h, Nat.le_refl _, fun _ z hz => .inl ⟨z.2, hz, later_refl (f z.1) z.2⟩⟩
  | _, .flat eq q f p, s, .inKid k x l, h => by
    refine ⟨later_refl q _, ?_, fun j z hz => .inl ?_⟩
    · show (s.2.2.map fun z => (⟨z.1, (f z.1).given z.2⟩ : Σ x, (f x).Inp)).length ≤
        ((s.2.2.modify k (stepAt x fun z => (f x).step z l)).map fun z => (⟨z.1, (f z.1).given z.2⟩ : Σ x, (f x).Inp)).length
      simp
    · have hz : ((s.2.2.modify k (stepAt x fun z => (f x).step z l)).map fun z => (⟨z.1, (f z.1).given z.2⟩ : Σ x, (f x).Inp))[j]? = some z := hz
      show ∃ w, (s.2.2.map fun z => (⟨z.1, (f z.1).given z.2⟩ : Σ x, (f x).Inp))[j]? = some ⟨z.1, w⟩ ∧ _
      rw [List.getElem?_map] at hz
      obtain ⟨w, hw, rfl⟩ := Option.map_eq_some_iff.1 hz
      obtain ⟨v, hv, ⟨rfl, rfl⟩ | ⟨-, rfl⟩⟩ := modify_get hw
      · obtain ⟨y, v⟩ := v
        by_cases e : y = x
        · subst e; rw [stepAt_same]
          exact ⟨_, by rw [List.getElem?_map, hv]; rfl, given_inner (f y) v l h⟩
        · rw [stepAt_ne _ _ _ e]
          exact ⟨_, by rw [List.getElem?_map, hv]; rfl, later_refl _ _⟩
      · exact ⟨_, by rw [List.getElem?_map, hv]; rfl, later_refl _ _⟩
  | _, .follow eq ks sw p, s, .hear, _ => later_refl (.follow eq ks sw p) _
  | _, .follow eq ks sw p, s, .drop, h => nomatch h
  | _, .follow eq ks sw p, s, .inOne i l, h => by
    rcases inOne_cases eq ks sw p s i l with ⟨-, e⟩ | ⟨-, e⟩
    · rw [e]
      intro k
      show (ks k).Later ((ks k).given (s.2 k)) ((ks k).given (setKid s.2 i ((ks i).step (s.2 i) l) k))
      by_cases hk : i = k
      · subst hk; rw [setKid_same]; exact given_inner (ks i) _ l h
      · rw [setKid_ne _ _ _ _ hk]; exact later_refl _ _
    · rw [e]; exact later_refl (.follow eq ks sw p) _

theorem given_inners {γ : Type} (n : Net ε γ) (ls : List n.Lbl) :
    ∀ s, (∀ l ∈ ls, n.inner l = true) → n.Later (n.given s) (n.given (ls.foldl n.step s)) := by
  induction ls with
  | nil => exact fun _ _ => later_refl n _
  | cons l ls ih =>
    exact fun s h => later_trans n (given_inner n s l (h l List.mem_cons_self)) (ih _ fun k hk => h k (List.mem_cons_of_mem _ hk))

end Rpp.Net
