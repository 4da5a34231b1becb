import Verif.Net.Tree
import Verif.Net.FollowProofs
import Verif.Time.StagesProofs

/-! Invariant of the expressions. -/

namespace Rpp.Net

open Comb (Sig)

variable {ε : Type}

theorem notes_mono {α : Type} (a b : List (Call α ε)) (h : a <+: b) : notes (traceOf a) <+: notes (traceOf b) := by
  obtain ⟨r, rfl⟩ := h
  induction a with
  | nil => exact List.nil_prefix
  | cons c a ih =>
    cases c with
    | next v =>
      show notes ⟨v :: (traceOf a).vals, (traceOf a).fin⟩ <+: notes ⟨v :: (traceOf (a ++ r)).vals, (traceOf (a ++ r)).fin⟩
      simp only [notes, List.map_cons, List.cons_append] at ih ⊢
      exact List.cons_prefix_cons.2 ⟨rfl, ih⟩
    | error e => exact List.prefix_refl _
    | completed => exact List.prefix_refl _
    | up d => exact ih

/-- The state is one that the operators can get into, and nothing reaches an operator that its operand did not say. -/
def Good : {γ : Type} → (n : Net ε γ) → n.State → Prop
  | _, .src _, _ => True
  | _, .join j kids _, s => j.machine.Reach s.1 ∧ ∀ i, j.machine.got s.1 i <+: notes ((kids i).seq (s.2 i)) ∧ Good (kids i) (s.2 i)
  | _, .flat _ q f _, s => FGood (fun z => z.1) (fun z => (f z.1).seq z.2) s.1 (q.seq s.2.1) s.2.2 ∧ Good q s.2.1 ∧
    ∀ (k : Nat) z, s.2.2[k]? = some z → Good (f z.1) z.2
  | _, .follow _ ks sw _, s => FolGood sw (fun i => (ks i).seq (s.2 i)) s.1 ∧ ∀ i, Good (ks i) (s.2 i)

theorem good_init : {γ : Type} → (n : Net ε γ) → Good n n.init
  | _, .src _ => trivial
  | _, .join j kids _ => ⟨.init, fun i => ⟨(join_fair j).start.1 i ▸ List.nil_prefix, good_init (kids i)⟩⟩
  | _, .flat _ q f _ => ⟨fgood_init _ _ _, good_init q, fun k z hk => by cases hk⟩
  | _, .follow _ ks _ _ => ⟨folgood_init _ _, fun i => good_init (ks i)⟩

theorem inOne_cases {α γ : Type} (eq : DecidableEq ε) (ks : List (Term ε) → Net ε α) (sw : List (Term ε) → Term ε → Bool) (p : Pipe ε α γ)
    (s : (Net.follow eq ks sw p).State) (i : List (Term ε)) (l : (ks i).Lbl) :
    (i <+: s.1.ends ∧ (Net.follow eq ks sw p).step s (.inOne i l) = (s.1, setKid s.2 i ((ks i).step (s.2 i) l))) ∨
    (¬ i <+: s.1.ends ∧ (Net.follow eq ks sw p).step s (.inOne i l) = s) := by
  letI := eq
  by_cases hi : i <+: s.1.ends
  · exact .inl ⟨hi, if_pos hi⟩
  · exact .inr ⟨hi, if_neg hi⟩

theorem seq_mono : {γ : Type} → (n : Net ε γ) → (s : n.State) → Good n s → (l : n.Lbl) → notes (n.seq s) <+: notes (n.seq (n.step s l))
  | _, .src p, s, _, .call c => notes_mono _ _ (Stages.trans_mono p _ _ (List.prefix_append ..))
  | _, .join j kids p, s, _, .push i => by
    refine notes_mono _ _ (Stages.trans_mono p _ _ ?_)
    have : j.machine.told (push j.machine s.1 i ((kids i).seq (s.2 i))) = j.machine.told s.1 := by
      unfold push
      split
      · split
        · next hr => exact ((join_fair j).feed _ _ _ hr).2.2
        · rfl
      · rfl
    show (j.machine.told s.1).map toCall <+: (j.machine.told (push j.machine s.1 i ((kids i).seq (s.2 i)))).map toCall
    rw [this]
    exact List.prefix_refl _
  | _, .join j kids p, s, _, .act a => by
    refine notes_mono _ _ (Stages.trans_mono p _ _ ?_)
    obtain ⟨r, hr⟩ := ((join_fair j).act s.1 a).2
    show (j.machine.told s.1).map toCall <+: (j.machine.told (j.machine.act s.1 a)).map toCall
    rw [← hr, List.map_append]
    exact List.prefix_append ..
  | _, .join j kids p, s, _, .kid i l => List.prefix_refl _
  | _, .flat eq q f p, s, h, .outer => by
    have := (fgood_outer h.1 (fun x => ⟨x, (f x).init⟩) (fun _ => rfl)).2.1
    refine notes_mono _ _ (Stages.trans_mono p _ _ ?_)
    show (flatTold s.1).map toCall <+: (flatTold (pushOuter s.1 (s.2.2.map (·.1)) s.2.2 (fun x => ⟨x, (f x).init⟩) (q.seq s.2.1)).1).map toCall
    rw [this]
    exact List.prefix_refl _
  | _, .flat eq q f p, s, h, .inner k => by
    refine notes_mono _ _ (Stages.trans_mono p _ _ ?_)
    show (flatTold s.1).map toCall <+: (flatTold (match s.2.2[k]? with | some z => pushInner s.1 k ((f z.1).seq z.2) | none => s.1)).map toCall
    split
    · next z hz => rw [(fgood_inner h.1 k z hz).2]; exact List.prefix_refl _
    · exact List.prefix_refl _
  | _, .flat eq q f p, s, h, .merge a => by
    refine notes_mono _ _ (Stages.trans_mono p _ _ ?_)
    obtain ⟨r, hr⟩ := begs_act s.1 a
    show (flatTold s.1).map toCall <+: (flatTold (flatAct s.1 a)).map toCall
    rw [← hr, List.map_append]
    exact List.prefix_append ..
  | _, .flat eq q f p, s, h, .inSrc l => List.prefix_refl _
  | _, .flat eq q f p, s, h, .inKid k x l => List.prefix_refl _
  | _, .follow eq ks sw p, s, h, .hear => by
    refine notes_mono _ _ (Stages.trans_mono p _ _ ?_)
    obtain ⟨r, hr⟩ := (folgood_push h.1).2
    show s.1.told.map toCall <+: (pushFollow sw s.1 ((ks s.1.ends).seq (s.2 s.1.ends))).told.map toCall
    rw [← hr, List.map_append]
    exact List.prefix_append ..
  | _, .follow eq ks sw p, s, h, .drop => List.prefix_refl _
  | _, .follow eq ks sw p, s, h, .inOne i l => by
    rcases inOne_cases eq ks sw p s i l with ⟨-, e⟩ | ⟨-, e⟩
    · rw [e]; exact List.prefix_refl _
    · rw [e]; exact List.prefix_refl _

theorem setKid_same {I : Type} [DecidableEq I] {S : I → Type} (f : ∀ i, S i) (i : I) (x : S i) : setKid f i x i = x := by simp [setKid]

theorem setKid_ne {I : Type} [DecidableEq I] {S : I → Type} (f : ∀ i, S i) (i : I) (x : S i) (k : I) (h : i ≠ k) : setKid f i x k = f k := by
  simp [setKid, h]

theorem prefix_snoc {α : Type} {l m : List α} {x : α} (h : l <+: m) (hx : m[l.length]? = some x) : l ++ [x] <+: m := by
  obtain ⟨r, rfl⟩ := h
  cases r with
  | nil => simp at hx
  | cons y r =>
    simp at hx; subst hx
    exact ⟨r, by simp⟩

theorem good_step : {γ : Type} → (n : Net ε γ) → (s : n.State) → Good n s → (l : n.Lbl) → Good n (n.step s l)
  | _, .src _, _, _, .call _ => trivial
  | _, .join j kids p, s, h, .push i => by
    show j.machine.Reach (push j.machine s.1 i ((kids i).seq (s.2 i))) ∧
      ∀ k, j.machine.got (push j.machine s.1 i ((kids i).seq (s.2 i))) k <+: notes ((kids k).seq (s.2 k)) ∧ Good (kids k) (s.2 k)
    unfold push
    split
    · next x hx =>
      split
      · next hr =>
        obtain ⟨h1, h2, -⟩ := (join_fair j).feed _ _ x hr
        refine ⟨.feed i x h.1 hr, fun k => ⟨?_, (h.2 k).2⟩⟩
        by_cases hk : k = i
        · subst hk
          rw [h1]
          exact prefix_snoc (h.2 k).1 hx
        · rw [h2 k hk]; exact (h.2 k).1
      · exact h
    · exact h
  | _, .join j kids p, s, h, .act a => by
    refine ⟨.act a h.1, fun k => ⟨?_, (h.2 k).2⟩⟩
    show j.machine.got (j.machine.act s.1 a) k <+: _
    rw [((join_fair j).act s.1 a).1]
    exact (h.2 k).1
  | _, .join j kids p, s, h, .kid i l => by
    refine ⟨h.1, fun k => ?_⟩
    show j.machine.got s.1 k <+: notes ((kids k).seq (setKid s.2 i ((kids i).step (s.2 i) l) k)) ∧
      Good (kids k) (setKid s.2 i ((kids i).step (s.2 i) l) k)
    unfold setKid
    by_cases hk : i = k
    · subst hk
      simp only [dif_pos]
      exact ⟨(h.2 i).1.trans (seq_mono (kids i) _ (h.2 i).2 l), good_step (kids i) _ (h.2 i).2 l⟩
    · simp only [hk, dif_neg, not_false_eq_true]
      exact h.2 k
  | _, .flat eq q f p, s, h, .outer => by
    obtain ⟨h1, -, h2⟩ := fgood_outer h.1 (fun x => ⟨x, (f x).init⟩) (fun _ => rfl)
    refine ⟨h1, h.2.1, fun k z hk => ?_⟩
    rcases h2 k z hk with hk | ⟨x, rfl⟩
    · exact h.2.2 k z hk
    · exact good_init (f x)
  | _, .flat eq q f p, s, h, .inner k => by
    show Good (.flat eq q f p) (match s.2.2[k]? with | some z => pushInner s.1 k ((f z.1).seq z.2) | none => s.1, s.2)
    split
    · next z hz => exact ⟨(fgood_inner h.1 k z hz).1, h.2⟩
    · exact h
  | _, .flat eq q f p, s, h, .merge a => ⟨fgood_act h.1 a, h.2⟩
  | _, .flat eq q f p, s, h, .inSrc l => ⟨fgood_src h.1 (seq_mono q _ h.2.1 l), good_step q _ h.2.1 l, h.2.2⟩
  | _, .flat eq q f p, s, h, .inKid k x l => by
    refine ⟨fgood_kid h.1 k _ fun z hz => ⟨stepAt_fst .., ?_⟩, h.2.1, fun j z hj => ?_⟩
    · obtain ⟨y, z⟩ := z
      by_cases e : y = x
      · subst e; rw [stepAt_same]; exact seq_mono (f y) z (h.2.2 k _ hz) l
      · rw [stepAt_ne _ _ _ e]; exact List.prefix_refl _
    · obtain ⟨w, hw, ⟨rfl, rfl⟩ | ⟨-, rfl⟩⟩ := modify_get hj
      · obtain ⟨y, w⟩ := w
        by_cases e : y = x
        · subst e; rw [stepAt_same]; exact good_step (f y) w (h.2.2 j _ hw) l
        · rw [stepAt_ne _ _ _ e]; exact h.2.2 j _ hw
      · exact h.2.2 j z hw
  | _, .follow eq ks sw p, s, h, .hear => ⟨(folgood_push h.1).1, h.2⟩
  | _, .follow eq ks sw p, s, h, .drop => ⟨folgood_gone h.1, h.2⟩
  | _, .follow eq ks sw p, s, h, .inOne i l => by
    rcases inOne_cases eq ks sw p s i l with ⟨-, e⟩ | ⟨-, e⟩
    · rw [e]
      refine ⟨folgood_says h.1 fun k => ?_, fun k => ?_⟩
      · show notes ((ks k).seq (s.2 k)) <+: notes ((ks k).seq (setKid s.2 i ((ks i).step (s.2 i) l) k))
        by_cases hk : i = k
        · subst hk
          rw [setKid_same]
          exact seq_mono (ks i) _ (h.2 i) l
        · rw [setKid_ne _ _ _ _ hk]
          exact List.prefix_refl _
      · show Good (ks k) (setKid s.2 i ((ks i).step (s.2 i) l) k)
        by_cases hk : i = k
        · subst hk
          rw [setKid_same]
          exact good_step (ks i) _ (h.2 i) l
        · rw [setKid_ne _ _ _ _ hk]
          exact h.2 k
    · rw [e]; exact h

theorem good_exec {γ : Type} (n : Net ε γ) (ls : List n.Lbl) : Good n (n.exec ls) := by
  have : ∀ (ls : List n.Lbl) s, Good n s → Good n (ls.foldl n.step s) := by
    intro ls
    induction ls with
    | nil => exact fun _ h => h
    | cons l ls ih => exact fun s h => ih _ (good_step n s h l)
  exact this ls _ (good_init n)

theorem can_seq : {γ : Type} → (n : Net ε γ) → n.WF → (s : n.State) → Good n s → n.Can (n.given s) (n.seq s)
  | _, .src p, hw, s, _ => p.trans_spec hw s
  | _, .join j kids p, hw, s, h =>
    ⟨j.machine.got s.1, seqOf (j.machine.told s.1),
      fun i _ => ⟨_, can_seq (kids i) (hw.1 i) (s.2 i) (h.2 i).2, (h.2 i).1⟩, join_makes j h.1, p.trans_spec hw.2 _⟩
  | _, .flat _ q f p, hw, s, h => by
    refine ⟨q.seq s.2.1, ⟨s.2.2.map (·.1), outerFin s.1⟩, fun k => Comb.received (k + 1) s.1.log, seqOf (flatTold s.1),
      can_seq q hw.1 _ h.2.1, h.1.pre, ?_, fun k z hk => ?_, ?_, p.trans_spec hw.2.2 _⟩
    · show s.2.2.map (·.1) = (s.2.2.map fun z => (⟨z.1, (f z.1).given z.2⟩ : Σ x, (f x).Inp)).map (·.1)
      rw [List.map_map]; rfl
    · have hk : (s.2.2.map fun z => (⟨z.1, (f z.1).given z.2⟩ : Σ x, (f x).Inp))[k]? = some z := hk
      rw [List.getElem?_map] at hk
      obtain ⟨w, hw', rfl⟩ := Option.map_eq_some_iff.1 hk
      exact ⟨_, can_seq (f w.1) (hw.2.1 w.1) w.2 (h.2.2 k w hw'), h.1.kids k w hw'⟩
    · have := flat_makes h.1.inv
      show FlatMakes (s.2.2.map fun z => (⟨z.1, (f z.1).given z.2⟩ : Σ x, (f x).Inp)).length _ _ _
      rw [List.length_map]; exact this
  | _, .follow _ ks sw p, hw, s, h => by
    obtain ⟨vs, g, h1, -, h3, h4, h5⟩ := folgood_seq h.1
    refine ⟨s.1.ends, vs, (ks s.1.ends).seq (s.2 s.1.ends), g, h1.mono fun i o t _ ho _ => ?_, can_seq (ks s.1.ends) (hw.1 _) _ (h.2 _), h3, h4, ?_⟩
    · subst ho
      exact can_seq (ks i) (hw.1 i) (s.2 i) (h.2 i)
    · rw [← h5]; exact p.trans_spec hw.2 _

end Rpp.Net
