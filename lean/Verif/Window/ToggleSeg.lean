import Verif.Window.ToggleWin

/-!
# `window_toggle`: what a call does while it has the mutex
-/

namespace Rpp.Win.Toggle
variable {α ε : Type}
open Rpp.Win (Item)

/-- A test on the constructor; models no code. -/
def Ev.isEnded : Ev α ε → Bool
  | .ended _ => true
  | _ => false

/-- Events that delimit. -/
def Ev.mark : Ev α ε → Bool
  | .acc _ _ => true
  | .rel _ => true
  | .created _ => true
  | _ => false

/-- The windows `a` has pushed into. -/
def fedBy (a : Actor) : List (Ev α ε) → List Nat
  | [] => []
  | .fed b w _ :: l => if b = a then w :: fedBy a l else fedBy a l
  | _ :: l => fedBy a l

theorem fedBy_append (a : Actor) (l m : List (Ev α ε)) : fedBy a (l ++ m) = fedBy a l ++ fedBy a m := by
  induction l with
  | nil => rfl
  | cons e l ih => cases e <;> simp [fedBy, ih]; split <;> simp

theorem mem_fedBy (a : Actor) (l : List (Ev α ε)) (w : Nat) : w ∈ fedBy a l ↔ ∃ x, .fed a w x ∈ l := by
  induction l with
  | nil => simp [fedBy]
  | cons e l ih =>
    cases e <;> simp only [fedBy, List.mem_cons, reduceCtorEq, false_or, ih]
    next b v x =>
      split
      · next h =>
        subst h
        simp only [List.mem_cons, ih]
        constructor
        · rintro (rfl | ⟨y, hy⟩)
          · exact ⟨x, .inl rfl⟩
          · exact ⟨y, .inr hy⟩
        · rintro ⟨y, hy | hy⟩
          · cases hy; exact .inl rfl
          · exact .inr ⟨y, hy⟩
      · next h => rw [ih]; grind

/-- The closing has fired, and the main observer is gone for a reason. -/
structure InvH (s : St α ε) : Prop where
  fi : ∀ w, (s.pc (.cls w)).shuts = true → .fire w ∈ s.log
  mo : s.mainOn = false → .leave ∈ s.log ∨ s.log.any Ev.isEnded = true
  mc : ∀ a x, (s.pc a = .mainCb x ∨ s.pc a = .mainOut x) → s.log.any Ev.isEnded = true

theorem contEv_ended (w : Nat) (k) : (contEv w k : List (Ev α ε)).any Ev.isEnded = false := by cases k <;> rfl

theorem InvH.tr {s s' : St α ε} (h : InvH s) (hA : InvA s) (t : Tr s s') : InvH s' := by
  obtain ⟨fi, mo, mc⟩ := h
  obtain ⟨hl, ho⟩ := hA
  generalize hfb : s.log.any Ev.isEnded = fb at *
  cases t
  case giveOn a x w k hg h1 h2 =>
    rcases gives_eq hg with ⟨r, hp, rfl⟩ | ⟨hp, rfl, rfl⟩
    all_goals
      constructor <;> simp only [upd, List.mem_append, List.mem_singleton, List.any_append, List.any_cons, List.any_nil, Ev.isEnded, hfb, reduceCtorEq, or_false, Bool.or_false] at * <;> grind [Pc.shuts]
  case giveOff a x w k hg h1 h2 =>
    rcases gives_eq hg with ⟨r, hp, rfl⟩ | ⟨hp, rfl, rfl⟩
    all_goals
      constructor <;> simp only [upd, List.mem_append, List.mem_singleton, List.any_append, List.any_cons, List.any_nil, Ev.isEnded, hfb, contEv_ended, reduceCtorEq, or_false, Bool.or_false] at * <;> grind [Pc.shuts, cont]
  case giveNot a x w k hg h1 =>
    rcases gives_eq hg with ⟨r, hp, rfl⟩ | ⟨hp, rfl, rfl⟩
    all_goals
      constructor <;> simp only [upd, List.mem_append, List.any_append, hfb, contEv_ended, or_false, Bool.or_false] at * <;> grind [Pc.shuts, cont]
  case chkOff a x w k hp h2 =>
    cases k <;> constructor <;> simp only [upd, List.mem_append, List.any_append, hfb, contEv_ended, or_false, Bool.or_false] at * <;> grind [Pc.shuts, cont]
  case innT a x w k hp hx =>
    cases k <;> constructor <;> simp only [upd, List.mem_append, List.mem_cons, List.any_cons, Ev.isEnded, List.any_append, hfb, contEv_ended, or_false, Bool.or_false] at * <;> grind [Pc.shuts, cont]
  case innV a x w k hp hx =>
    cases k <;> constructor <;> simp only [upd, List.mem_append, List.mem_cons, List.any_cons, Ev.isEnded, List.any_append, hfb, contEv_ended, or_false, Bool.or_false] at * <;> grind [Pc.shuts, cont]
  case chk a x w k hp h2 => cases k <;> constructor <;> simp only [upd] at * <;> grind [Pc.shuts]
  case go a x w k hp =>
    cases k <;> constructor <;> simp only [upd, List.mem_append, List.mem_singleton, List.any_append, List.any_cons, List.any_nil, Ev.isEnded, hfb, reduceCtorEq, or_false, Bool.or_false] at * <;> grind [Pc.shuts]
  case fire w h1 h2 h3 =>
    constructor <;> simp only [upd, List.mem_append, List.mem_singleton, List.any_append, List.any_cons, List.any_nil, Ev.isEnded, hfb, reduceCtorEq, or_false, Bool.or_false, Ev.fire.injEq] at * <;> grind [Pc.shuts]
  all_goals
    constructor <;> simp only [upd, List.mem_append, List.mem_cons, List.not_mem_nil, List.any_append, List.any_cons, List.any_nil, Ev.isEnded, hfb, reduceCtorEq, or_false, Bool.or_false, Bool.or_true] at * <;> grind [Pc.shuts]

theorem invH (ls : List (Lbl α ε)) : InvH (exec ls) :=
  (exec_induct (P := fun s => InvA s ∧ InvH s)
    ⟨invA [], by constructor <;> simp [Pc.shuts]⟩ (fun _ _ h t => ⟨h.1.tr t, h.2.tr h.1 t⟩) ls).2

/-- A call that has the mutex to pass `x` on: what remains to be done, and whether the main observer was told. -/
def Pc.seg : Pc α ε → Option (Item α ε × List Nat × Bool)
  | .loop x r => some (x, r, false)
  | .deliv x _ (some r) _ => some (x, r, false)
  | .mainCb x => some (x, [], true)
  | .mainOut x => some (x, [], true)
  | _ => none

/-- The call of `a` with `x`: the events `pre` came before it got the mutex, `mid` since then. -/
structure Good (pre mid : List (Ev α ε)) (a : Actor) (x : Item α ε) (rest : List Nat) (m : Bool) : Prop where
  g1 : ∀ b w y, .fed b w y ∈ mid → (b = a ∧ y = x ∧ .created w ∈ pre ∧ w ∉ rest) ∨ (b = .cls w ∧ b ≠ a ∧ y = .done ∧ .fire w ∈ pre ++ mid)
  g2 : (fedBy a mid).Nodup
  g3 : ∀ w, .created w ∈ pre → w ∈ rest ∨ endedIn w (pre ++ mid) = true ∨ .fed a w x ∈ mid
  g4 : rest.Nodup
  g5 : ∀ w ∈ rest, .created w ∈ pre
  g6 : ∀ e ∈ mid, e.mark = false
  g7 : m = false → mid.any Ev.isEnded = false
  g8 : m = true → .ended x ∈ mid

theorem Good.quiet {pre mid : List (Ev α ε)} {a x rest m} (h : Good pre mid a x rest m) (es : List (Ev α ε))
    (h1 : ∀ e ∈ es, e.mark = false ∧ e.isEnded = false)
    (h2 : ∀ b w y, .fed b w y ∈ es → b = .cls w ∧ b ≠ a ∧ y = .done ∧ .fire w ∈ pre ++ mid) :
    Good pre (mid ++ es) a x rest m := by
  obtain ⟨g1, g2, g3, g4, g5, g6, g7, g8⟩ := h
  have hf : fedBy a es = [] := by
    rw [List.eq_nil_iff_forall_not_mem]
    intro w hw
    obtain ⟨y, hy⟩ := (mem_fedBy a es w).mp hw
    exact (h2 _ _ _ hy).2.1 rfl
  refine ⟨?_, by rw [fedBy_append, hf, List.append_nil]; exact g2, ?_, g4, g5, ?_, ?_, ?_⟩
  · intro b w y hm
    rcases List.mem_append.mp hm with hm | hm
    · rcases g1 b w y hm with h | ⟨h, h', h'', h'''⟩
      · exact .inl h
      · refine .inr ⟨h, h', h'', ?_⟩
        rw [← List.append_assoc]; exact List.mem_append_left _ h'''
    · obtain ⟨h, h', h'', h'''⟩ := h2 _ _ _ hm
      refine .inr ⟨h, h', h'', ?_⟩
      rw [← List.append_assoc]; exact List.mem_append_left _ h'''
  · intro w hw
    rcases g3 w hw with h | h | h
    · exact .inl h
    · rw [← List.append_assoc, endedIn_append, h]; exact .inr (.inl rfl)
    · exact .inr (.inr (List.mem_append_left _ h))
  · intro e he
    rcases List.mem_append.mp he with he | he
    · exact g6 e he
    · exact (h1 e he).1
  · intro hm
    rw [List.any_append, g7 hm, Bool.false_or, List.any_eq_false]
    intro e he
    rw [(h1 e he).2]; simp
  · intro hm; exact List.mem_append_left _ (g8 hm)

/-- When the mutex is released. -/
def Fin (pre mid : List (Ev α ε)) (a : Actor) (x : Item α ε) : Prop :=
  (∃ m, Good pre mid a x [] m) ∧
    (x.term = true → .ended x ∈ mid ∨ .leave ∈ pre ++ mid ∨ pre.any Ev.isEnded = true)

/-- Invariant of the proofs; models no code. -/
structure InvC (s : St α ε) : Prop where
  cur : ∀ a x r m, (s.pc a).seg = some (x, r, m) → ∃ pre mid, s.log = pre ++ .acc a x :: mid ∧ Good pre mid a x r m
  fin : ∀ pre a x mid b post, s.log = pre ++ .acc a x :: mid ++ .rel b :: post → (∀ e ∈ mid, e.mark = false) → b = a ∧ Fin pre mid a x

theorem split_es {l es pre : List (Ev α ε)} {a : Ev α ε} {mid : List (Ev α ε)} {b : Ev α ε} {post : List (Ev α ε)}
    (hb : b ∉ es) (h : l ++ es = pre ++ a :: mid ++ b :: post) : ∃ post', l = pre ++ a :: mid ++ b :: post' := by
  rcases List.append_eq_append_iff.mp h with ⟨c, h1, h2⟩ | ⟨c, h1, h2⟩
  · cases c with
    | nil =>
      simp only [List.nil_append] at h2
      exact absurd (by rw [h2]; simp) hb
    | cons d c =>
      exact absurd (by rw [h2]; simp) hb
  · cases c with
    | nil =>
      simp only [List.nil_append] at h2
      exact absurd (by rw [← h2]; simp) hb
    | cons d c =>
      simp only [List.cons_append, List.cons.injEq] at h2
      obtain ⟨rfl, _⟩ := h2
      exact ⟨c, h1⟩

theorem InvC.fin_es {s : St α ε} (h : InvC s) (es : List (Ev α ε)) (hr : ∀ b, .rel b ∉ es) :
    ∀ pre a x mid b post, s.log ++ es = pre ++ .acc a x :: mid ++ .rel b :: post → (∀ e ∈ mid, e.mark = false) → b = a ∧ Fin pre mid a x := by
  intro pre a x mid b post he hm
  obtain ⟨post', hp⟩ := split_es (hr b) he
  exact h.fin pre a x mid b post' hp hm

/-- Steps that leave the calls with the mutex where they are. -/
theorem InvC.quiet {s s' : St α ε} (h : InvC s) (es : List (Ev α ε)) (hlog : s'.log = s.log ++ es)
    (h1 : ∀ e ∈ es, e.mark = false ∧ e.isEnded = false)
    (h2 : ∀ b w y, .fed b w y ∈ es → b = .cls w ∧ y = .done ∧ .fire w ∈ s.log ∧ (s.pc b).seg = none)
    (hpc : ∀ a, (s'.pc a).seg = (s.pc a).seg) : InvC s' := by
  constructor
  · intro a x r m ha
    rw [hpc a] at ha
    obtain ⟨pre, mid, he, hg⟩ := h.cur a x r m ha
    refine ⟨pre, mid ++ es, by rw [hlog, he]; simp, hg.quiet es h1 ?_⟩
    intro b w y hm
    obtain ⟨q1, q2, q3, q4⟩ := h2 b w y hm
    refine ⟨q1, ?_, q2, ?_⟩
    · rintro rfl; rw [q4] at ha; cases ha
    · rw [he] at q3
      rcases List.mem_append.mp q3 with q | q
      · exact List.mem_append_left _ q
      · rcases List.mem_cons.mp q with q | q
        · cases q
        · exact List.mem_append_right _ q
  · rw [hlog]
    exact h.fin_es es (fun b hb => by have := (h1 _ hb).1; cases this)

theorem seg_holds {p : Pc α ε} {y} (h : p.seg = some y) : p.holds = true := by
  cases p <;> first | rfl | cases h | skip
  next x w k st => cases k <;> first | rfl | cases h

theorem seg_cont {x : Item α ε} {w k} : (cont x w k).seg = k.map (fun r => (x, r, false)) := by cases k <;> rfl

theorem contEv_quiet (w : Nat) (k) : ∀ e ∈ (contEv w k : List (Ev α ε)), e.mark = false ∧ e.isEnded = false ∧ ∀ a v x, e ≠ .fed a v x := by
  cases k <;> simp [contEv, Ev.mark, Ev.isEnded]

/-- One window further. -/
theorem Good.next {pre mid : List (Ev α ε)} {a x w r} (h : Good pre mid a x (w :: r) false) (h1 : endedIn w (pre ++ mid) = true) :
    Good pre mid a x r false := by
  obtain ⟨g1, g2, g3, g4, g5, g6, g7, g8⟩ := h
  obtain ⟨n1, n2⟩ := List.nodup_cons.mp g4
  refine ⟨?_, g2, ?_, n2, fun v hv => g5 v (List.mem_cons_of_mem _ hv), g6, g7, g8⟩
  · intro b v y hm
    rcases g1 b v y hm with ⟨q1, q2, q3, q4⟩ | q
    · exact .inl ⟨q1, q2, q3, fun hv => q4 (List.mem_cons_of_mem _ hv)⟩
    · exact .inr q
  · intro v hv
    rcases g3 v hv with q | q
    · rcases List.mem_cons.mp q with rfl | q
      · exact .inr (.inl h1)
      · exact .inl q
    · exact .inr q

theorem Good.fed {pre mid : List (Ev α ε)} {a x w r} (h : Good pre mid a x (w :: r) false) :
    Good pre (mid ++ [.fed a w x]) a x r false := by
  obtain ⟨g1, g2, g3, g4, g5, g6, g7, g8⟩ := h
  obtain ⟨n1, n2⟩ := List.nodup_cons.mp g4
  have hw : w ∉ fedBy a mid := by
    intro hw
    obtain ⟨y, hy⟩ := (mem_fedBy a mid w).mp hw
    rcases g1 _ _ _ hy with q | q
    · exact q.2.2.2 List.mem_cons_self
    · exact q.2.1 rfl
  refine ⟨?_, ?_, ?_, n2, fun v hv => g5 v (List.mem_cons_of_mem _ hv), ?_, ?_, by simp⟩
  · intro b v y hm
    rcases List.mem_append.mp hm with hm | hm
    · rcases g1 b v y hm with ⟨q1, q2, q3, q4⟩ | ⟨q1, q2, q3, q4⟩
      · exact .inl ⟨q1, q2, q3, fun hv => q4 (List.mem_cons_of_mem _ hv)⟩
      · refine .inr ⟨q1, q2, q3, ?_⟩
        rw [← List.append_assoc]; exact List.mem_append_left _ q4
    · rw [List.mem_singleton] at hm
      cases hm
      exact .inl ⟨rfl, rfl, g5 _ List.mem_cons_self, n1⟩
  · rw [fedBy_append]
    simp only [fedBy, if_true]
    rw [List.nodup_append]
    refine ⟨g2, by simp, ?_⟩
    intro u hu v hv
    rw [List.mem_singleton] at hv
    subst hv
    rintro rfl
    exact hw hu
  · intro v hv
    rcases g3 v hv with q | q | q
    · rcases List.mem_cons.mp q with rfl | q
      · exact .inr (.inr (by simp))
      · exact .inl q
    · right; left; rw [← List.append_assoc, endedIn_append, q]; rfl
    · exact .inr (.inr (List.mem_append_left _ q))
  · intro e he
    rcases List.mem_append.mp he with he | he
    · exact g6 e he
    · rw [List.mem_singleton] at he; subst he; rfl
  · intro hm
    rw [List.any_append, g7 hm]; rfl

theorem last_mark {pre mid pre0 mid0 : List (Ev α ε)} {e e0 : Ev α ε} (h : pre ++ e :: mid = pre0 ++ e0 :: mid0)
    (he : e.mark = true) (he0 : e0.mark = true) (hm : ∀ f ∈ mid, f.mark = false) (hm0 : ∀ f ∈ mid0, f.mark = false) :
    pre = pre0 ∧ e = e0 ∧ mid = mid0 := by
  rcases List.append_eq_append_iff.mp h with ⟨c, h1, h2⟩ | ⟨c, h1, h2⟩
  · cases c with
    | nil => simp at h1 h2; exact ⟨h1.symm, h2.1, h2.2⟩
    | cons d c =>
      simp only [List.cons_append, List.cons.injEq] at h2
      have := hm e0 (by rw [h2.2]; simp)
      rw [he0] at this; cases this
  · cases c with
    | nil => simp at h1 h2; exact ⟨h1, h2.1.symm, h2.2.symm⟩
    | cons d c =>
      simp only [List.cons_append, List.cons.injEq] at h2
      have := hm0 e (by rw [h2.2]; simp)
      rw [he] at this; cases this

theorem split_snoc {l pre rest : List (Ev α ε)} {e f : Ev α ε} (h : l ++ [e] = pre ++ f :: rest) :
    (e = f ∧ rest = [] ∧ l = pre) ∨ ∃ r, rest = r ++ [e] ∧ l = pre ++ f :: r := by
  rcases List.eq_nil_or_concat rest with rfl | ⟨r, c, rfl⟩
  · left
    have := List.append_inj' h rfl
    exact ⟨by simpa using this.2, rfl, this.1⟩
  · right
    have he' : l ++ [e] = (pre ++ f :: r) ++ [c] := by simpa using h
    have := List.append_inj' he' rfl
    exact ⟨r, by simpa using this.2.symm, this.1⟩

/-- The mutex is released. -/
theorem InvC.release {s s' : St α ε} (h : InvC s) (hA : InvA s) {a x m} (hs : (s.pc a).seg = some (x, [], m))
    (hlog : s'.log = s.log ++ [.rel a]) (hpc : s'.pc = upd s.pc a .idle)
    (hmain : ∀ pre mid, s.log = pre ++ .acc a x :: mid → Good pre mid a x [] m →
      x.term = true → .ended x ∈ mid ∨ .leave ∈ pre ++ mid ∨ pre.any Ev.isEnded = true) : InvC s' := by
  obtain ⟨pre0, mid0, he, hg⟩ := h.cur a x [] m hs
  constructor
  · intro b y r m' hb
    rw [hpc] at hb
    simp only [upd] at hb
    split at hb
    · cases hb
    · next hne =>
      have q1 := (hA.lock b).mpr (seg_holds hb)
      have q2 := (hA.lock a).mpr (seg_holds hs)
      rw [q1] at q2; cases q2; exact absurd rfl hne
  · intro pre c y mid b post hl hm
    rw [hlog] at hl
    rcases split_snoc hl with ⟨q1, q2, q3⟩ | ⟨r, q1, q2⟩
    · cases q1
      rw [he] at q3
      obtain ⟨rfl, q, rfl⟩ := last_mark q3 rfl rfl hg.g6 hm
      cases q
      exact ⟨rfl, ⟨m, hg⟩, hmain _ _ he hg⟩
    · exact h.fin pre c y mid b r q2 hm

theorem InvC.tr {s s' : St α ε} (h : InvC s) (hA : InvA s) (hB : InvB s) (hH : InvH s) (t : Tr s s') : InvC s' := by
  -- a call that is not passing anything on before or after
  have skip : ∀ (a : Actor) (p : Pc α ε), (s.pc a).seg = p.seg → ∀ b, (upd s.pc a p b).seg = (s.pc b).seg := by
    intro a p he b
    simp only [upd]
    split
    · next hb => subst hb; exact he.symm
    · rfl
  cases t with
  | src x h1 h2 h3 => exact h.quiet [] (by simp) (by simp) (by simp) (skip _ _ (by rw [isIdle_eq h1]; rfl))
  | opn h1 h2 h3 => exact h.quiet [.open] rfl (by simp [Ev.mark, Ev.isEnded]) (by simp) (skip _ _ (by rw [isIdle_eq h1]; rfl))
  | opnErr e h1 h2 h3 => exact h.quiet [] (by simp) (by simp) (by simp) (skip _ _ (by rw [isIdle_eq h1]; rfl))
  | opnDone h1 => exact h.quiet [] (by simp) (by simp) (by simp) (fun _ => rfl)
  | selThrow e w hp => exact h.quiet [] (by simp) (by simp) (by simp) (skip _ _ (by rw [hp]; rfl))
  | fire w h1 h2 h3 => exact h.quiet [.fire w] rfl (by simp [Ev.mark, Ev.isEnded]) (by simp) (skip _ _ (by rw [isIdle_eq h1]; rfl))
  | cErr w e h1 h2 h3 => exact h.quiet [] (by simp) (by simp) (by simp) (skip _ _ (by rw [isIdle_eq h1]; rfl))
  | lockErase a w hp hl => exact h.quiet [] (by simp) (by simp) (by simp) (skip _ _ (by rw [hp]; rfl))
  | chk a x w k hp h2 => exact h.quiet [] (by simp) (by simp) (by simp) (skip _ _ (by rw [hp]; cases k <;> rfl))
  | chkOff a x w k hp h2 =>
    refine h.quiet (contEv w k) rfl (fun e he => ⟨(contEv_quiet w k e he).1, (contEv_quiet w k e he).2.1⟩) ?_ (skip _ _ (by rw [hp, seg_cont]; cases k <;> rfl))
    exact fun b v y hm => absurd rfl ((contEv_quiet w k _ hm).2.2 b v y)
  | go a x w k hp => exact h.quiet [.got w x] rfl (by simp [Ev.mark, Ev.isEnded]) (by simp) (skip _ _ (by rw [hp]; cases k <;> rfl))
  | innT a x w k hp hx =>
    refine h.quiet (.ret w :: contEv w k) rfl ?_ ?_ (skip _ _ (by rw [hp, seg_cont]; cases k <;> rfl))
    · cases k <;> simp [contEv, Ev.mark, Ev.isEnded]
    · cases k <;> simp [contEv]
  | innV a x w k hp hx =>
    refine h.quiet (.ret w :: contEv w k) rfl ?_ ?_ (skip _ _ (by rw [hp, seg_cont]; cases k <;> rfl))
    · cases k <;> simp [contEv, Ev.mark, Ev.isEnded]
    · cases k <;> simp [contEv]
  | openCb a w hp => exact h.quiet [.mainRet] rfl (by simp [Ev.mark, Ev.isEnded]) (by simp) (skip _ _ (by rw [hp]; rfl))
  | mainCb a x hp => exact h.quiet [.mainRet] rfl (by simp [Ev.mark, Ev.isEnded]) (by simp) (skip _ _ (by rw [hp]; rfl))
  | post a w hp => exact h.quiet [] (by simp) (by simp) (by simp) (skip _ _ (by rw [hp]; rfl))
  | sub w h1 h2 h3 h4 => exact h.quiet [.sub w] rfl (by simp [Ev.mark, Ev.isEnded]) (by simp) (fun _ => rfl)
  | unsub w h1 => exact h.quiet [.unsub w] rfl (by simp [Ev.mark, Ev.isEnded]) (by simp) (fun _ => rfl)
  | leave h1 => exact h.quiet [.leave] rfl (by simp [Ev.mark, Ev.isEnded]) (by simp) (fun _ => rfl)
  | refire w h1 h2 h3 => exact h.quiet [.again w] rfl (by simp [Ev.mark, Ev.isEnded]) (by simp) (fun _ => rfl)
  | die h1 h2 h3 => exact h.quiet [.dead] rfl (by simp [Ev.mark, Ev.isEnded]) (by simp) (fun _ => rfl)
  | lockOpen a hp hl hm =>
    constructor
    · intro b x r m hb
      simp only [upd] at hb
      split at hb
      · cases hb
      · have := (hA.lock b).mpr (seg_holds hb)
        rw [hl] at this; cases this
    · exact h.fin_es [.created s.next, .opened s.next] (by simp)
  | lockOpenOff a hp hl hm =>
    constructor
    · intro b x r m hb
      simp only [upd] at hb
      split at hb
      · cases hb
      · have := (hA.lock b).mpr (seg_holds hb)
        rw [hl] at this; cases this
    · exact h.fin_es [.created s.next] (by simp)
  | lockItem a x hp hl =>
    constructor
    · intro b y r m hb
      simp only [upd] at hb
      split at hb
      · next hba =>
        subst hba
        simp only [Pc.seg, Option.some.injEq, Prod.mk.injEq] at hb
        obtain ⟨rfl, rfl, rfl⟩ := hb
        refine ⟨s.log, [], rfl, ?_⟩
        refine ⟨by simp, by simp [fedBy], ?_, hB.nd, ?_, by simp, by simp, by simp⟩
        · intro w hw
          rw [hB.cr w] at hw
          by_cases hlv : s.live w = true
          · exact .inl (hB.lv w hlv).1
          · right; left
            rw [List.append_nil]
            exact hB.en w hw (by simpa using hlv)
        · intro w hw
          exact (hB.cr w).mpr (hB.lt w hw)
      · have := (hA.lock b).mpr (seg_holds hb)
        rw [hl] at this; cases this
    · exact h.fin_es [.acc a x] (by simp)
  | giveOn a x w k hg h1 h2 =>
    rcases gives_eq hg with ⟨r, hp, rfl⟩ | ⟨hp, rfl, rfl⟩
    · constructor
      · intro b y r' m hb
        simp only [upd] at hb
        split at hb
        · next hba =>
          subst hba
          simp only [Pc.seg, Option.some.injEq, Prod.mk.injEq] at hb
          obtain ⟨rfl, rfl, rfl⟩ := hb
          obtain ⟨pre, mid, he, hgd⟩ := h.cur b x (w :: r) false (by rw [hp]; rfl)
          exact ⟨pre, mid ++ [.fed b w x], by rw [he]; simp, hgd.fed⟩
        · next hne =>
          have q1 := (hA.lock b).mpr (seg_holds hb)
          have q2 := (hA.lock a).mpr (by rw [hp]; rfl)
          rw [q1] at q2; cases q2; exact absurd rfl hne
      · exact h.fin_es [.fed a w x] (by simp)
    · obtain rfl := ok_fired (hp ▸ hA.ok a)
      refine h.quiet [.fed (.cls w) w .done] rfl (by simp [Ev.mark, Ev.isEnded]) ?_ (skip _ _ (by rw [hp]; rfl))
      intro b v y hm
      simp only [List.mem_singleton, Ev.fed.injEq] at hm
      obtain ⟨rfl, rfl, rfl⟩ := hm
      exact ⟨rfl, rfl, hH.fi _ (by rw [hp]; rfl), by rw [hp]; rfl⟩
  | giveOff a x w k hg h1 h2 =>
    rcases gives_eq hg with ⟨r, hp, rfl⟩ | ⟨hp, rfl, rfl⟩
    · constructor
      · intro b y r' m hb
        simp only [upd, cont] at hb
        split at hb
        · next hba =>
          subst hba
          simp only [Pc.seg, Option.some.injEq, Prod.mk.injEq] at hb
          obtain ⟨rfl, rfl, rfl⟩ := hb
          obtain ⟨pre, mid, he, hgd⟩ := h.cur b x (w :: r) false (by rw [hp]; rfl)
          exact ⟨pre, mid ++ [.fed b w x], by simp [he, contEv], hgd.fed⟩
        · next hne =>
          have q1 := (hA.lock b).mpr (seg_holds hb)
          have q2 := (hA.lock a).mpr (by rw [hp]; rfl)
          rw [q1] at q2; cases q2; exact absurd rfl hne
      · have := h.fin_es [.fed a w x] (by simp)
        simpa [contEv] using this
    · obtain rfl := ok_fired (hp ▸ hA.ok a)
      refine h.quiet [.fed (.cls w) w .done, .fireEnd w] (by simp [contEv]) (by simp [Ev.mark, Ev.isEnded]) ?_ (skip _ _ (by rw [hp]; rfl))
      intro b v y hm
      simp only [List.mem_cons, Ev.fed.injEq, reduceCtorEq, List.not_mem_nil, or_false] at hm
      obtain ⟨rfl, rfl, rfl⟩ := hm
      exact ⟨rfl, rfl, hH.fi _ (by rw [hp]; rfl), by rw [hp]; rfl⟩
  | giveNot a x w k hg h1 =>
    rcases gives_eq hg with ⟨r, hp, rfl⟩ | ⟨hp, rfl, rfl⟩
    · constructor
      · intro b y r' m hb
        simp only [upd, cont] at hb
        split at hb
        · next hba =>
          subst hba
          simp only [Pc.seg, Option.some.injEq, Prod.mk.injEq] at hb
          obtain ⟨rfl, rfl, rfl⟩ := hb
          obtain ⟨pre, mid, he, hgd⟩ := h.cur b x (w :: r) false (by rw [hp]; rfl)
          refine ⟨pre, mid, by simp [he, contEv], hgd.next ?_⟩
          have := hB.en w (hB.td b w (by rw [hp]; simp [Pc.todo])) h1
          rw [he] at this
          simpa [endedIn_append, endedIn] using this
        · next hne =>
          have q1 := (hA.lock b).mpr (seg_holds hb)
          have q2 := (hA.lock a).mpr (by rw [hp]; rfl)
          rw [q1] at q2; cases q2; exact absurd rfl hne
      · have := h.fin_es [] (by simp)
        simpa [contEv] using this
    · obtain rfl := ok_fired (hp ▸ hA.ok a)
      exact h.quiet [.fireEnd w] rfl (by simp [Ev.mark, Ev.isEnded]) (by simp) (skip _ _ (by rw [hp]; rfl))
  | loopMain a x hp hx hm =>
    constructor
    · intro b y r' m hb
      simp only [upd] at hb
      split at hb
      · next hba =>
        subst hba
        simp only [Pc.seg, Option.some.injEq, Prod.mk.injEq] at hb
        obtain ⟨rfl, rfl, rfl⟩ := hb
        obtain ⟨pre, mid, he, hgd⟩ := h.cur b x [] false (by rw [hp]; rfl)
        refine ⟨pre, mid ++ [.ended x], by simp [he], ?_⟩
        obtain ⟨g1, g2, g3, g4, g5, g6, g7, g8⟩ := hgd
        refine ⟨?_, ?_, ?_, g4, g5, ?_, by simp, by simp⟩
        · intro b v y hm
          simp only [List.mem_append, List.mem_singleton, reduceCtorEq, or_false] at hm
          rcases g1 b v y hm with q | ⟨q1, q2, q3, q4⟩
          · exact .inl q
          · refine .inr ⟨q1, q2, q3, ?_⟩
            rw [← List.append_assoc]; exact List.mem_append_left _ q4
        · simpa [fedBy_append, fedBy] using g2
        · intro v hv
          rcases g3 v hv with q | q | q
          · exact .inl q
          · right; left; rw [← List.append_assoc, endedIn_append, q]; rfl
          · exact .inr (.inr (List.mem_append_left _ q))
        · intro e he
          rcases List.mem_append.mp he with he | he
          · exact g6 e he
          · rw [List.mem_singleton] at he; subst he; rfl
      · next hne =>
        have q1 := (hA.lock b).mpr (seg_holds hb)
        have q2 := (hA.lock a).mpr (by rw [hp]; rfl)
        rw [q1] at q2; cases q2; exact absurd rfl hne
    · exact h.fin_es [.ended x] (by simp)
  | loopEnd a x hp hx =>
    refine h.release (a := a) (x := x) (m := false) hA (by rw [hp]; rfl) rfl rfl ?_
    intro pre mid he hg ht
    rcases hx with hx | hx
    · rw [ht] at hx; cases hx
    · rcases hH.mo hx with q | q
      · rw [he] at q
        simp only [List.mem_append, List.mem_cons, reduceCtorEq, false_or] at q
        exact .inr (.inl (List.mem_append.mpr q))
      · rw [he, List.any_append, List.any_cons, hg.g7 rfl] at q
        exact .inr (.inr (by simpa [Ev.isEnded] using q))
  | mainOut a x hp =>
    refine h.release (a := a) (x := x) (m := true) hA (by rw [hp]; rfl) rfl rfl ?_
    intro pre mid he hg ht
    exact .inl (hg.g8 rfl)

theorem invC (ls : List (Lbl α ε)) : InvC (exec ls) :=
  (exec_induct (P := fun s => InvA s ∧ InvB s ∧ InvH s ∧ InvC s)
    ⟨invA [], invB [], invH [], by constructor <;> simp [Pc.seg]⟩
    (fun _ _ h t => ⟨h.1.tr t, h.2.1.tr h.1 t, h.2.2.1.tr h.1 t, h.2.2.2.tr h.1 h.2.1 h.2.2.1 t⟩) ls).2.2.2

end Rpp.Win.Toggle
