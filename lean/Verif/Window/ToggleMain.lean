import Verif.Window.ToggleSeg

/-!
# `window_toggle`: the main observer, `erase`, and when a window is given something
-/

namespace Rpp.Win.Toggle
variable {α ε : Type}
open Rpp.Win (Item)

/-! ## The main observer -/

theorem mains_append (l m : List (Ev α ε)) : mains (l ++ m) = m.foldl mainStep (mains l) := by
  simp [mains, List.foldl_append]

theorem mains_contEv (c : Cb) (w k) : (contEv w k : List (Ev α ε)).foldl mainStep c = c := by cases k <;> rfl

/-- Used in the proofs; models no code. -/
def Pc.inMain : Pc α ε → Bool
  | .openCb _ => true
  | .mainCb _ => true
  | _ => false

/-- Invariant of the proofs; models no code. -/
structure InvE (s : St α ε) : Prop where
  m1 : ∀ a w, s.pc a = .openCb w → mains s.log = .inVal
  m2 : ∀ a x, s.pc a = .mainCb x → mains s.log = .inEnd
  m3 : (∀ a, s.lock = some a → (s.pc a).inMain = false) → mains s.log = .out ∨ mains s.log = .over
  m4 : mains s.log = .over → s.mainOn = false
  m5 : mains s.log ≠ .bad

theorem InvE.tr {s s' : St α ε} (h : InvE s) (hA : InvA s) (t : Tr s s') : InvE s' := by
  obtain ⟨m1, m2, m3, m4, m5⟩ := h
  obtain ⟨hl, ho⟩ := hA
  generalize hc : mains s.log = c at *
  have hm3 : c = .out ∨ c = .over ∨ ∃ a, s.lock = some a ∧ (s.pc a).inMain = true := by
    by_cases q : ∀ a, s.lock = some a → (s.pc a).inMain = false
    · rcases m3 q with q | q <;> simp [q]
    · simp only [Classical.not_forall, Bool.not_eq_false] at q
      obtain ⟨a, q1, q2⟩ := q
      exact .inr (.inr ⟨a, q1, q2⟩)
  clear ho
  cases t
  case giveOn a x w k hg h1 h2 =>
    rcases gives_eq hg with ⟨r, hp, rfl⟩ | ⟨hp, rfl, rfl⟩
    all_goals
      constructor <;> simp only [upd, mains_append, hc, List.foldl_cons, List.foldl_nil, mainStep] at * <;> grind [Pc.inMain, Pc.holds]
  case giveOff a x w k hg h1 h2 =>
    rcases gives_eq hg with ⟨r, hp, rfl⟩ | ⟨hp, rfl, rfl⟩
    all_goals
      constructor <;> simp only [upd, mains_append, hc, List.foldl_cons, List.foldl_nil, mainStep, mains_contEv] at * <;> grind [Pc.inMain, Pc.holds, cont]
  case giveNot a x w k hg h1 =>
    rcases gives_eq hg with ⟨r, hp, rfl⟩ | ⟨hp, rfl, rfl⟩
    all_goals
      constructor <;> simp only [upd, mains_append, hc, mains_contEv] at * <;> grind [Pc.inMain, Pc.holds, cont]
  case chkOff a x w k hp h2 =>
    cases k <;> constructor <;> simp only [upd, mains_append, hc, mains_contEv] at * <;> grind [Pc.inMain, Pc.holds, cont]
  case innT a x w k hp hx =>
    cases k <;> constructor <;> simp only [upd, mains_append, hc, mains_contEv, List.foldl_cons, mainStep] at * <;> grind [Pc.inMain, Pc.holds, cont]
  case innV a x w k hp hx =>
    cases k <;> constructor <;> simp only [upd, mains_append, hc, mains_contEv, List.foldl_cons, mainStep] at * <;> grind [Pc.inMain, Pc.holds, cont]
  case chk a x w k hp h2 => cases k <;> constructor <;> simp only [upd] at * <;> grind [Pc.inMain, Pc.holds]
  case go a x w k hp =>
    cases k <;> constructor <;> simp only [upd, mains_append, hc, List.foldl_cons, List.foldl_nil, mainStep] at * <;> grind [Pc.inMain, Pc.holds]
  case src x h1 _ _ => have := isIdle_eq h1; constructor <;> simp only [upd] at * <;> grind [Pc.inMain, Pc.holds]
  case opn h1 _ _ => have := isIdle_eq h1; constructor <;> simp only [upd, mains_append, hc, List.foldl_cons, List.foldl_nil, mainStep] at * <;> grind [Pc.inMain, Pc.holds]
  case opnErr x h1 _ _ => have := isIdle_eq h1; constructor <;> simp only [upd] at * <;> grind [Pc.inMain, Pc.holds]
  case fire w h1 _ _ => have := isIdle_eq h1; constructor <;> simp only [upd, mains_append, hc, List.foldl_cons, List.foldl_nil, mainStep] at * <;> grind [Pc.inMain, Pc.holds]
  case cErr w x h1 _ _ => have := isIdle_eq h1; constructor <;> simp only [upd] at * <;> grind [Pc.inMain, Pc.holds]
  all_goals
    constructor <;> simp only [upd, mains_append, hc, List.foldl_cons, List.foldl_nil, mainStep] at * <;> grind [Pc.inMain, Pc.holds]

theorem invE (ls : List (Lbl α ε)) : InvE (exec ls) :=
  (exec_induct (P := fun s => InvA s ∧ InvE s)
    ⟨invA [], by constructor <;> simp [mains]⟩ (fun _ _ h t => ⟨h.1.tr t, h.2.tr h.1 t⟩) ls).2

/-! ## `erase` -/

/-- A test on the constructor; models no code. -/
def Ev.isAgain : Ev α ε → Bool
  | .again _ => true
  | _ => false

theorem again_contEv (w k) : (contEv w k : List (Ev α ε)).any Ev.isAgain = false := by cases k <;> rfl

/-- Invariant of the proofs; models no code. -/
structure InvU (s : St α ε) : Prop where
  u0 : ∀ w, s.armed w = true → s.pc (.cls w) = .idle
  u1 : s.log.any Ev.isAgain = false → s.ub = false
  u2 : s.log.any Ev.isAgain = false → ∀ w, s.armed w = true → w ∈ s.list
  u3 : s.log.any Ev.isAgain = false → ∀ w, (s.pc (.cls w)).shuts = true → w ∈ s.list
  u4 : s.log.any Ev.isAgain = false → ∀ w, (s.pc .opn).opens = some w → w ∈ s.list

theorem InvU.tr {s s' : St α ε} (h : InvU s) (hA : InvA s) (hB : InvB s) (t : Tr s s') : InvU s' := by
  obtain ⟨u0, u1, u2, u3, u4⟩ := h
  have ho := hA.ok
  have me := mem_erase' hB.nd
  have op := hB.op
  have fr := hB.fr
  clear hA hB
  generalize hc : s.log.any Ev.isAgain = c at *
  cases t
  case giveOn a x w k hg h1 h2 =>
    rcases gives_eq hg with ⟨r, hp, rfl⟩ | ⟨hp, rfl, rfl⟩
    · clear ho
      constructor <;> simp only [upd, List.any_append, hc, List.any_cons, List.any_nil, Ev.isAgain, Bool.or_false] at * <;> grind [Pc.shuts, Pc.opens]
    · obtain rfl := ok_fired (hp ▸ ho a)
      clear ho
      constructor <;> simp only [upd, List.any_append, hc, List.any_cons, List.any_nil, Ev.isAgain, Bool.or_false] at * <;> grind [Pc.shuts, Pc.opens]
  case giveOff a x w k hg h1 h2 =>
    rcases gives_eq hg with ⟨r, hp, rfl⟩ | ⟨hp, rfl, rfl⟩
    · clear ho
      constructor <;> simp only [upd, List.any_append, hc, List.any_cons, List.any_nil, Ev.isAgain, Bool.or_false, again_contEv] at * <;> grind [Pc.shuts, Pc.opens, cont]
    · obtain rfl := ok_fired (hp ▸ ho a)
      clear ho
      constructor <;> simp only [upd, List.any_append, hc, List.any_cons, List.any_nil, Ev.isAgain, Bool.or_false, again_contEv] at * <;> grind [Pc.shuts, Pc.opens, cont]
  case giveNot a x w k hg h1 =>
    rcases gives_eq hg with ⟨r, hp, rfl⟩ | ⟨hp, rfl, rfl⟩
    · clear ho
      constructor <;> simp only [upd, List.any_append, hc, Bool.or_false, again_contEv] at * <;> grind [Pc.shuts, Pc.opens, cont]
    · obtain rfl := ok_fired (hp ▸ ho a)
      clear ho
      constructor <;> simp only [upd, List.any_append, hc, Bool.or_false, again_contEv] at * <;> grind [Pc.shuts, Pc.opens, cont]
  case chkOff a x w k hp h2 =>
    clear ho
    cases k <;> constructor <;> simp only [upd, List.any_append, hc, Bool.or_false, again_contEv] at * <;> grind [Pc.shuts, Pc.opens, cont]
  case innT a x w k hp hx =>
    clear ho
    cases k <;> constructor <;> simp only [upd, List.any_append, hc, List.any_cons, Ev.isAgain, Bool.or_false, again_contEv] at * <;> grind [Pc.shuts, Pc.opens, cont]
  case innV a x w k hp hx =>
    clear ho
    cases k <;> constructor <;> simp only [upd, List.any_append, hc, List.any_cons, Ev.isAgain, Bool.or_false, again_contEv] at * <;> grind [Pc.shuts, Pc.opens, cont]
  case chk a x w k hp h2 => clear ho; cases k <;> constructor <;> simp only [upd] at * <;> grind [Pc.shuts, Pc.opens]
  case go a x w k hp =>
    clear ho
    cases k <;> constructor <;> simp only [upd, List.any_append, hc, List.any_cons, List.any_nil, Ev.isAgain, Bool.or_false] at * <;> grind [Pc.shuts, Pc.opens]
  case lockErase a w hp hl =>
    obtain rfl := ok_erase (hp ▸ ho a)
    have := ho .opn
    clear ho
    constructor <;> simp only [upd, Bool.or_eq_false_iff, Bool.not_eq_false', List.contains_iff_mem] at * <;> grind [Pc.shuts, Pc.opens, Pc.okFor]
  case lockOpen a hp hl hm =>
    obtain rfl := ok_opening (hp ▸ ho a)
    clear ho
    constructor <;> simp only [upd, List.any_append, hc, List.any_cons, List.any_nil, Ev.isAgain, Bool.or_false, List.mem_append, List.mem_singleton] at * <;> grind [Pc.shuts, Pc.opens]
  case lockOpenOff a hp hl hm =>
    obtain rfl := ok_opening (hp ▸ ho a)
    clear ho
    constructor <;> simp only [upd, List.any_append, hc, List.any_cons, List.any_nil, Ev.isAgain, Bool.or_false, List.mem_append, List.mem_singleton] at * <;> grind [Pc.shuts, Pc.opens]
  case openCb a w hp =>
    obtain rfl := ok_openCb (hp ▸ ho a)
    clear ho
    constructor <;> simp only [upd, List.any_append, hc, List.any_cons, List.any_nil, Ev.isAgain, Bool.or_false] at * <;> grind [Pc.shuts, Pc.opens]
  case post a w hp =>
    obtain rfl := ok_post (hp ▸ ho a)
    clear ho
    constructor <;> simp only [upd] at * <;> grind [Pc.shuts, Pc.opens]
  case refire w h1 h2 h3 =>
    constructor <;> simp only [upd, List.any_append, List.any_cons, List.any_nil, Ev.isAgain, Bool.or_true, Bool.or_false] at * <;> grind
  all_goals
    clear ho
    constructor <;> simp only [upd, List.any_append, hc, List.any_cons, List.any_nil, Ev.isAgain, Bool.or_false] at * <;> grind [Pc.shuts, Pc.opens]

theorem invU (ls : List (Lbl α ε)) : InvU (exec ls) :=
  (exec_induct (P := fun s => InvA s ∧ InvB s ∧ InvU s)
    ⟨invA [], invB [], by constructor <;> simp [Pc.shuts, Pc.opens]⟩
    (fun _ _ h t => ⟨h.1.tr t, h.2.1.tr h.1 t, h.2.2.tr h.1 h.2.1 t⟩) ls).2.2

end Rpp.Win.Toggle
