import Verif.Window.ToggleProofs

/-!
# `window_toggle`: the windows
-/

namespace Rpp.Win.Toggle
variable {α ε : Type}
open Rpp.Win (Item)

theorem endedIn_append (w : Nat) (l m : List (Ev α ε)) : endedIn w (l ++ m) = (endedIn w l || endedIn w m) := by
  induction l with
  | nil => rfl
  | cons e l ih => cases e <;> simp [endedIn, ih, Bool.or_assoc]

/-- Window `w` was given a terminal notification. -/
def fedEnd (w : Nat) : List (Ev α ε) → Bool
  | [] => false
  | .fed _ v x :: l => (v = w && x.term) || fedEnd w l
  | _ :: l => fedEnd w l

theorem fedEnd_append (w : Nat) (l m : List (Ev α ε)) : fedEnd w (l ++ m) = (fedEnd w l || fedEnd w m) := by
  induction l with
  | nil => rfl
  | cons e l ih => cases e <;> simp [fedEnd, ih, Bool.or_assoc]

theorem fedEnd_imp (w : Nat) (l : List (Ev α ε)) : fedEnd w l = true → endedIn w l = true := by
  induction l with
  | nil => simp [fedEnd]
  | cons e l ih => cases e <;> simp_all [fedEnd, endedIn]; grind

theorem endedIn_dead (w : Nat) (l : List (Ev α ε)) : .dead ∈ l → endedIn w l = true := by
  induction l with
  | nil => simp
  | cons e l ih => cases e <;> simp_all [endedIn]

theorem fedEnd_contEv (w v : Nat) (k) : fedEnd w (contEv v k : List (Ev α ε)) = false := by cases k <;> rfl
theorem endedIn_contEv (w v : Nat) (k) : endedIn w (contEv v k : List (Ev α ε)) = false := by cases k <;> rfl

/-- The call is the closing of a window, on its way to `erase`. -/
def Pc.shuts : Pc α ε → Bool
  | .fired _ => true
  | .deliv _ _ none _ => true
  | .want (.erase _) => true
  | _ => false

/-- The call has ended a window. -/
def Pc.ends : Pc α ε → Option Nat
  | .deliv x w _ _ => if x.term then some w else none
  | .want (.erase w) => some w
  | _ => none

/-- The opening is busy with a window. -/
def Pc.opens : Pc α ε → Option Nat
  | .openCb w => some w
  | .post w => some w
  | _ => none

/-- The windows the call will deal with. -/
def Pc.todo : Pc α ε → List Nat
  | .loop _ r => r
  | .deliv _ w (some r) _ => w :: r
  | .deliv _ w none _ => [w]
  | .fired w => [w]
  | _ => []

/-- Invariant of the proofs; models no code. -/
structure InvB (s : St α ε) : Prop where
  cr : ∀ w, .created w ∈ s.log ↔ w < s.next
  nd : s.list.Nodup
  lt : ∀ w ∈ s.list, w < s.next
  lv : ∀ w, s.live w = true → w ∈ s.list ∧ w < s.next ∧ s.down w = false ∧ fedEnd w s.log = false
  en : ∀ w, w < s.next → s.live w = false → endedIn w s.log = true
  dd : .dead ∈ s.log ↔ s.dead = true
  sn : ∀ w, s.seen w = true → s.shown w = true
  sl : ∀ w, s.shown w = true → w < s.next
  rf : ∀ w ∈ s.refs, s.seen w = true
  cl : ∀ a w, (s.pc a).ends = some w → s.live w = false ∧ w < s.next
  fr : ∀ w, s.next ≤ w → s.armed w = false ∧ s.pc (.cls w) = .idle ∧ fedEnd w s.log = false ∧ s.down w = false ∧ s.added w = false
  td : ∀ a, ∀ w ∈ (s.pc a).todo, w < s.next
  op : ∀ w, (s.pc .opn).opens = some w → w < s.next ∧ s.armed w = false ∧ s.pc (.cls w) = .idle

theorem contEv_created (w v : Nat) (k) : (Ev.created w : Ev α ε) ∈ (contEv v k : List (Ev α ε)) ↔ False := by cases k <;> simp [contEv]
theorem contEv_dead (v : Nat) (k) : (Ev.dead : Ev α ε) ∈ (contEv v k : List (Ev α ε)) ↔ False := by cases k <;> simp [contEv]

theorem cont_opens {x : Item α ε} {w k} : (cont x w k).opens = none := by cases k <;> rfl
theorem cont_idle {x : Item α ε} {w k} : (cont x w k) ≠ .idle := by cases k <;> simp [cont]

theorem mem_erase' {l : List Nat} (h : l.Nodup) (w v : Nat) : w ∈ l.erase v ↔ w ≠ v ∧ w ∈ l := h.mem_erase_iff

theorem ok_erase {a : Actor} {w} (h : Pc.okFor a (.want (.erase w) : Pc α ε) = true) : a = .cls w := by
  cases a <;> simp_all [Pc.okFor]

theorem ok_fired {a : Actor} {w} (h : Pc.okFor a (.fired w : Pc α ε) = true) : a = .cls w := by
  cases a <;> simp_all [Pc.okFor]

theorem ok_deliv {a : Actor} {x : Item α ε} {w st} (h : Pc.okFor a (.deliv x w none st) = true) : a = .cls w ∧ x.term = true := by
  cases a <;> simp_all [Pc.okFor]

theorem ok_post {a : Actor} {w} (h : Pc.okFor a (.post w : Pc α ε) = true) : a = .opn := by
  cases a <;> simp_all [Pc.okFor]

theorem ok_openCb {a : Actor} {w} (h : Pc.okFor a (.openCb w : Pc α ε) = true) : a = .opn := by
  cases a <;> simp_all [Pc.okFor]

theorem ok_opening {a : Actor} (h : Pc.okFor a (.want .opening : Pc α ε) = true) : a = .opn := by
  cases a <;> simp_all [Pc.okFor]

set_option maxHeartbeats 2000000 in
theorem InvB.tr {s s' : St α ε} (h : InvB s) (hA : InvA s) (t : Tr s s') : InvB s' := by
  obtain ⟨cr, nd, lt, lv, en, dd, sn, sl, rf, cl, fr, td, op⟩ := h
  obtain ⟨hl, ho⟩ := hA
  have fe := fedEnd_imp (α := α) (ε := ε)
  have me := mem_erase' nd
  cases t
  case die h1 h2 h3 =>
    constructor <;> simp only [List.mem_append, List.mem_singleton, fedEnd_append, endedIn_append, fedEnd, endedIn, reduceCtorEq, or_false, or_true, Bool.or_false, Bool.or_true, Bool.and_eq_true, Bool.not_eq_true', Bool.or_eq_false_iff] at * <;> grind
  case giveOn a x w k hg h1 h2 =>
    rcases gives_eq hg with ⟨r, hp, rfl⟩ | ⟨hp, rfl, rfl⟩
    · clear ho
      constructor <;> simp only [upd, List.mem_append, List.mem_singleton, fedEnd_append, endedIn_append, fedEnd, endedIn, reduceCtorEq, or_false, Bool.or_false] at * <;> grind [Pc.ends, Pc.opens, Pc.todo, Item.term]
    · obtain rfl := ok_fired (hp ▸ ho a)
      clear ho
      constructor <;> simp only [upd, List.mem_append, List.mem_singleton, fedEnd_append, endedIn_append, fedEnd, endedIn, reduceCtorEq, or_false, Bool.or_false] at * <;> grind [Pc.ends, Pc.opens, Pc.todo, Item.term]
  case giveOff a x w k hg h1 h2 =>
    rcases gives_eq hg with ⟨r, hp, rfl⟩ | ⟨hp, rfl, rfl⟩
    · clear ho
      constructor <;> simp only [upd, List.mem_append, List.mem_singleton, fedEnd_append, endedIn_append, fedEnd, endedIn, reduceCtorEq, or_false, Bool.or_false, contEv_created, contEv_dead, fedEnd_contEv, endedIn_contEv] at * <;> grind [Pc.ends, Pc.opens, Pc.todo, Item.term, cont]
    · obtain rfl := ok_fired (hp ▸ ho a)
      clear ho
      constructor <;> simp only [upd, List.mem_append, List.mem_singleton, fedEnd_append, endedIn_append, fedEnd, endedIn, reduceCtorEq, or_false, Bool.or_false, contEv_created, contEv_dead, fedEnd_contEv, endedIn_contEv] at * <;> grind [Pc.ends, Pc.opens, Pc.todo, Item.term, cont]
  case giveNot a x w k hg h1 =>
    rcases gives_eq hg with ⟨r, hp, rfl⟩ | ⟨hp, rfl, rfl⟩
    · clear ho
      constructor <;> simp only [upd, List.mem_append, fedEnd_append, endedIn_append, or_false, Bool.or_false, contEv_created, contEv_dead, fedEnd_contEv, endedIn_contEv] at * <;> grind [Pc.ends, Pc.opens, Pc.todo, Item.term, cont]
    · obtain rfl := ok_fired (hp ▸ ho a)
      clear ho
      constructor <;> simp only [upd, List.mem_append, fedEnd_append, endedIn_append, or_false, Bool.or_false, contEv_created, contEv_dead, fedEnd_contEv, endedIn_contEv] at * <;> grind [Pc.ends, Pc.opens, Pc.todo, Item.term, cont]
  case lockErase a w hp hl =>
    obtain rfl := ok_erase (hp ▸ ho a)
    have := cl (.cls w) w (by rw [hp]; simp [Pc.ends, *])
    constructor <;> simp only [upd] at * <;> grind [Pc.ends, Pc.opens, Pc.todo, List.Nodup.erase]
  case refire w h1 h2 h3 =>
    have : (s.pc (.cls w)).ends = some w := by
      have := ho (.cls w)
      revert h1 this; cases s.pc (.cls w) <;> simp [Pc.inEnd, Pc.ends]; grind [Pc.okFor]
    constructor <;> simp only [upd, List.mem_append, List.mem_singleton, fedEnd_append, endedIn_append, fedEnd, endedIn, reduceCtorEq, or_false, Bool.or_false] at * <;> grind [List.Nodup.erase]
  case chkOff a x w k hp h2 =>
    cases k with
    | none =>
      obtain ⟨rfl, hx⟩ := ok_deliv (hp ▸ ho a)
      have := cl (.cls w) w (by rw [hp]; simp [Pc.ends, *])
      constructor <;> simp only [upd, List.mem_append, fedEnd_append, endedIn_append, or_false, Bool.or_false, contEv_created, contEv_dead, fedEnd_contEv, endedIn_contEv] at * <;> grind [Pc.ends, Pc.opens, Pc.todo, cont]
    | some r =>
      constructor <;> simp only [upd, List.mem_append, fedEnd_append, endedIn_append, or_false, Bool.or_false, contEv_created, contEv_dead, fedEnd_contEv, endedIn_contEv] at * <;> grind [Pc.ends, Pc.opens, Pc.todo, cont]
  case innT a x w k hp hx =>
    cases k with
    | none =>
      obtain ⟨rfl, hx⟩ := ok_deliv (hp ▸ ho a)
      have := cl (.cls w) w (by rw [hp]; simp [Pc.ends, *])
      constructor <;> simp only [upd, List.mem_append, List.mem_cons, List.mem_filter, fedEnd_append, endedIn_append, fedEnd, endedIn, reduceCtorEq, false_or, or_false, Bool.or_false, contEv_created, contEv_dead, fedEnd_contEv, endedIn_contEv] at * <;> grind [Pc.ends, Pc.opens, Pc.todo, cont]
    | some r =>
      constructor <;> simp only [upd, List.mem_append, List.mem_cons, List.mem_filter, fedEnd_append, endedIn_append, fedEnd, endedIn, reduceCtorEq, false_or, or_false, Bool.or_false, contEv_created, contEv_dead, fedEnd_contEv, endedIn_contEv] at * <;> grind [Pc.ends, Pc.opens, Pc.todo, cont]
  case innV a x w k hp hx =>
    cases k with
    | none =>
      obtain ⟨rfl, hx⟩ := ok_deliv (hp ▸ ho a)
      constructor <;> simp only [upd, List.mem_append, List.mem_cons, fedEnd_append, endedIn_append, fedEnd, endedIn, reduceCtorEq, false_or, or_false, Bool.or_false, contEv_created, contEv_dead, fedEnd_contEv, endedIn_contEv] at * <;> grind [Pc.ends, Pc.opens, Pc.todo, cont]
    | some r =>
      constructor <;> simp only [upd, List.mem_append, List.mem_cons, fedEnd_append, endedIn_append, fedEnd, endedIn, reduceCtorEq, false_or, or_false, Bool.or_false, contEv_created, contEv_dead, fedEnd_contEv, endedIn_contEv] at * <;> grind [Pc.ends, Pc.opens, Pc.todo, cont]
  case chk a x w k hp h2 =>
    cases k with
    | none =>
      obtain ⟨rfl, hx⟩ := ok_deliv (hp ▸ ho a)
      constructor <;> simp only [upd] at * <;> grind [Pc.ends, Pc.opens, Pc.todo]
    | some r => constructor <;> simp only [upd] at * <;> grind [Pc.ends, Pc.opens, Pc.todo]
  case go a x w k hp =>
    cases k with
    | none =>
      obtain ⟨rfl, hx⟩ := ok_deliv (hp ▸ ho a)
      constructor <;> simp only [upd, List.mem_append, List.mem_cons, fedEnd_append, endedIn_append, fedEnd, endedIn, reduceCtorEq, false_or, or_false, Bool.or_false, List.not_mem_nil] at * <;> grind [Pc.ends, Pc.opens, Pc.todo]
    | some r =>
      constructor <;> simp only [upd, List.mem_append, List.mem_cons, fedEnd_append, endedIn_append, fedEnd, endedIn, reduceCtorEq, false_or, or_false, Bool.or_false, List.not_mem_nil] at * <;> grind [Pc.ends, Pc.opens, Pc.todo]
  case lockOpen a hp hl hm =>
    obtain rfl := ok_opening (hp ▸ ho a)
    constructor <;> simp only [upd, List.mem_append, List.mem_cons, fedEnd_append, endedIn_append, fedEnd, endedIn, reduceCtorEq, false_or, or_false, Bool.or_false, List.not_mem_nil] at * <;> grind [Pc.ends, Pc.opens, Pc.todo, List.nodup_append]
  case lockOpenOff a hp hl hm =>
    obtain rfl := ok_opening (hp ▸ ho a)
    constructor <;> simp only [upd, List.mem_append, List.mem_cons, fedEnd_append, endedIn_append, fedEnd, endedIn, reduceCtorEq, false_or, or_false, Bool.or_false, List.not_mem_nil] at * <;> grind [Pc.ends, Pc.opens, Pc.todo, List.nodup_append]
  case openCb a w hp =>
    obtain rfl := ok_openCb (hp ▸ ho a)
    constructor <;> simp only [upd, List.mem_append, List.mem_cons, fedEnd_append, endedIn_append, fedEnd, endedIn, reduceCtorEq, false_or, or_false, Bool.or_false, List.not_mem_nil] at * <;> grind [Pc.ends, Pc.opens, Pc.todo]
  case post a w hp =>
    obtain rfl := ok_post (hp ▸ ho a)
    have := endedIn_dead (α := α) (ε := ε)
    constructor <;> simp only [upd] at * <;> grind [Pc.ends, Pc.opens, Pc.todo]
  case selThrow e w hp =>
    have := endedIn_dead (α := α) (ε := ε)
    constructor <;> simp only [upd] at * <;> grind [Pc.ends, Pc.opens, Pc.todo]
  case src x h1 _ _ => have := isIdle_eq h1; constructor <;> simp only [upd] at * <;> grind [Pc.ends, Pc.opens, Pc.todo]
  case opnErr x h1 _ _ => have := isIdle_eq h1; constructor <;> simp only [upd] at * <;> grind [Pc.ends, Pc.opens, Pc.todo]
  case cErr w x h1 _ _ => have := isIdle_eq h1; constructor <;> simp only [upd] at * <;> grind [Pc.ends, Pc.opens, Pc.todo]
  case opnDone => constructor <;> simp only [upd] at * <;> grind
  all_goals
    constructor <;> simp only [upd, List.mem_append, List.mem_cons, List.mem_filter, fedEnd_append, endedIn_append, fedEnd, endedIn, reduceCtorEq, false_or, or_false, Bool.or_false, List.not_mem_nil] at * <;> grind [Pc.ends, Pc.opens, Pc.todo]

theorem invB (ls : List (Lbl α ε)) : InvB (exec ls) :=
  (exec_induct (P := fun s => InvA s ∧ InvB s)
    ⟨invA [], by constructor <;> simp [Pc.ends, Pc.opens, Pc.todo, fedEnd]⟩ (fun _ _ h t => ⟨h.1.tr t, h.2.tr h.1 t⟩) ls).2

end Rpp.Win.Toggle
