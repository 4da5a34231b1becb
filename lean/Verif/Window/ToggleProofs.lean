import Verif.Window.Toggle

/-!
# `window_toggle`: invariants
-/

namespace Rpp.Win.Toggle
variable {α ε : Type}
open Rpp.Win (Item)

/-- The push a call makes next. -/
def Pc.gives : Pc α ε → Option (Item α ε × Nat × Option (List Nat))
  | .loop x (w :: r) => some (x, w, some r)
  | .fired w => some (.done, w, none)
  | _ => none

/-- The steps. -/
inductive Tr (s : St α ε) : St α ε → Prop
  | src (x) (h1 : (s.pc .src).isIdle = true) (h2 : s.dead = false) (h3 : s.srcOver = false) :
    Tr s { s with pc := upd s.pc .src (.want (.item x)), srcOver := x.term }
  | opn (h1 : (s.pc .opn).isIdle = true) (h2 : s.dead = false) (h3 : s.opnOver = false) :
    Tr s { s with pc := upd s.pc .opn (.want .opening), log := s.log ++ [.open] }
  | opnErr (e) (h1 : (s.pc .opn).isIdle = true) (h2 : s.dead = false) (h3 : s.opnOver = false) :
    Tr s { s with pc := upd s.pc .opn (.want (.item (.err e))), opnOver := true }
  | opnDone (h1 : (s.pc .opn).isIdle = true) : Tr s { s with opnOver := true }
  | selThrow (e w) (h : s.pc .opn = .post w) :
    Tr s { s with added := upd s.added w true, live := upd s.live w (s.live w && !s.dead), down := upd s.down w (s.down w || s.dead),
                  pc := upd s.pc .opn (.want (.item (.err e))), opnOver := true }
  | fire (w) (h1 : (s.pc (.cls w)).isIdle = true) (h2 : s.armed w = true) (h3 : s.down w = false) :
    Tr s { s with pc := upd s.pc (.cls w) (.fired w), armed := upd s.armed w false, added := upd s.added w false, log := s.log ++ [.fire w] }
  | cErr (w e) (h1 : (s.pc (.cls w)).isIdle = true) (h2 : s.armed w = true) (h3 : s.down w = false) :
    Tr s { s with pc := upd s.pc (.cls w) (.want (.item (.err e))), armed := upd s.armed w false }
  | lockItem (a x) (h : s.pc a = .want (.item x)) (hl : s.lock = none) :
    Tr s { s with lock := some a, pc := upd s.pc a (.loop x s.list), log := s.log ++ [.acc a x] }
  | lockOpen (a) (h : s.pc a = .want .opening) (hl : s.lock = none) (hm : s.mainOn = true) :
    Tr s { s with lock := some a, next := s.next + 1, list := s.list ++ [s.next], live := upd s.live s.next true,
                  shown := upd s.shown s.next true, pc := upd s.pc a (.openCb s.next), log := s.log ++ [.created s.next, .opened s.next] }
  | lockOpenOff (a) (h : s.pc a = .want .opening) (hl : s.lock = none) (hm : s.mainOn = false) :
    Tr s { s with next := s.next + 1, list := s.list ++ [s.next], live := upd s.live s.next true,
                  pc := upd s.pc a (.post s.next), log := s.log ++ [.created s.next] }
  | lockErase (a w) (h : s.pc a = .want (.erase w)) (hl : s.lock = none) :
    Tr s { s with list := s.list.erase w, ub := s.ub || !s.list.contains w, pc := upd s.pc a .idle }
  | giveOn (a x w k) (h : (s.pc a).gives = some (x, w, k)) (h1 : s.live w = true) (h2 : w ∈ s.refs) :
    Tr s { s with log := s.log ++ [.fed a w x], live := upd s.live w (!x.term), pc := upd s.pc a (.deliv x w k .chk) }
  | giveOff (a x w k) (h : (s.pc a).gives = some (x, w, k)) (h1 : s.live w = true) (h2 : w ∉ s.refs) :
    Tr s { s with log := s.log ++ [.fed a w x] ++ contEv w k, live := upd s.live w (!x.term), down := upd s.down w (s.down w || x.term),
                  pc := upd s.pc a (cont x w k) }
  | giveNot (a x w k) (h : (s.pc a).gives = some (x, w, k)) (h1 : s.live w = false) :
    Tr s { s with log := s.log ++ contEv w k, down := upd s.down w (s.down w || x.term), pc := upd s.pc a (cont x w k) }
  | chk (a x w k) (h : s.pc a = .deliv x w k .chk) (h2 : w ∈ s.refs) :
    Tr s { s with pc := upd s.pc a (.deliv x w k .go) }
  | chkOff (a x w k) (h : s.pc a = .deliv x w k .chk) (h2 : w ∉ s.refs) :
    Tr s { s with down := upd s.down w (s.down w || x.term), pc := upd s.pc a (cont x w k), log := s.log ++ contEv w k }
  | go (a x w k) (h : s.pc a = .deliv x w k .go) :
    Tr s { s with pc := upd s.pc a (.deliv x w k .inn), log := s.log ++ [.got w x] }
  | innT (a x w k) (h : s.pc a = .deliv x w k .inn) (hx : x.term = true) :
    Tr s { s with refs := s.refs.filter (· ≠ w), down := upd s.down w true, pc := upd s.pc a (cont x w k), log := s.log ++ .ret w :: contEv w k }
  | innV (a x w k) (h : s.pc a = .deliv x w k .inn) (hx : x.term = false) :
    Tr s { s with pc := upd s.pc a (cont x w k), log := s.log ++ .ret w :: contEv w k }
  | loopEnd (a x) (h : s.pc a = .loop x []) (hx : x.term = false ∨ s.mainOn = false) :
    Tr s { s with lock := none, pc := upd s.pc a .idle, log := s.log ++ [.rel a] }
  | loopMain (a x) (h : s.pc a = .loop x []) (hx : x.term = true) (hm : s.mainOn = true) :
    Tr s { s with pc := upd s.pc a (.mainCb x), log := s.log ++ [.ended x] }
  | openCb (a w) (h : s.pc a = .openCb w) :
    Tr s { s with lock := none, pc := upd s.pc a (.post w), log := s.log ++ [.mainRet] }
  | mainCb (a x) (h : s.pc a = .mainCb x) :
    Tr s { s with mainOn := false, pc := upd s.pc a (.mainOut x), log := s.log ++ [.mainRet] }
  | mainOut (a x) (h : s.pc a = .mainOut x) :
    Tr s { s with lock := none, pc := upd s.pc a .idle, log := s.log ++ [.rel a] }
  | post (a w) (h : s.pc a = .post w) :
    Tr s { s with added := upd s.added w true, armed := upd s.armed w true, live := upd s.live w (s.live w && !s.dead),
                  down := upd s.down w (s.down w || s.dead), pc := upd s.pc a .idle }
  | sub (w) (h1 : s.shown w = true) (h2 : s.live w = true) (h3 : s.seen w = false) (h4 : s.dead = false) :
    Tr s { s with seen := upd s.seen w true, refs := s.refs ++ [w], log := s.log ++ [.sub w] }
  | unsub (w) (h : w ∈ s.refs) : Tr s { s with refs := s.refs.filter (· ≠ w), log := s.log ++ [.unsub w] }
  | leave (h : s.mainOn = true) : Tr s { s with mainOn := false, log := s.log ++ [.leave] }
  | refire (w) (h1 : (s.pc (.cls w)).inEnd = true) (h2 : s.lock = none) (h3 : s.down w = false) :
    Tr s { s with down := upd s.down w true, list := s.list.erase w, ub := s.ub || !s.list.contains w, log := s.log ++ [.again w] }
  | die (h1 : s.mainOn = false) (h2 : s.refs = []) (h3 : s.dead = false) :
    Tr s { s with dead := true, live := fun w => s.live w && !s.added w, down := fun w => s.down w || s.added w, log := s.log ++ [.dead] }

theorem settle_tr (s : St α ε) : s.settle = s ∨ Tr s s.settle := by
  unfold St.settle
  split
  · next h => exact .inr (.die h.1 h.2.1 h.2.2)
  · exact .inl rfl

theorem give_tr (s : St α ε) (a x w k) (h : (s.pc a).gives = some (x, w, k)) : Tr s (s.give a x w k) := by
  unfold St.give
  split
  · next h1 =>
    split
    · next h2 => exact .giveOn a x w k h h1 h2
    · next h2 => exact .giveOff a x w k h h1 h2
  · next h1 => exact .giveNot a x w k h (by simpa using h1)

theorem run_tr (s : St α ε) (a : Actor) : s.run a = s ∨ ∃ s1, Tr s s1 ∧ (s.run a = s1 ∨ Tr s1 (s.run a)) := by
  have one : ∀ {t}, Tr s t → t = s ∨ ∃ s1, Tr s s1 ∧ (t = s1 ∨ Tr s1 t) := fun h => .inr ⟨_, h, .inl rfl⟩
  unfold St.run
  split
  · exact .inl rfl
  · next j h =>
    split
    · exact .inl rfl
    · next hl =>
      split
      · exact one (.lockItem a _ h hl)
      · split
        · next hm => exact one (.lockOpen a h hl hm)
        · next hm => exact one (.lockOpenOff a h hl (by simpa using hm))
      · exact one (.lockErase a _ h hl)
  · next x h =>
    split
    · next hx =>
      rw [Bool.and_eq_true] at hx
      exact one (.loopMain a x h hx.1 hx.2)
    · next hx =>
      refine one (.loopEnd a x h ?_)
      cases hx1 : x.term
      · exact .inl rfl
      · right
        rw [hx1] at hx
        simpa using hx
  · next x w rest h => exact one (give_tr s a x w (some rest) (by rw [h]; rfl))
  · next w h => exact one (give_tr s a .done w none (by rw [h]; rfl))
  · next x w k h =>
    split
    · next h2 => exact one (.chk a x w k h h2)
    · next h2 => exact one (.chkOff a x w k h h2)
  · next x w k h => exact one (.go a x w k h)
  · next x w k h =>
    split
    · next hx =>
      right
      refine ⟨_, .innT a x w k h hx, ?_⟩
      rcases settle_tr { s with refs := s.refs.filter (· ≠ w), down := upd s.down w true, pc := upd s.pc a (cont x w k), log := s.log ++ .ret w :: contEv w k } with h1 | h1
      · exact .inl h1
      · exact .inr h1
    · next hx => exact one (.innV a x w k h (by simpa using hx))
  · next w h => exact one (.openCb a w h)
  · next x h =>
    right
    refine ⟨_, .mainCb a x h, ?_⟩
    rcases settle_tr { s with mainOn := false, pc := upd s.pc a (.mainOut x), log := s.log ++ [.mainRet] } with h1 | h1
    · exact .inl h1
    · exact .inr h1
  · next x h => exact one (.mainOut a x h)
  · next w h => exact one (.post a w h)

theorem step_tr (s : St α ε) (l : Lbl α ε) : step s l = s ∨ ∃ s1, Tr s s1 ∧ (step s l = s1 ∨ Tr s1 (step s l)) := by
  have one : ∀ {t}, Tr s t → t = s ∨ ∃ s1, Tr s s1 ∧ (t = s1 ∨ Tr s1 t) := fun h => .inr ⟨_, h, .inl rfl⟩
  cases l with
  | src x => simp only [step]; split <;> first | exact .inl rfl | next h => exact one (.src x h.1 h.2.1 h.2.2)
  | opn => simp only [step]; split <;> first | exact .inl rfl | next h => exact one (.opn h.1 h.2.1 h.2.2)
  | opnErr e => simp only [step]; split <;> first | exact .inl rfl | next h => exact one (.opnErr e h.1 h.2.1 h.2.2)
  | opnDone => simp only [step]; split <;> first | exact .inl rfl | next h => exact one (.opnDone h)
  | selThrow e => simp only [step]; split <;> first | exact .inl rfl | next w h => exact one (.selThrow e w h)
  | fire w => simp only [step]; split <;> first | exact .inl rfl | next h => exact one (.fire w h.1 h.2.1 h.2.2)
  | cErr w e => simp only [step]; split <;> first | exact .inl rfl | next h => exact one (.cErr w e h.1 h.2.1 h.2.2)
  | run a => exact run_tr s a
  | sub w => simp only [step]; split <;> first | exact .inl rfl | next h => exact one (.sub w h.1 h.2.1 h.2.2.1 h.2.2.2)
  | unsub w =>
    simp only [step]; split
    · next h =>
      right
      refine ⟨_, .unsub w h, ?_⟩
      rcases settle_tr { s with refs := s.refs.filter (· ≠ w), log := s.log ++ [.unsub w] } with h1 | h1
      · exact .inl h1
      · exact .inr h1
    · exact .inl rfl
  | leave =>
    simp only [step]; split
    · next h =>
      right
      refine ⟨_, .leave h, ?_⟩
      rcases settle_tr { s with mainOn := false, log := s.log ++ [.leave] } with h1 | h1
      · exact .inl h1
      · exact .inr h1
    · exact .inl rfl
  | refire w => simp only [step]; split <;> first | exact .inl rfl | next h => exact one (.refire w h.1 h.2.1 h.2.2)

theorem exec_induct {P : St α ε → Prop} (h0 : P {}) (hs : ∀ s s', P s → Tr s s' → P s') (ls : List (Lbl α ε)) : P (exec ls) := by
  suffices h : ∀ s, P s → P (ls.foldl step s) from h _ h0
  induction ls with
  | nil => exact fun s h => h
  | cons l ls ih =>
    intro s h
    apply ih
    rcases step_tr s l with h1 | ⟨s1, h1, h2 | h2⟩
    · rw [h1]; exact h
    · rw [h2]; exact hs _ _ h h1
    · exact hs _ _ (hs _ _ h h1) h2

/-! ## The mutex -/

/-- The call holds the mutex. -/
def Pc.holds : Pc α ε → Bool
  | .loop _ _ => true
  | .deliv _ _ (some _) _ => true
  | .openCb _ => true
  | .mainCb _ => true
  | .mainOut _ => true
  | _ => false

/-- What a caller of that kind can be doing. -/
def Pc.okFor : Actor → Pc α ε → Bool
  | .cls v, .want (.erase w) => v = w
  | .cls v, .deliv x w none _ => v = w && x.term
  | .cls v, .fired w => v = w
  | _, .want (.erase _) => false
  | _, .deliv _ _ none _ => false
  | _, .fired _ => false
  | .opn, .want .opening => true
  | .opn, .openCb _ => true
  | .opn, .post _ => true
  | _, .want .opening => false
  | _, .openCb _ => false
  | _, .post _ => false
  | _, _ => true

/-- Invariant of the proofs; models no code. -/
structure InvA (s : St α ε) : Prop where
  lock : ∀ a, s.lock = some a ↔ (s.pc a).holds = true
  ok : ∀ a, (s.pc a).okFor a = true

theorem isIdle_eq {p : Pc α ε} (h : p.isIdle = true) : p = .idle := by cases p <;> first | rfl | cases h

theorem gives_eq {p : Pc α ε} {x w k} (h : p.gives = some (x, w, k)) :
    (∃ r, p = .loop x (w :: r) ∧ k = some r) ∨ (p = .fired w ∧ x = .done ∧ k = none) := by
  cases p with
  | loop y l =>
    cases l with
    | nil => simp [Pc.gives] at h
    | cons v r => simp [Pc.gives] at h; obtain ⟨rfl, rfl, rfl⟩ := h; exact .inl ⟨r, rfl, rfl⟩
  | fired v => simp [Pc.gives] at h; obtain ⟨rfl, rfl, rfl⟩ := h; exact .inr ⟨rfl, rfl, rfl⟩
  | _ => simp [Pc.gives] at h

theorem InvA.tr {s s' : St α ε} (h : InvA s) (t : Tr s s') : InvA s' := by
  obtain ⟨hl, ho⟩ := h
  cases t
  case giveOn a x w k hg h1 h2 => 
    rcases gives_eq hg with ⟨r, hp, rfl⟩ | ⟨hp, rfl, rfl⟩ <;> (cases a <;> constructor <;> simp only [upd] at * <;> grind [Pc.holds, Pc.okFor, cont, Item.term])
  case giveOff a x w k hg h1 h2 => 
    rcases gives_eq hg with ⟨r, hp, rfl⟩ | ⟨hp, rfl, rfl⟩ <;> (cases a <;> constructor <;> simp only [upd] at * <;> grind [Pc.holds, Pc.okFor, cont, Item.term])
  case giveNot a x w k hg h1 => 
    rcases gives_eq hg with ⟨r, hp, rfl⟩ | ⟨hp, rfl, rfl⟩ <;> (cases a <;> constructor <;> simp only [upd] at * <;> grind [Pc.holds, Pc.okFor, cont, Item.term])
  case src x h1 _ _ => have := isIdle_eq h1; constructor <;> simp only [upd] at * <;> grind [Pc.holds, Pc.okFor]
  case opn h1 _ _ => have := isIdle_eq h1; constructor <;> simp only [upd] at * <;> grind [Pc.holds, Pc.okFor]
  case opnErr e h1 _ _ => have := isIdle_eq h1; constructor <;> simp only [upd] at * <;> grind [Pc.holds, Pc.okFor]
  case fire w h1 _ _ => have := isIdle_eq h1; constructor <;> simp only [upd] at * <;> grind [Pc.holds, Pc.okFor]
  case cErr w e h1 _ _ => have := isIdle_eq h1; constructor <;> simp only [upd] at * <;> grind [Pc.holds, Pc.okFor]
  case lockItem a _ _ _ => cases a <;> constructor <;> simp only [upd] at * <;> grind [Pc.holds, Pc.okFor]
  case lockOpen a _ _ _ => cases a <;> constructor <;> simp only [upd] at * <;> grind [Pc.holds, Pc.okFor]
  case lockOpenOff a _ _ _ => cases a <;> constructor <;> simp only [upd] at * <;> grind [Pc.holds, Pc.okFor]
  case lockErase a _ _ _ => cases a <;> constructor <;> simp only [upd] at * <;> grind [Pc.holds, Pc.okFor]
  case chk a x w k _ _ => cases k <;> cases a <;> constructor <;> simp only [upd] at * <;> grind [Pc.holds, Pc.okFor]
  case chkOff a x w k _ _ => cases k <;> cases a <;> constructor <;> simp only [upd] at * <;> grind [Pc.holds, Pc.okFor, cont]
  case go a x w k _ => cases k <;> cases a <;> constructor <;> simp only [upd] at * <;> grind [Pc.holds, Pc.okFor]
  case innT a x w k _ _ => cases k <;> cases a <;> constructor <;> simp only [upd] at * <;> grind [Pc.holds, Pc.okFor, cont]
  case innV a x w k _ _ => cases k <;> cases a <;> constructor <;> simp only [upd] at * <;> grind [Pc.holds, Pc.okFor, cont]
  case loopEnd a _ _ _ => cases a <;> constructor <;> simp only [upd] at * <;> grind [Pc.holds, Pc.okFor]
  case loopMain a _ _ _ _ => cases a <;> constructor <;> simp only [upd] at * <;> grind [Pc.holds, Pc.okFor]
  case openCb a _ _ => cases a <;> constructor <;> simp only [upd] at * <;> grind [Pc.holds, Pc.okFor]
  case mainCb a _ _ => cases a <;> constructor <;> simp only [upd] at * <;> grind [Pc.holds, Pc.okFor]
  case mainOut a _ _ => cases a <;> constructor <;> simp only [upd] at * <;> grind [Pc.holds, Pc.okFor]
  case post a _ _ => cases a <;> constructor <;> simp only [upd] at * <;> grind [Pc.holds, Pc.okFor]
  all_goals constructor <;> simp only [upd] at * <;> grind [Pc.holds, Pc.okFor]

theorem invA (ls : List (Lbl α ε)) : InvA (exec ls) :=
  exec_induct ⟨by intro a; simp [Pc.holds], by intro a; cases a <;> rfl⟩ (fun _ _ h t => h.tr t) ls

end Rpp.Win.Toggle
