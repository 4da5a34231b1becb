import Verif.Resub.StackSpec

/-!
# Lemmas for C92 and C93
-/

namespace Rpp.Stack

/-! ## The log -/

/-- Every exception is followed by something satisfying `P`. -/
def AllR (P : List Ev → Nat → Role → Nat → Ev → Prop) (log : List Ev) : Prop :=
  ∀ pre k r x post, log = pre ++ .threw k r x :: post → ∃ e post', post = e :: post' ∧ P pre k r x e

/-- A test on the constructor; models no code. -/
def Ev.isThrow : Ev → Bool
  | .threw .. => true
  | _ => false

theorem AllR.snoc {P log e} (h : AllR P log) (he : e.isThrow = false) : AllR P (log ++ [e]) := by
  intro pre k r x post hl
  rcases List.eq_nil_or_concat post with rfl | ⟨p0, e0, rfl⟩
  · obtain ⟨_, h2⟩ := List.append_inj' hl rfl
    injection h2 with h2 _
    subst h2; simp [Ev.isThrow] at he
  · have hl' : log ++ [e] = (pre ++ .threw k r x :: p0) ++ [e0] := by simpa using hl
    obtain ⟨h1, _⟩ := List.append_inj' hl' rfl
    obtain ⟨e1, p1, rfl, hp⟩ := h pre k r x p0 h1
    exact ⟨e1, p1 ++ [e0], by simp, hp⟩

theorem AllR.snoc2 {P log k r x e} (h : AllR P log) (he : e.isThrow = false) (hp : P log k r x e) :
    AllR P (log ++ [.threw k r x] ++ [e]) := by
  intro pre k' r' x' post hl
  rcases List.eq_nil_or_concat post with rfl | ⟨p0, e0, rfl⟩
  · obtain ⟨_, h2⟩ := List.append_inj' hl rfl
    injection h2 with h2 _
    subst h2; simp [Ev.isThrow] at he
  · have hl' : log ++ [.threw k r x] ++ [e] = (pre ++ .threw k' r' x' :: p0) ++ [e0] := by simpa using hl
    obtain ⟨h1, h0⟩ := List.append_inj' hl' rfl
    injection h0 with h0 _
    subst h0
    rcases List.eq_nil_or_concat p0 with rfl | ⟨p1, e1, rfl⟩
    · obtain ⟨h1, h2⟩ := List.append_inj' h1 rfl
      injection h2 with h2 _
      injection h2 with a b c
      subst h1 a b c
      exact ⟨e, [], rfl, hp⟩
    · have h1' : log ++ [.threw k r x] = (pre ++ .threw k' r' x' :: p1) ++ [e1] := by simpa using h1
      obtain ⟨h1, _⟩ := List.append_inj' h1' rfl
      obtain ⟨e2, p2, rfl, hq⟩ := h pre k' r' x' p1 h1
      exact ⟨e2, p2 ++ [e1] ++ [e], by simp, hq⟩

/-! ## What is beneath the program's code -/

/-- What a subscription in role `r` is made from. -/
def Under (kind : Kind) (w : Prop) : Role → List Frame → Prop
  | .src, fs => match kind with
    | .cat _ | .retry _ | .retryWhen => ∃ fs', fs = .loop true :: fs'
    | .resume => fs = []
    | _ => False
  | .notif, fs => kind = .retryWhen ∧ ∃ fs', fs = .guard :: fs'
  | .fall, fs => kind = .resume ∧ ∃ fs', fs = .guard :: fs'
  | .outer, fs => match kind with
    | .merge | .switch | .concat => fs = []
    | _ => False
  | .inner, fs => match kind with
    | .merge | .switch => ∃ fs', fs = .next :: fs'
    | .concat => ∃ fs', fs = .pump true :: .next :: fs' ∨ (fs = .pump true :: .term :: fs' ∧ w)
    | _ => False

/-- Every frame lies on what it was called from; models no code. -/
def Good (kind : Kind) (w : Prop) : List Frame → Prop
  | [] => True
  | .body _ r :: fs => Under kind w r fs ∧ Good kind w fs
  | .pump _ :: fs => (∃ fs', fs = .next :: fs' ∨ fs = .term :: fs') ∧ Good kind w fs
  | _ :: fs => Good kind w fs

theorem Under.mono {kind r fs} {w w' : Prop} (hw : w → w') (h : Under kind w r fs) : Under kind w' r fs := by
  cases kind <;> cases r <;> simp only [Under] at h ⊢ <;> grind

theorem Good.mono {kind fs} {w w' : Prop} (hw : w → w') : Good kind w fs → Good kind w' fs := by
  induction fs with
  | nil => simp [Good]
  | cons f fs ih =>
    cases f <;> simp only [Good] <;> intro h <;> first | exact ih h | exact ⟨h.1, ih h.2⟩ | exact ⟨h.1.mono hw, ih h.2⟩

/-- Which roles an operator uses. -/
def Uses : Kind → Role → Prop
  | .cat _, .src | .retry _, .src | .retryWhen, .src | .retryWhen, .notif | .resume, .src | .resume, .fall => True
  | .merge, .outer | .merge, .inner | .switch, .outer | .switch, .inner | .concat, .outer | .concat, .inner => True
  | _, _ => False

/-- `Reaches`, or the exception is fatal to concat. -/
def ReachesOr (kind : Kind) (pre : List Ev) (_ : Nat) (r : Role) (x : Nat) (e : Ev) : Prop :=
  Reaches kind r x pre e ∨ (e = .died x ∧ kind = .concat ∧ r = .inner ∧ .waits ∈ pre)

/-- The operators with a guarded loop. -/
def Loops : Kind → Prop
  | .cat _ | .retry _ | .retryWhen => True
  | _ => False

/-- Which loops an operator has. -/
def Fits (kind : Kind) : Frame → Prop
  | .loop _ => Loops kind
  | .pump _ => kind = .concat
  | _ => True

/-- Invariant of the proofs; models no code. -/
structure Inv (kind : Kind) (s : St) : Prop where
  good : s.dead = false → Good kind (.waits ∈ s.log) s.stack
  uses : ∀ p ∈ s.live, Uses kind p.2
  over : s.over = true ↔ Over s.log
  gone : s.over = true → s.live = []
  queue : s.queue ≠ 0 → .waits ∈ s.log
  reach : AllR (ReachesOr kind) s.log
  lives : ∀ x, .died x ∈ s.log → kind = .concat ∧ .waits ∈ s.log
  once : (s.log.filterMap Ev.ends).length ≤ 1
  fits : ∀ f ∈ s.stack, Fits kind f

variable {kind : Kind} {s s' : St}

theorem Inv.of (h : Inv kind s) (hd : s'.dead = false → s.dead = false) (hl : s'.log = s.log) (ho : s'.over = s.over)
    (hg : s'.dead = false → Good kind (.waits ∈ s.log) s'.stack) (hu : ∀ p ∈ s'.live, Uses kind p.2)
    (hn : s.over = true → s'.live = []) (hq : s'.queue ≠ 0 → s.queue ≠ 0 ∨ .waits ∈ s.log)
    (hp : ∀ f ∈ s'.stack, Fits kind f) : Inv kind s' where
  good := by rw [hl]; exact hg
  uses := hu
  over := by rw [ho, hl]; exact h.over
  gone := by rw [ho]; exact hn
  queue := by rw [hl]; intro hz; exact (hq hz).elim h.queue id
  reach := by rw [hl]; exact h.reach
  lives := by rw [hl]; exact h.lives
  once := by rw [hl]; exact h.once
  fits := hp

theorem Over.snoc {l : List Ev} {e : Ev} : Over (l ++ [e]) ↔ Over l ∨ (∃ y, e = .told y) ∨ e = .disposed := by
  simp only [Over, List.mem_append, List.mem_singleton]
  grind

theorem Inv.tell (h : Inv kind s) (x : Option Nat) : Inv kind (s.tell x) := by
  unfold St.tell
  by_cases ho : s.over
  · simpa [ho] using h
  · simp only [ho, Bool.false_eq_true, if_false]
    have hno : ¬ Over s.log := fun h' => ho (h.over.mpr h')
    constructor <;> simp only [St.say]
    · intro hd; exact (h.good hd).mono (by intro hw; simp [hw])
    · simp
    · simp [Over.snoc]
    · simp
    · intro hq; simp [h.queue hq]
    · exact h.reach.snoc rfl
    · intro y hy
      simp only [List.mem_append, List.mem_singleton, reduceCtorEq, or_false] at hy ⊢
      exact h.lives y hy
    · have : s.log.filterMap Ev.ends = [] := by
        rw [List.filterMap_eq_nil_iff]
        intro e he
        cases e <;> simp only [Ev.ends, reduceCtorEq]
        exact hno (.inl ⟨_, he⟩)
      rw [List.filterMap_append, this]; simp
    · exact h.fits

theorem Inv.subscribe {r : Role} (h : Inv kind s) (ho : s.over = false) (hr : Uses kind r)
    (hu : Under kind (.waits ∈ s.log) r s.stack) : Inv kind (s.subscribe r) := by
  constructor <;> simp only [St.subscribe, St.say]
  · intro hd
    exact ⟨hu.mono (by intro hw; simp [hw]), (h.good hd).mono (by intro hw; simp [hw])⟩
  · intro p hp
    rcases List.mem_cons.mp hp with rfl | hp
    · exact hr
    · exact h.uses p hp
  · rw [Over.snoc]; simp only [reduceCtorEq, exists_false, or_false]; exact h.over
  · simp [ho]
  · intro hq; simp [h.queue hq]
  · exact h.reach.snoc rfl
  · intro y hy
    simp only [List.mem_append, List.mem_singleton, reduceCtorEq, or_false] at hy ⊢
    exact h.lives y hy
  · rw [List.filterMap_append]; simpa [List.filterMap_cons] using h.once
  · intro b hb
    rcases List.mem_cons.mp hb with rfl | hb
    · trivial
    · exact h.fits b hb

theorem Inv.notOver (h : Inv kind s) {p} (hp : p ∈ s.live) : s.over = false := by
  cases ho : s.over
  · rfl
  · rw [h.gone ho] at hp; cases hp

/-- Frames which need nothing beneath them. -/
def Plain : Frame → Bool
  | .loop _ | .guard | .next | .term => true
  | _ => false

theorem Good.push {w : Prop} {f fs} (hf : Plain f = true) : Good kind w (f :: fs) ↔ Good kind w fs := by
  cases f <;> simp_all [Plain, Good]

/-- Another stack of the same kind, everything seen from outside being equal. -/
theorem Inv.restack (h : Inv kind s) (hd : s.dead = false) {fs : List Frame} (hg : Good kind (.waits ∈ s.log) fs)
    (hp : ∀ f ∈ fs, Fits kind f) : Inv kind { s with stack := fs } :=
  h.of id rfl rfl (fun _ => hg) h.uses h.gone (.inl) hp

theorem Inv.tail (h : Inv kind s) (hd : s.dead = false) {f fs} (hs : s.stack = f :: fs) : Inv kind { s with stack := fs } := by
  have hg := h.good hd
  have hp := h.fits
  rw [hs] at hg hp
  refine h.restack hd ?_ (fun b hb => hp b (List.mem_cons_of_mem _ hb))
  cases f <;> simp only [Good] at hg <;> first | exact hg | exact hg.2

theorem Inv.push (h : Inv kind s) {fs : List Frame} (hf : ∀ f ∈ fs, Plain f = true) (hF : ∀ f ∈ fs, Fits kind f) : Inv kind (s.push fs) := by
  refine h.of id rfl rfl (fun hd => ?_) h.uses h.gone (.inl) ?_
  · have hg : Good kind (.waits ∈ s.log) s.stack := h.good hd
    simp only [St.push]
    clear hd
    clear hF
    induction fs with
    | nil => exact hg
    | cons f fs ih =>
      rw [List.cons_append, Good.push (hf f (by simp))]
      exact ih (fun g hg => hf g (List.mem_cons_of_mem _ hg))
  · intro b hb
    simp only [St.push, List.mem_append] at hb
    rcases hb with hb | hb
    · exact hF _ hb
    · exact h.fits b hb

theorem Inv.endOf (h : Inv kind s) (k r) : Inv kind (s.endOf k r) := by
  refine h.of id rfl rfl h.good ?_ ?_ (.inl) h.fits
  · intro p hp; exact h.uses p (List.mem_of_mem_erase hp)
  · intro ho; simp [St.endOf, h.gone ho]

theorem Inv.again (h : Inv kind s) {f} (hf : f = .next ∨ f = .term) (hk : Loops kind) : Inv kind (s.again f) := by
  unfold St.again
  split
  · exact h.of id rfl rfl h.good h.uses h.gone (.inl) h.fits
  · exact h.push (by rcases hf with rfl | rfl <;> simp [Plain]) (by rcases hf with rfl | rfl <;> simp [Fits, hk])

theorem Inv.turn (h : Inv kind s) (hd : s.dead = false) (hk : Loops kind) {b fs} (hs : s.stack = .loop b :: fs) : Inv kind (s.turn kind) := by
  have ht := h.tail hd hs
  have hU : Uses kind .src := by cases kind <;> simp_all [Loops, Uses]
  have hUn : ∀ w fs, Under kind w .src (.loop true :: fs) := by intro w fs; cases kind <;> simp_all [Loops, Under]
  unfold St.turn
  simp only [hs, List.tail_cons]
  split
  · exact ht
  · rename_i ho
    have ho : s.over = false := by simpa using ho
    split
    · exact ht.tell none
    · refine Inv.subscribe (ht.push (fs := [.loop true]) (by simp [Plain]) (by simp [Fits, hk]) |>.of id rfl rfl ?_ h.uses h.gone (.inl) ?_) ho ?_ ?_
      · intro hd; exact (ht.push (fs := [.loop true]) (by simp [Plain]) (by simp [Fits, hk])).good hd
      · exact (ht.push (fs := [.loop true]) (by simp [Plain]) (by simp [Fits, hk])).fits
      · exact hU
      · exact hUn _ _

theorem Inv.pumpTurn (h : Inv kind s) (hd : s.dead = false) (hk : kind = .concat) {b fs} (hs : s.stack = .pump b :: fs) : Inv kind s.pumpTurn := by
  have ht := h.tail hd hs
  have hg := h.good hd
  have hp := h.fits
  rw [hs] at hg hp
  simp only [Good] at hg
  obtain ⟨⟨f1, hf⟩, hg⟩ := hg
  unfold St.pumpTurn
  simp only [hs, List.tail_cons]
  split
  · exact ht
  · rename_i ho
    have ho : s.over = false := by simpa using ho
    split
    · have h2 : Inv kind { s with stack := fs, stage := .none } := ht.of id rfl rfl ht.good ht.uses ht.gone (.inl) ht.fits
      split
      · exact h2.tell none
      · exact h2
    · rename_i hq
      refine Inv.subscribe (h.of (s' := { ({ s with stack := fs } : St).push [.pump true] with queue := s.queue - 1, stage := .draining }) id rfl rfl ?_ h.uses h.gone (fun _ => .inl hq) ?_) ho ?_ ?_
      · intro _; exact ⟨⟨f1, hf⟩, hg⟩
      · intro f hf
        rcases List.mem_cons.mp hf with rfl | hf
        · exact hk
        · exact ht.fits f hf
      · simp [hk, Uses]
      · simp only [hk, Under]
        rcases hf with rfl | rfl
        · exact ⟨f1, .inl rfl⟩
        · exact ⟨f1, .inr ⟨rfl, h.queue hq⟩⟩

theorem Inv.last (h : Inv kind s) : Inv kind s.last := by
  unfold St.last
  split
  · exact h.tell none
  · exact h

theorem Inv.notify (h : Inv kind s) (hd : s.dead = false) {k r} (hm : (k, r) ∈ s.live) (n : Note) : Inv kind (s.notify kind k r n) := by
  have ho := h.notOver hm
  have hu := h.uses _ hm
  have he := h.endOf k r
  cases n with
  | next =>
    simp only [St.notify]
    split
    · exact he.again (by simp) trivial
    · exact (h.push (fs := [.next]) (by simp [Plain]) (by simp [Fits])).subscribe ho (by simp [Uses]) (by simp [Under, St.push])
    · have h2 : Inv .switch { s with live := s.live.filter (fun p => p.2 != Role.inner) } := by
        refine h.of id rfl rfl h.good ?_ ?_ (.inl) h.fits
        · intro p hp; exact h.uses p (List.mem_filter.mp hp).1
        · intro ho'; simp [ho] at ho'
      exact (h2.push (fs := [.next]) (by simp [Plain]) (by simp [Fits])).subscribe ho (by simp [Uses]) (by simp [Under, St.push])
    · split
      · refine Inv.subscribe (h.of (s' := { s.push [.pump true, .next] with stage := .draining }) id rfl rfl ?_ h.uses h.gone (.inl) ?_) ho (by simp [Uses]) ?_
        · intro _; exact ⟨⟨_, .inl rfl⟩, h.good hd⟩
        · intro f hf
          simp only [St.push, List.cons_append, List.nil_append, List.mem_cons] at hf
          rcases hf with rfl | rfl | hf
          · rfl
          · trivial
          · exact h.fits f hf
        · exact ⟨_, .inl rfl⟩
      · constructor <;> simp only [St.say]
        · intro hd; exact (h.good hd).mono (by intro hw; simp [hw])
        · exact h.uses
        · rw [Over.snoc]; simp only [reduceCtorEq, exists_false, or_false]; exact h.over
        · exact h.gone
        · intro _; simp
        · exact h.reach.snoc rfl
        · intro y hy; simp
        · rw [List.filterMap_append]; simpa [List.filterMap_cons] using h.once
        · exact h.fits
    · exact h
  | error x =>
    simp only [St.notify]
    split
    · split
      · exact h.tell _
      · exact he.again (by simp) trivial
    · exact (he.push (fs := [.guard, .term]) (by simp [Plain]) (by simp [Fits])).subscribe ho (by simp [Uses]) (by simp [Under, St.push])
    · exact (he.push (fs := [.guard, .term]) (by simp [Plain]) (by simp [Fits])).subscribe ho (by simp [Uses]) (by simp [Under, St.push])
    · exact h.tell _
  | completed =>
    simp only [St.notify]
    split
    · exact he.again (by simp) trivial
    · exact he.last
    · exact he.last
    · split
      · exact he.last
      · exact he
    · split
      · exact he.of id rfl rfl he.good he.uses he.gone (.inl) he.fits
      · refine he.of id rfl rfl ?_ he.uses he.gone (.inl) ?_
        · intro hd; exact ⟨⟨_, .inr rfl⟩, he.good hd⟩
        · intro f hf
          simp only [St.push, List.cons_append, List.nil_append, List.mem_cons] at hf
          rcases hf with rfl | rfl | hf
          · rfl
          · trivial
          · exact he.fits f hf
    · exact h.tell _

/-! ## Throwing -/

theorem Inv.tellThrow {k r x fs} (h : Inv kind s) (hd : s.dead = false) (hg : Good kind (.waits ∈ s.log) fs) (hF : ∀ f ∈ fs, Fits kind f)
    (hr : ¬ Direct kind r) :
    Inv kind (if s.over then ({ s.say (.threw k r x) with stack := fs } : St).say (.dropped x) else ({ s.say (.threw k r x) with stack := fs } : St).tell (some x)) := by
  have hw : ∀ e : Ev, .waits ∈ s.log → .waits ∈ s.log ++ [.threw k r x] ++ [e] := by intro e hw; simp [hw]
  have hO : ∀ e : Ev, Over (s.log ++ [.threw k r x] ++ [e]) ↔ Over s.log ∨ (∃ y, e = .told y) ∨ e = .disposed := by
    intro e; rw [Over.snoc, Over.snoc]; simp
  split
  · rename_i ho
    constructor <;> simp only [St.say]
    · intro _; exact hg.mono (hw _)
    · exact h.uses
    · rw [hO]; simp [h.over.mp ho, ho]
    · exact h.gone
    · intro hq; exact hw _ (h.queue hq)
    · exact h.reach.snoc2 rfl (.inl ⟨rfl, h.over.mp ho, hr⟩)
    · intro y hy
      simp only [List.mem_append, List.mem_singleton, reduceCtorEq, or_false] at hy ⊢
      exact h.lives y hy
    · rw [List.filterMap_append, List.filterMap_append]; simpa [List.filterMap_cons] using h.once
    · exact hF
  · rename_i ho
    have hno : ¬ Over s.log := fun h' => ho (h.over.mpr h')
    have ho' : s.over = false := by simpa using ho
    simp only [St.tell, St.say, ho', Bool.false_eq_true, if_false]
    constructor <;> simp only
    · intro _; exact hg.mono (hw _)
    · simp
    · rw [hO]; simp
    · simp
    · intro hq; exact hw _ (h.queue hq)
    · exact h.reach.snoc2 rfl (.inl ⟨rfl, hno, hr⟩)
    · intro y hy
      simp only [List.mem_append, List.mem_singleton, reduceCtorEq, or_false] at hy ⊢
      exact h.lives y hy
    · have : s.log.filterMap Ev.ends = [] := by
        rw [List.filterMap_eq_nil_iff]
        intro e he
        cases e <;> simp only [Ev.ends, reduceCtorEq]
        exact hno (.inl ⟨_, he⟩)
      rw [List.filterMap_append, List.filterMap_append, this]; simp
    · exact hF

theorem Inv.outThrow {k r x} (h : Inv kind s) (hr : Direct kind r) :
    Inv kind (({ s.say (.threw k r x) with stack := [] } : St).say (.out x)) := by
  constructor <;> simp only [St.say]
  · intro _; trivial
  · exact h.uses
  · rw [Over.snoc, Over.snoc]; simpa using h.over
  · exact h.gone
  · intro hq; simp [h.queue hq]
  · exact h.reach.snoc2 rfl (.inl ⟨rfl, hr⟩)
  · intro y hy
    simp only [List.mem_append, List.mem_singleton, reduceCtorEq, or_false] at hy ⊢
    exact h.lives y hy
  · rw [List.filterMap_append, List.filterMap_append]; simpa [List.filterMap_cons] using h.once
  · simp

theorem Inv.dieThrow {k x} (h : Inv kind s) (hk : kind = .concat) (hw : .waits ∈ s.log) :
    Inv kind (({ s.say (.threw k .inner x) with dead := true } : St).say (.died x)) := by
  constructor <;> simp only [St.say]
  · simp
  · exact h.uses
  · rw [Over.snoc, Over.snoc]; simpa using h.over
  · exact h.gone
  · intro hq; simp [h.queue hq]
  · exact h.reach.snoc2 rfl (.inr ⟨rfl, hk, rfl, hw⟩)
  · intro y _; exact ⟨hk, by simp [hw]⟩
  · rw [List.filterMap_append, List.filterMap_append]; simpa [List.filterMap_cons] using h.once
  · exact h.fits

theorem Inv.throw {k r x fs} (h : Inv kind s) (hd : s.dead = false) (hs : s.stack = .body k r :: fs) :
    Inv kind ((s.say (.threw k r x)).unwind x fs) := by
  have hg := h.good hd
  have hF := h.fits
  rw [hs] at hg hF
  obtain ⟨hu, hg⟩ := hg
  have go : ∀ f fs', fs = f :: fs' → Plain f = true → f ≠ .term → ¬ Direct kind r → Inv kind ((s.say (.threw k r x)).unwind x fs) := by
    intro f fs' e hf ht hr
    subst e
    have := h.tellThrow (k := k) (x := x) hd ((Good.push hf).mp hg) (fun f hf => hF f (by simp [hf])) hr
    cases f <;> simp only [Plain, Bool.false_eq_true] at hf <;> first | exact absurd rfl ht | exact this
  have ou : fs = [] → Direct kind r → Inv kind ((s.say (.threw k r x)).unwind x fs) := by
    intro e hr; subst e; exact h.outThrow hr
  cases r with
  | src =>
    cases kind <;> simp only [Under] at hu
    · obtain ⟨f', e⟩ := hu; exact go _ _ e rfl (by simp) (by simp [Direct])
    · obtain ⟨f', e⟩ := hu; exact go _ _ e rfl (by simp) (by simp [Direct])
    · obtain ⟨f', e⟩ := hu; exact go _ _ e rfl (by simp) (by simp [Direct])
    · exact ou hu trivial
  | notif =>
    obtain ⟨rfl, f', e⟩ := hu; exact go _ _ e rfl (by simp) (by simp [Direct])
  | fall =>
    obtain ⟨rfl, f', e⟩ := hu; exact go _ _ e rfl (by simp) (by simp [Direct])
  | outer =>
    cases kind <;> simp only [Under] at hu <;> exact ou hu trivial
  | inner =>
    cases kind <;> simp only [Under] at hu
    · obtain ⟨f', e⟩ := hu; exact go _ _ e rfl (by simp) (by simp [Direct])
    · obtain ⟨f', e⟩ := hu; exact go _ _ e rfl (by simp) (by simp [Direct])
    · obtain ⟨f', e | ⟨e, hw⟩⟩ := hu
      · subst e
        exact h.tellThrow (k := k) (x := x) hd (hg.2) (fun f hf => hF f (by simp [hf])) (by simp [Direct])
      · subst e
        exact h.dieThrow rfl hw

theorem Inv.step (h : Inv kind s) (l : Lbl) : Inv kind (step kind s l) := by
  unfold Stack.step
  split
  · exact h
  rename_i hd
  have hd : s.dead = false := by simpa using hd
  have emit : ∀ k r n, Inv kind (if (k, r) ∈ s.live then s.notify kind k r n else s) := by
    intro k r n
    split
    · rename_i hm; exact h.notify hd hm n
    · exact h
  have disp : Inv kind (if s.over then s else { s with over := true, live := [] }.say .disposed) := by
    split
    · exact h
    · constructor <;> simp only [St.say]
      · intro hd; exact (h.good hd).mono (by intro hw; simp [hw])
      · simp
      · simp [Over.snoc]
      · simp
      · intro hq; simp [h.queue hq]
      · exact h.reach.snoc rfl
      · intro y hy
        simp only [List.mem_append, List.mem_singleton, reduceCtorEq, or_false] at hy ⊢
        exact h.lives y hy
      · rw [List.filterMap_append]; simpa [List.filterMap_cons] using h.once
      · exact h.fits
  split
  · rename_i hs
    split
    · exact h
    · have h1 : Inv kind { s with started := true } := h.of id rfl rfl h.good h.uses h.gone (.inl) h.fits
      have lo : ∀ l, Loops kind → Inv kind ({ s with started := true, left := l }.push [.loop false]) := by
        intro l hk
        have h2 : Inv kind { s with started := true, left := l } := h.of id rfl rfl h.good h.uses h.gone (.inl) h.fits
        exact h2.push (by simp [Plain]) (by simp [Fits, hk])
      have su : ∀ r, Uses kind r → Under kind (.waits ∈ s.log) r [] → Inv kind ({ s with started := true }.subscribe r) := by
        intro r hr hu
        have ho : s.over = false := by simp_all
        exact h1.subscribe ho hr (by simpa [hs] using hu)
      cases kind <;> simp only
      · exact lo _ trivial
      · exact lo _ trivial
      · exact lo _ trivial
      · exact su _ trivial rfl
      · exact su _ trivial rfl
      · exact su _ trivial rfl
      · exact su _ trivial rfl
  · exact emit _ _ _
  · exact emit _ _ _
  · exact disp
  · exact disp
  · rename_i hs; exact h.tail hd hs
  · rename_i hs; exact h.throw hd hs
  · rename_i hs
    have hk : Loops kind := h.fits (.loop false) (by simp [hs])
    exact h.turn hd hk hs
  · rename_i hs
    have hk : Loops kind := h.fits (.loop true) (by simp [hs])
    split
    · have := h.tail hd hs
      exact this.of id rfl rfl this.good this.uses this.gone (.inl) this.fits
    · exact h.turn hd hk hs
  · rename_i hs
    exact h.pumpTurn hd (h.fits (.pump false) (by simp [hs])) hs
  · rename_i hs
    split
    · have := h.tail hd hs
      exact this.of id rfl rfl this.good this.uses this.gone (.inl) this.fits
    · exact h.pumpTurn hd (h.fits (.pump true) (by simp [hs])) hs
  · rename_i hs; exact h.tail hd hs
  · rename_i hs; exact h.tail hd hs
  · rename_i hs; exact h.tail hd hs
  · exact h

end Rpp.Stack
