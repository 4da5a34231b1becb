import Verif.Subject.Props

/-!
# C115: what the subscribers of a shared source get

`source | publish()` or `source | multicast(subject)` makes a connectable observable; it is connected by hand or by `ref_count()`.  The subject is
the one of `Verif/Subject/Model.lean`, with subscribers whose callbacks may dispose of their subscriptions or throw; this file adds
observables/connectable_observable.hpp: `ref_count_on_subscribe_t` 24-61, `connect` 100-115, and operators/multicast.hpp, publish.hpp, ref_count.hpp, which only make
these objects.  A source may emit while it is being subscribed, as a cold one does, and later.

Simplified: one thread; either `ref_count()` is called once and `connect()` is not, or the other way round (C112 has both, C48 and C86 have threads); callbacks do not subscribe
others (C47 has that); a connection that was disposed of calls nothing any more (its observer ignores it, observer.hpp 84-144).
-/

namespace Rpp.Shared

open Rpp.Subj

variable {α ε σ : Type} [DecidableEq α] [DecidableEq ε]

/-- Events with their times: subscriber `k` joins; it disposes of its subscription from outside; the source is subscribed; that subscription is over; the source calls the
subject's observer.  No counterpart in /repo. -/
inductive Ev (α ε : Type) where
  | join (k : Nat)
  | leave (k : Nat)
  | up
  | down
  | src (c : Call α ε)

/-- `subj`: the subject (connectable_observable.hpp 187); `refs`: who holds a reference to the current `refcount_disposable` (33; none: it is disposed of); `conn`: the connection
(189) is not disposed of; `made`: how often the source was subscribed so far. -/
structure St (α ε σ : Type) where
  subj : Subj.St α ε σ
  refs : List Nat := []
  conn : Bool := false
  made : Nat := 0
  log : List (Int × Ev α ε) := []

/-- A program: the subject and its subscribers; what the source calls during its `n`-th subscription, at which times; whether `ref_count()` is used (connectable_observable.hpp 126-130) or `connect()`. -/
structure Cfg (α ε σ : Type) extends Subj.Cfg α ε σ where
  cold : Nat → List (Int × Call α ε)
  auto : Bool

/-- What a call of the source does to the subject; `set_upstream` concerns the connection only (publish_subject.hpp 28-34). -/
def opOf : Call α ε → Option (Subj.Op α ε)
  | .next v => some (.next v)
  | .error e => some (.error e)
  | .completed => some .completed
  | .up _ => none

/-- The connection is disposed of (composite_disposable.hpp 43-61). -/
def St.close (t : Int) (s : St α ε σ) : St α ε σ :=
  if s.conn then { s with conn := false, log := s.log ++ [(t, .down)] } else s

/-- Subscribers that are disposed of let go of their references (observer.hpp 49-66: the reference is an upstream of theirs); the last one disposes of the `refcount_disposable`,
which is the connection (refcount_disposable.hpp 32-45, connectable_observable.hpp 44-47). -/
def St.settle (t : Int) (s : St α ε σ) : St α ε σ :=
  let refs := s.refs.filter (fun k => (s.subj.obs k).disposed = false)
  if s.refs ≠ [] ∧ refs = [] then St.close t { s with refs := refs } else { s with refs := refs }

/-- The source calls its observer, which is the subject's with the connection as its disposable (connectable_observable.hpp 113; observer.hpp 84-144): ignored once that is disposed of;
a terminal event disposes of it. -/
def St.pass (C : Cfg α ε σ) (t : Int) (c : Call α ε) (s : St α ε σ) : St α ε σ :=
  if s.conn then
    match opOf c with
    | none => s
    | some o =>
      let s1 : St α ε σ := { s with subj := s.subj.step C.toCfg (t, o), log := s.log ++ [(t, .src c)] }
      if c.isTerm then (s1.settle t).close t else s1.settle t
  else s

/-- `connect` (connectable_observable.hpp 100-115); the source may call its observer before `subscribe` returns. -/
def St.connect (C : Cfg α ε σ) (t : Int) (s : St α ε σ) : St α ε σ :=
  if s.subj.down then s
  else if s.conn then s
  else
    let s1 : St α ε σ := { s with conn := true, made := s.made + 1, log := s.log ++ [(t, .up)] }
    (C.cold s.made).foldl (fun s c => s.pass C c.1 c.2) s1

/-- Subscriber `k` subscribes, through `ref_count()` (`ref_count_on_subscribe_t::subscribe`, connectable_observable.hpp 39-60) or to the subject. -/
def St.sub (C : Cfg α ε σ) (t : Int) (k : Nat) (s : St α ε σ) : St α ε σ :=
  if k ∈ s.subj.subs then s
  else
    let s1 : St α ε σ := { s with refs := if C.auto then s.refs ++ [k] else s.refs, subj := s.subj.step C.toCfg (t, .subscribe k), log := s.log ++ [(t, .join k)] }
    let s2 := s1.settle t
    if C.auto ∧ s.refs = [] ∧ s2.refs ≠ [] then s2.connect C t else s2

/-- What may happen next, at which time: a new subscriber; one disposes of its subscription; `connect()`; the connection is disposed of by hand; the source calls its observer.
The choice is arbitrary; no counterpart in /repo. -/
inductive Lbl (α ε : Type) where
  | sub (k : Nat)
  | leave (k : Nat)
  | connect
  | disconnect
  | call (c : Call α ε)

/-- One step (connectable_observable.hpp 39-60, 100-115). -/
def step (C : Cfg α ε σ) (s : St α ε σ) (l : Int × Lbl α ε) : St α ε σ :=
  match l.2 with
  | .sub k => s.sub C l.1 k
  | .leave k =>
    let s1 : St α ε σ := { s with subj := s.subj.step C.toCfg (l.1, .dispose k), log := s.log ++ [(l.1, .leave k)] }
    s1.settle l.1
  | .connect => if C.auto then s else s.connect C l.1
  | .disconnect => if C.auto then s else s.close l.1
  | .call c => s.pass C l.1 c

/-- The state after a sequence of steps; no counterpart in /repo. -/
def exec (C : Cfg α ε σ) (ls : List (Int × Lbl α ε)) : St α ε σ := ls.foldl (step C) { subj := { store := C.store.init } }

/-! ## Specification -/

/-- The history of the subject that a log describes.  Specification; models no code. -/
def ops : List (Int × Ev α ε) → List (Int × Subj.Op α ε)
  | [] => []
  | (t, .join k) :: l => (t, .subscribe k) :: ops l
  | (t, .leave k) :: l => (t, .dispose k) :: ops l
  | (t, .src c) :: l => match opOf c with
    | some o => (t, o) :: ops l
    | none => ops l
  | (_, .up) :: l => ops l
  | (_, .down) :: l => ops l

/-- The source is subscribed after these events.  Specification; models no code. -/
def connected : List (Int × Ev α ε) → Bool
  | l => l.foldl (fun b e => match e.2 with | .up => true | .down => false | _ => b) false

/-- Subscriber `k` has subscribed and its observer is not disposed of, be it by itself, from outside or by the end of the source.  Specification; models no code. -/
def Listens (s : St α ε σ) (k : Nat) : Prop := (∃ t, (t, .join k) ∈ s.log) ∧ (s.subj.obs k).disposed = false

/-- The source has completed or failed.  Specification; models no code. -/
def Over (l : List (Int × Ev α ε)) : Prop := ∃ t c, (t, .src c) ∈ l ∧ c.isTerm = true

/-! ## Proofs -/

omit [DecidableEq α] [DecidableEq ε] in
theorem ops_append (a b : List (Int × Ev α ε)) : ops (a ++ b) = ops a ++ ops b := by
  induction a with
  | nil => rfl
  | cons e a ih =>
    obtain ⟨t, e⟩ := e
    cases e <;> simp only [ops, List.cons_append, ih]
    split <;> simp

omit [DecidableEq α] [DecidableEq ε] in
theorem connected_append (a : List (Int × Ev α ε)) (e : Int × Ev α ε) :
    connected (a ++ [e]) = match e.2 with | .up => true | .down => false | _ => connected a := by
  simp only [connected, List.foldl_append, List.foldl_cons, List.foldl_nil]

omit [DecidableEq α] [DecidableEq ε] in
theorem ops_over (l : List (Int × Ev α ε)) (x : Option (Term ε)) (h : ending (ops l) = some x) : x.isSome = true ∧ Over l := by
  induction l with
  | nil => cases h
  | cons e l ih =>
    have hup : Over l → Over (e :: l) := fun ⟨t, c, hm, hc⟩ => ⟨t, c, List.mem_cons_of_mem _ hm, hc⟩
    obtain ⟨t, e⟩ := e
    cases e with
    | join k => exact ⟨(ih h).1, hup (ih h).2⟩
    | leave k => exact ⟨(ih h).1, hup (ih h).2⟩
    | up => exact ⟨(ih h).1, hup (ih h).2⟩
    | down => exact ⟨(ih h).1, hup (ih h).2⟩
    | src c =>
      cases c with
      | next v => exact ⟨(ih h).1, hup (ih h).2⟩
      | up d => exact ⟨(ih h).1, hup (ih h).2⟩
      | error e => cases h; exact ⟨rfl, _, _, List.mem_cons_self, rfl⟩
      | completed => cases h; exact ⟨rfl, _, _, List.mem_cons_self, rfl⟩

omit [DecidableEq α] [DecidableEq ε] in
theorem over_ops (l : List (Int × Ev α ε)) (h : Over l) : ending (ops l) ≠ none := by
  induction l with
  | nil => obtain ⟨_, _, hm, _⟩ := h; cases hm
  | cons e l ih =>
    obtain ⟨t', c, hm, hc⟩ := h
    obtain ⟨t, e⟩ := e
    have hl : (∀ c', e = .src c' → c'.isTerm = false) → Over l := by
      intro hne
      rcases List.mem_cons.1 hm with he | hm
      · injection he with _ he
        rw [hne c he.symm] at hc; cases hc
      · exact ⟨t', c, hm, hc⟩
    cases e with
    | join k => exact ih (hl (fun _ h => by cases h))
    | leave k => exact ih (hl (fun _ h => by cases h))
    | up => exact ih (hl (fun _ h => by cases h))
    | down => exact ih (hl (fun _ h => by cases h))
    | src c' =>
      cases c' with
      | next v => exact ih (hl (fun _ h => by cases h; rfl))
      | up d => exact ih (hl (fun _ h => by cases h; rfl))
      | error e => simp [ops, opOf, ending]
      | completed => simp [ops, opOf, ending]

/-- When an event may happen, given those before; used in the proofs, models no code. -/
def Ok (pre : List (Int × Ev α ε)) : Ev α ε → Prop
  | .join k => ∀ t, (t, .join k) ∉ pre
  | .up => connected pre = false ∧ ¬ Over pre
  | .down => connected pre = true
  | .src c => connected pre = true ∧ ¬ Over pre ∧ c.isEvent = true
  | .leave _ => True

/-- Invariant of the proofs, `mid`: a new `refcount_disposable` is not connected yet; models no code. -/
structure Inv (C : Cfg α ε σ) (mid : Bool) (s : St α ε σ) : Prop where
  run : s.subj = Subj.run C.toCfg (ops s.log)
  refs : C.auto = true → ∀ k, k ∈ s.refs ↔ k ∈ s.subj.subs ∧ (s.subj.obs k).disposed = false
  hand : C.auto = false → s.refs = []
  used : C.auto = true → mid = false → (s.conn = true ↔ s.refs ≠ [])
  idle : mid = true → s.conn = false
  conn : s.conn = connected s.log
  ok : ∀ pre t e post, s.log = pre ++ (t, e) :: post → Ok pre e
  made : s.made = (s.log.filter (fun e => match e.2 with | .up => true | _ => false)).length

theorem Inv.mem {C : Cfg α ε σ} {m : Bool} {s : St α ε σ} (h : Inv C m s) (k : Nat) : k ∈ s.subj.subs ↔ ∃ t, (t, .join k) ∈ s.log := by
  rw [h.run, (run_facts C.toCfg (ops s.log)).2.2 k]
  generalize s.log = l
  induction l with
  | nil => simp [ops]
  | cons e l ih =>
    obtain ⟨t, e⟩ := e
    cases e with
    | src c => cases c <;> simp [ops, opOf, ih]
    | join j =>
      simp only [ops, List.mem_cons, Prod.mk.injEq, Subj.Op.subscribe.injEq, Ev.join.injEq]
      constructor
      · rintro ⟨x, h | h⟩
        · exact ⟨x, .inl h⟩
        · obtain ⟨y, hy⟩ := ih.1 ⟨x, h⟩; exact ⟨y, .inr hy⟩
      · rintro ⟨x, h | h⟩
        · exact ⟨x, .inl h⟩
        · obtain ⟨y, hy⟩ := ih.2 ⟨x, h⟩; exact ⟨y, .inr hy⟩
    | _ => simp [ops, ih]

/-- Once the source is over, nobody is left. -/
theorem Inv.gone {C : Cfg α ε σ} {m : Bool} {s : St α ε σ} (h : Inv C m s) (ho : Over s.log) (k : Nat) (hk : k ∈ s.subj.subs) :
    (s.subj.obs k).disposed = true := by
  obtain ⟨hs, he, _⟩ := run_facts C.toCfg (ops s.log)
  rw [← h.run] at hs he
  cases hx : ending (ops s.log) with
  | none => exact absurd hx (over_ops _ ho)
  | some x =>
    cases x with
    | none => exact absurd (ops_over _ _ hx).1 (by simp)
    | some t => exact hs.fin t (he.trans hx) k hk

theorem Inv.down {C : Cfg α ε σ} {m : Bool} {s : St α ε σ} (h : Inv C m s) : s.subj.down = true ↔ Over s.log := by
  obtain ⟨hs, he, _⟩ := run_facts C.toCfg (ops s.log)
  rw [← h.run] at hs he
  rw [hs.down, he]
  constructor
  · intro hx
    cases hy : ending (ops s.log) with
    | none => rw [hy] at hx; cases hx
    | some x => exact (ops_over _ _ hy).2
  · intro ho
    cases hy : ending (ops s.log) with
    | none => exact absurd hy (over_ops _ ho)
    | some x => rfl

omit [DecidableEq α] [DecidableEq ε] in
theorem ok_snoc {l : List (Int × Ev α ε)} (h : ∀ pre t e post, l = pre ++ (t, e) :: post → Ok pre e) (t : Int) (e : Ev α ε) (he : Ok l e) :
    ∀ pre t' e' post, l ++ [(t, e)] = pre ++ (t', e') :: post → Ok pre e' := by
  intro pre t' e' post hp
  rcases List.append_eq_append_iff.1 hp with ⟨a, h1, h2⟩ | ⟨a, h1, h2⟩
  · cases a with
    | nil =>
      simp only [List.append_nil] at h1
      simp only [List.nil_append, List.cons.injEq, Prod.mk.injEq] at h2
      rw [h1, ← h2.1.2]; exact he
    | cons x a =>
      simp only [List.cons_append, List.cons.injEq] at h2
      have := h2.2
      simp at this
  · cases a with
    | nil =>
      simp only [List.append_nil] at h1
      simp only [List.nil_append, List.cons.injEq, Prod.mk.injEq] at h2
      rw [← h1, h2.1.2]; exact he
    | cons x a =>
      simp only [List.cons_append, List.cons.injEq] at h2
      exact h pre t' e' a (by rw [h1, h2.1])

/-- What is known of a state before `settle`; models no code. -/
structure Pre (C : Cfg α ε σ) (mid : Bool) (s : St α ε σ) : Prop where
  run : s.subj = Subj.run C.toCfg (ops s.log)
  refs : C.auto = true → ∀ k, k ∈ s.subj.subs → (s.subj.obs k).disposed = false → k ∈ s.refs
  subs : C.auto = true → ∀ k ∈ s.refs, k ∈ s.subj.subs
  hand : C.auto = false → s.refs = []
  used : C.auto = true → mid = false → (s.conn = true ↔ s.refs ≠ [])
  idle : mid = true → s.conn = false
  conn : s.conn = connected s.log
  ok : ∀ pre t e post, s.log = pre ++ (t, e) :: post → Ok pre e
  made : s.made = (s.log.filter (fun e => match e.2 with | .up => true | _ => false)).length

omit [DecidableEq α] [DecidableEq ε] in
theorem over_snoc {l : List (Int × Ev α ε)} {e : Int × Ev α ε} : Over (l ++ [e]) ↔ Over l ∨ ∃ c, e.2 = .src c ∧ c.isTerm = true := by
  constructor
  · rintro ⟨t, c, hm, hc⟩
    rcases List.mem_append.1 hm with hm | hm
    · exact .inl ⟨t, c, hm, hc⟩
    · rw [List.mem_singleton] at hm; exact .inr ⟨c, by rw [← hm], hc⟩
  · rintro (⟨t, c, hm, hc⟩ | ⟨c, he, hc⟩)
    · exact ⟨t, c, List.mem_append_left _ hm, hc⟩
    · exact ⟨e.1, c, List.mem_append_right _ (by rw [List.mem_singleton, ← he]), hc⟩

theorem settle_subj (t : Int) (s : St α ε σ) : (s.settle t).subj = s.subj := by
  unfold St.settle St.close; dsimp only; split <;> (try split) <;> rfl

theorem close_subj (t : Int) (s : St α ε σ) : (s.close t).subj = s.subj := by
  unfold St.close; split <;> rfl

theorem ops_down (l : List (Int × Ev α ε)) (t : Int) : ops (l ++ [(t, .down)]) = ops l := by rw [ops_append]; simp [ops]
theorem ops_up (l : List (Int × Ev α ε)) (t : Int) : ops (l ++ [(t, .up)]) = ops l := by rw [ops_append]; simp [ops]

theorem settle_inv {C : Cfg α ε σ} {m : Bool} {s : St α ε σ} (h : Pre C m s) (t : Int) : Inv C m (s.settle t) := by
  have hm : C.auto = true → ∀ k, k ∈ s.refs.filter (fun k => (s.subj.obs k).disposed = false) ↔ k ∈ s.subj.subs ∧ (s.subj.obs k).disposed = false := by
    intro ha k
    simp only [List.mem_filter, decide_eq_true_eq]
    exact ⟨fun ⟨h1, h2⟩ => ⟨h.subs ha k h1, h2⟩, fun ⟨h1, h2⟩ => ⟨h.refs ha k h1 h2, h2⟩⟩
  unfold St.settle
  dsimp only
  split
  · rename_i hc
    unfold St.close
    split
    · rename_i hcn
      refine ⟨?_, hm, fun _ => hc.2, ?_, fun _ => rfl, ?_, ?_, ?_⟩
      · rw [ops_down]; exact h.run
      · intro _ _; dsimp only; rw [hc.2]; simp
      · rw [connected_append]
      · refine ok_snoc h.ok t _ ?_
        show connected s.log = true
        rw [← h.conn]; exact hcn
      · rw [List.filter_append]; simpa using h.made
    · rename_i hcn
      refine ⟨h.run, hm, fun _ => hc.2, ?_, h.idle, h.conn, h.ok, h.made⟩
      intro _ _
      dsimp only at hcn ⊢
      rw [hc.2]; simp [hcn]
  · rename_i hc
    refine ⟨h.run, hm, ?_, ?_, h.idle, h.conn, h.ok, h.made⟩
    · intro ha; dsimp only; rw [h.hand ha]; rfl
    · intro ha hmid
      dsimp only
      rw [h.used ha hmid]
      constructor
      · intro h1 h2; exact hc ⟨h1, h2⟩
      · intro h1 h2; rw [h2] at h1; exact h1 rfl

theorem close_inv {C : Cfg α ε σ} {s : St α ε σ} (h : Pre C false s) (t : Int) (hr : s.refs = []) : Inv C false (s.close t) := by
  unfold St.close
  have ha : C.auto = true → ∀ k, k ∈ s.refs ↔ k ∈ s.subj.subs ∧ (s.subj.obs k).disposed = false := by
    intro ha k
    exact ⟨fun hk => (by rw [hr] at hk; cases hk), fun ⟨h1, h2⟩ => h.refs ha k h1 h2⟩
  split
  · rename_i hc
    refine ⟨?_, ha, fun _ => hr, ?_, fun _ => rfl, ?_, ?_, ?_⟩
    · rw [ops_down]; exact h.run
    · intro _ _; dsimp only; simp [hr]
    · rw [connected_append]
    · refine ok_snoc h.ok t _ ?_
      show connected s.log = true
      rw [← h.conn]; exact hc
    · rw [List.filter_append]; simpa using h.made
  · exact ⟨h.run, ha, h.hand, h.used, h.idle, h.conn, h.ok, h.made⟩

end Rpp.Shared
