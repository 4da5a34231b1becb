/-!
# ref_count (C48)

Models observables/connectable_observable.hpp (`ref_count_on_subscribe_t` 24-61, `connect` 100-115).  Every subscription is
a small machine of its own (number `k`), advanced in any order, so subscriptions from several threads and from
callbacks are covered.  The `refcount_disposable` objects are numbered by generation; `add_ref`, `release` and the
disposal that follows the last `release` are one step each (they are studied on their own in C51).
Simplifications: one `ref_count()` of the connectable is used and `connect()` is not called by hand; what the subject does with values is C42-C47.
-/

namespace Rpp.RefCount

/-- Observable events. `sub k g b`: subscription `k` takes a reference to generation `g`, newly created (`b`) or existing;
`lost k`: it asked for a reference but the generation was on its way down, and got an empty disposable;
`rel k`: its reference is released; `conn g` / `down g`: the source is subscribed for generation `g` / generation `g`,
and with it the source subscription, is disposed; `closed`: the subject is disposed (the source terminated);
`cut g`: the source has terminated and its observer's `dispose()` (observer.hpp 120-144) drops whatever references generation `g` still has. -/
inductive Ev where
  | sub (k g : Nat) (b : Bool)
  | lost (k : Nat)
  | rel (k : Nat)
  | conn (g : Nat)
  | down (g : Nat)
  | closed
  | cut (g : Nat)
deriving DecidableEq, Repr

/-- Program counter of a subscription. `up` is the second component returned by `on_subscribe` (43). -/
inductive Pc where
  | idle
  | att (ref up : Option Nat)   -- line 45
  | subj (up : Option Nat)      -- line 46
  | chk (g : Nat)               -- line 47
  | link (g : Nat)              -- lines 102-111
  | src (g : Nat)               -- line 113
  | fin
deriving DecidableEq, Repr

/-- State: the members of the objects of observables/connectable_observable.hpp (ref_count), disposables/refcount_disposable.hpp 33-46, what the running calls are doing, and the log. -/
structure St where
  /-- `m_state->disposable` of `ref_count_on_subscribe_t` -/
  cur : Option Nat := none
  next : Nat := 0
  /-- who holds a reference to generation `g` -/
  mem : Nat → List Nat := fun _ => []
  /-- the counter of generation `g` is `s_disposed` -/
  dead : Nat → Bool := fun _ => false
  /-- generation `g` is disposed (`is_disposed()`) -/
  down : Nat → Bool := fun _ => false
  /-- `m_state->disposable` of the connectable_observable -/
  conn : Option Nat := none
  /-- the subject has ended: new observers are told so at once (subject_state.hpp 101-108) -/
  ended : Bool := false
  /-- the subject's disposable is disposed (subject_state.hpp 140, 150) -/
  closed : Bool := false
  gone : List Nat := []
  /-- the reference attached to observer `k` -/
  held : Nat → Option Nat := fun _ => none
  calls : Nat → Pc := fun _ => .idle
  log : List Ev := []

/-- Log an event; no counterpart in /repo. -/
def St.emit (s : St) (ev : Ev) : St := { s with log := s.log ++ [ev] }
/-- Replace one component of the state; no counterpart in /repo. -/
def St.goto (s : St) (k : Nat) (p : Pc) : St := { s with calls := fun j => if j = k then p else s.calls j }

/-- `refcount_disposable::release` up to the CAS (refcount_disposable.hpp 32-45); nothing if the counter is already `s_disposed`. -/
def St.release (s : St) (k g : Nat) : St :=
  if s.dead g then { s with held := fun j => if j = k then none else s.held j }
  else
    let m := (s.mem g).filter (· ≠ k)
    { s with mem := fun x => if x = g then m else s.mem x,
             dead := fun x => if x = g then decide (m = []) else s.dead x,
             held := fun j => if j = k then none else s.held j }.emit (.rel k)

/-- Observer `k` is disposed: so is the reference attached to it. (observables/connectable_observable.hpp (ref_count), disposables/refcount_disposable.hpp 33-46) -/
def St.kill (s : St) (k : Nat) : St :=
  let s1 := { s with gone := k :: s.gone }
  match s.held k with
  | some g => s1.release k g
  | none => s1

/-- What may happen next; the choice is arbitrary; no counterpart in /repo. -/
inductive Lbl where
  | sub (k : Nat)
  | run (k : Nat)
  | gone (k : Nat)   -- observer `k` is disposed, by anybody
  | fall (g : Nat)   -- `dispose()` after the last release (refcount_disposable.hpp 44-45)
  | endSubj          -- the subject's `on_error`/`on_completed` has exchanged the state
  | close            -- and disposes the subject
  | srcEnd (g : Nat) -- the source's own observer, whose disposable is generation `g`, is then disposed
deriving DecidableEq, Repr

/-- `is_disposed()` of a possibly empty disposable. (observables/connectable_observable.hpp (ref_count), disposables/refcount_disposable.hpp 33-46) -/
def St.isDown (s : St) : Option Nat → Bool
  | none => true
  | some g => s.down g

/-- `on_subscribe` (51-60), one critical section. -/
def St.onSubscribe (s : St) (k : Nat) : St :=
  match s.cur with
  | some g =>
    if s.down g = false then
      -- `add_ref` of a counter that is already `s_disposed` returns an empty disposable (refcount_disposable.hpp 104-105)
      if s.dead g then (s.goto k (.att none none)).emit (.lost k)
      else { s with mem := fun x => if x = g then k :: s.mem g else s.mem x }.goto k (.att (some g) none) |>.emit (.sub k g false)
    else
      { s with cur := some s.next, next := s.next + 1, mem := fun x => if x = s.next then [k] else s.mem x }.goto k
        (.att (some s.next) (some s.next)) |>.emit (.sub k s.next true)
  | none =>
    { s with cur := some s.next, next := s.next + 1, mem := fun x => if x = s.next then [k] else s.mem x }.goto k
      (.att (some s.next) (some s.next)) |>.emit (.sub k s.next true)

/-- On to line 47; an empty `upstream` counts as disposed. (observables/connectable_observable.hpp (ref_count), disposables/refcount_disposable.hpp 33-46) -/
def St.proceed (s : St) (k : Nat) : Option Nat → St
  | some g => s.goto k (.chk g)
  | none => s.goto k .fin

/-- One step; the single cases cite the lines of observables/connectable_observable.hpp (ref_count), disposables/refcount_disposable.hpp 33-46 they model. -/
def step (s : St) : Lbl → St
  | .sub k => if s.calls k = .idle then s.onSubscribe k else s
  | .run k =>
    match s.calls k with
    | .idle | .fin => s
    | .att r up =>
      -- observer.hpp 49-66: a disposed observer disposes the reference at once
      match r with
      | some g => if k ∈ s.gone then (s.goto k (.subj up)).release k g
                  else { s with held := fun j => if j = k then some g else s.held j }.goto k (.subj up)
      | none => s.goto k (.subj up)
    | .subj up =>
      -- after its terminal callback the observer is disposed (observer.hpp 120-144)
      (if s.ended && !s.gone.contains k then s.kill k else s).proceed k up
    | .chk g => if s.down g then s.goto k .fin else s.goto k (.link g)
    | .link g =>
      if s.closed then s.goto k .fin
      else if s.isDown s.conn = false then s.goto k .fin
      else { s with conn := some g }.goto k (.src g)
    | .src g => if s.down g then s.goto k .fin else (s.goto k .fin).emit (.conn g)
  | .gone k => if k ∈ s.gone then s else s.kill k
  | .fall g => if s.dead g && !s.down g then { s with down := fun x => if x = g then true else s.down x }.emit (.down g) else s
  | .endSubj => { s with ended := true }
  | .close => if s.closed then s else { s with ended := true, closed := true }.emit .closed
  | .srcEnd g =>
    if s.closed && decide (.conn g ∈ s.log) && !s.dead g then
      { s with mem := fun x => if x = g then [] else s.mem x, dead := fun x => if x = g then true else s.dead x }.emit (.cut g)
    else s

/-- The state after a sequence of steps; no counterpart in /repo. -/
def exec (ls : List Lbl) : St := ls.foldl step {}

/-! ## Specification -/

/-- `k` has a reference and has not released it: one of the current subscribers. -/
def Live (log : List Ev) (k : Nat) : Prop := (∃ g b, Ev.sub k g b ∈ log ∧ Ev.cut g ∉ log) ∧ Ev.rel k ∉ log

/-- Every call has returned, and no `dispose()` of a generation is under way. -/
def Quiet (s : St) : Prop := (∀ k, s.calls k = .idle ∨ s.calls k = .fin) ∧ ∀ g, s.dead g = true → s.down g = true

/-- What must have happened before an event. -/
def Ok (pre : List Ev) : Ev → Prop
  | .sub k g b => (∀ g b, Ev.sub k g b ∉ pre) ∧ .down g ∉ pre ∧
      if b then (∀ j, ¬ Live pre j) ∧ (∀ j b', Ev.sub j g b' ∉ pre)
      else (∃ j, Live pre j) ∧ (∃ j, .sub j g true ∈ pre) ∧ ∀ j g' b', Ev.sub j g' b' ∈ pre → Live pre j → g' = g
  | .rel k => Live pre k
  | .down g => (∃ k, .sub k g true ∈ pre) ∧ (∀ j, ¬ Live pre j) ∧ .down g ∉ pre
  | .conn g => (∃ k, .sub k g true ∈ pre) ∧ .down g ∉ pre ∧ .conn g ∉ pre ∧ ∀ g', .conn g' ∈ pre → .down g' ∈ pre
  | .lost _ => ∀ j, ¬ Live pre j
  | .closed => True
  | .cut g => .closed ∈ pre ∧ .conn g ∈ pre

/-- What the logs satisfy (for the proofs); models no code. -/
def Legal (log : List Ev) : Prop := ∀ pre ev post, log = pre ++ ev :: post → Ok pre ev

theorem Legal.snoc {log : List Ev} {ev : Ev} (h : Legal log) (ho : Ok log ev) : Legal (log ++ [ev]) := by
  intro pre e post he
  rcases List.eq_nil_or_concat post with rfl | ⟨post', x, rfl⟩
  · obtain ⟨rfl, h2⟩ := List.append_inj' he rfl
    cases h2; exact ho
  · rw [List.concat_eq_append, ← List.cons_append, ← List.append_assoc] at he
    exact h pre e post' (List.append_inj_left' he rfl)

/-! ## Invariant -/

/-- The generation whose connection is this call's business. -/
def Pc.up : Pc → Option Nat
  | .att _ up | .subj up => up
  | .chk g | .link g | .src g => some g
  | _ => none

/-- The reference this call has to attach. -/
def Pc.ref : Pc → Option Nat
  | .att r _ => r
  | _ => none

/-- Invariant of the proofs; models no code. -/
structure Inv (s : St) : Prop where
  fresh : ∀ k, s.calls k = .idle → ∀ g b, Ev.sub k g b ∉ s.log
  cur : ∀ g, s.cur = some g → g < s.next
  old : ∀ g, g < s.next → s.cur = some g ∨ s.down g = true
  down : ∀ g, s.down g = true ↔ .down g ∈ s.log
  dead : ∀ g, s.dead g = true ↔ g < s.next ∧ s.mem g = []
  ddead : ∀ g, s.down g = true → s.dead g = true
  memL : ∀ k g, k ∈ s.mem g ↔ (∃ b, .sub k g b ∈ s.log) ∧ .cut g ∉ s.log ∧ .rel k ∉ s.log
  uniq : ∀ k g b g' b', .sub k g b ∈ s.log → .sub k g' b' ∈ s.log → g = g' ∧ b = b'
  memU : ∀ g k, k ∈ s.mem g → (s.calls k).ref = some g ∨ s.held k = some g
  refM : ∀ k g, (s.calls k).ref = some g → (k ∈ s.mem g ∨ s.dead g = true) ∧ s.held k = none ∧ g < s.next
  heldM : ∀ k g, s.held k = some g → (k ∈ s.mem g ∨ s.dead g = true) ∧ g < s.next
  cut : ∀ g, .cut g ∈ s.log → s.dead g = true
  closedL : s.closed = true ↔ .closed ∈ s.log
  bound : ∀ k g b, .sub k g b ∈ s.log → g < s.next
  creator : ∀ g, g < s.next → ∃ k, .sub k g true ∈ s.log ∧
    ((s.calls k).up = some g ∨ s.down g = true ∨ s.closed = true ∨ .conn g ∈ s.log)
  one : ∀ k k' g, .sub k g true ∈ s.log → .sub k' g true ∈ s.log → k = k'
  upS : ∀ k g, (s.calls k).up = some g → .sub k g true ∈ s.log ∧ .conn g ∉ s.log
  connB : ∀ g, s.conn = some g → g < s.next
  connL : ∀ g, .conn g ∈ s.log → s.conn = some g ∨ s.down g = true
  linked : ∀ k g, (s.calls k = .chk g ∨ s.calls k = .link g) → s.conn ≠ some g
  linked' : ∀ k g, (s.calls k).up = some g → s.conn = some g → s.calls k = .src g
  srcC : ∀ k g, s.calls k = .src g → s.conn = some g ∨ s.down g = true
  legal : Legal s.log
  idleHeld : ∀ k, s.calls k = .idle → ∀ g, s.held k ≠ some g


theorem Live.of_mem {s : St} (h : Inv s) {k g : Nat} (hk : k ∈ s.mem g) : Live s.log k := by
  obtain ⟨⟨b, hb⟩, hc, hr⟩ := (h.memL k g).1 hk
  exact ⟨⟨g, b, hb, hc⟩, hr⟩

theorem Live.mem {s : St} (h : Inv s) {k : Nat} (hk : Live s.log k) : ∃ g, g < s.next ∧ k ∈ s.mem g := by
  obtain ⟨⟨g, b, hb, hc⟩, hr⟩ := hk
  exact ⟨g, h.bound k g b hb, (h.memL k g).2 ⟨⟨b, hb⟩, hc, hr⟩⟩

theorem Inv.init : Inv {} := by
  constructor <;> simp [Pc.up, Pc.ref, Legal]

end Rpp.RefCount
