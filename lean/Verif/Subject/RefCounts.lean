/-!
# C112: several `ref_count()`s, and `connect()` by hand, on one connectable observable

Models observables/connectable_observable.hpp (`ref_count_on_subscribe_t` 24-61, `connect` 100-115, `ref_count` 126-130).  Every `ref_count()` has a reference count of its own (30-36), while the
connection belongs to the connectable observable (186-192) and is shared by all of them and by `connect()`.

Simplified: a subscription (39-49), a disposal, a call of `connect` and an emission are one step each; how they interleave is the subject of C48 and C86.  The source emits nothing while it is being subscribed; it
may do so in the next step.
-/

namespace Rpp.RefCounts

/-- A disposable with which the source is subscribed: one given to `connect` by hand, or the `g`-th `refcount_disposable` made by any `ref_count()` (connectable_observable.hpp 58, 100). -/
inductive Src where
  | hand (w : Nat)
  | rc (g : Nat)
deriving DecidableEq

/-- Events: `joined k r`: subscription `k` is made through the `r`-th `ref_count()`; `left k`: it is over; `up c` / `down c`: the source is subscribed with `c` / that subscription is disposed of; `got k v`: subscription `k` gets
the value `v`; `ended`: the source has completed or failed.  No counterpart in /repo. -/
inductive Ev where
  | joined (k r : Nat)
  | left (k : Nat)
  | up (c : Src)
  | down (c : Src)
  | got (k v : Nat)
  | ended
deriving DecidableEq

/-- `cur`: `m_state->disposable` of the connectable observable (connectable_observable.hpp 189); `gen`: `m_state->disposable` of each `ref_count()` (33); `dead`: which disposables are disposed of; `mem`: who holds a reference to which `refcount_disposable`, through which `ref_count()`;
`ended`: the subject is disposed of. -/
structure St where
  cur : Option Src := none
  gen : Nat → Option Nat := fun _ => none
  dead : List Src := []
  next : Nat := 0
  mem : List (Nat × Nat × Nat) := []
  used : List Nat := []
  ended : Bool := false
  log : List Ev := []

/-- What may happen next: a subscription through a `ref_count()`; its end by the subscriber; `connect(w)`; the disposal of a disposable given to or returned by `connect`; the source emits; it completes or fails.  The choice is arbitrary; no counterpart in /repo. -/
inductive Lbl where
  | sub (r k : Nat)
  | leave (k : Nat)
  | connect (w : Nat)
  | drop (c : Src)
  | emit (v : Nat)
  | finish

/-- There is a connection and it is not disposed of (connectable_observable.hpp 107). -/
def St.live (s : St) : Option Src := match s.cur with
  | some c => if c ∈ s.dead then none else some c
  | none => none

/-- `connect(c)`, connectable_observable.hpp 100-115; the source is not subscribed if `c` is disposed of already (observable.hpp 112). -/
def St.connect (s : St) (c : Src) : St :=
  if s.ended then s
  else if s.live.isSome then s
  else { s with cur := some c, log := if c ∈ s.dead then s.log else s.log ++ [.up c] }

/-- `dispose()` of a disposable (refcount_disposable.hpp 47-50, composite_disposable.hpp). -/
def St.drop (s : St) (c : Src) : St :=
  { s with dead := c :: s.dead, log := if s.live = some c then s.log ++ [.down c] else s.log }

/-- The generation of the `r`-th `ref_count()` that takes new references (connectable_observable.hpp 55-56). -/
def St.open? (s : St) (r : Nat) : Option Nat := match s.gen r with
  | some g => if .rc g ∈ s.dead then none else some g
  | none => none

/-- One step (connectable_observable.hpp 39-60, 100-115; refcount_disposable.hpp 32-45; subject_state.hpp 111-151).  After the end of the source a new subscription is told so at once and lets go of its reference: nothing changes. -/
def step (s : St) : Lbl → St
  | .sub r k =>
    if k ∈ s.used then s
    else if s.ended then { s with used := k :: s.used }
    else match s.open? r with
      | some g => { s with used := k :: s.used, mem := s.mem ++ [(k, r, g)], log := s.log ++ [.joined k r] }
      | none =>
        let s' : St := { s with used := k :: s.used, mem := s.mem ++ [(k, r, s.next)], log := s.log ++ [.joined k r], next := s.next + 1,
                                gen := fun x => if x = r then some s.next else s.gen x }
        s'.connect (.rc s.next)
  | .leave k => match s.mem.find? (·.1 = k) with
    | none => s
    | some (_, _, g) =>
      let s' := { s with mem := s.mem.filter (·.1 ≠ k), log := s.log ++ [.left k] }
      if s'.mem.any (·.2.2 = g) then s' else s'.drop (.rc g)
  | .connect w => s.connect (.hand w)
  | .drop c => match c with
    | .hand _ => s.drop c
    | .rc g => if g < s.next then s.drop c else s
  | .emit v => if s.live.isSome then { s with log := s.log ++ s.mem.map (fun m => .got m.1 v) } else s
  | .finish => match s.live with
    | none => s
    | some c => { s with ended := true, mem := [], dead := c :: s.mem.map (fun m => .rc m.2.2) ++ s.dead,
                         log := s.log ++ .ended :: s.mem.map (fun m => .left m.1) ++ [.down c] }

/-- The state after a sequence of steps; no counterpart in /repo. -/
def exec (ls : List Lbl) : St := ls.foldl step {}

/-! ## Specification -/

/-- Subscription `k`, made through the `r`-th `ref_count()`, goes on.  Specification; models no code. -/
def Listens (log : List Ev) (k r : Nat) : Prop := .joined k r ∈ log ∧ .left k ∉ log

/-- The source is subscribed with `c`.  Specification; models no code. -/
def Connected (log : List Ev) (c : Src) : Prop := .up c ∈ log ∧ .down c ∉ log

/-- While somebody is subscribed through a `ref_count()`, the source is subscribed.  Specification; models no code. -/
def Fed (log : List Ev) : Prop := ∀ k r, Listens log k r → ∃ c, Connected log c

/-! ## Proofs -/

/-- Invariant of the proofs; models no code. -/
structure Inv (s : St) : Prop where
  live : ∀ c, s.live = some c ↔ Connected s.log c
  down : ∀ c, .down c ∈ s.log → c ∈ s.dead
  old : ∀ g, .up (.rc g) ∈ s.log → g < s.next
  gen : ∀ r g, s.gen r = some g → g < s.next
  lt : ∀ m ∈ s.mem, m.2.2 < s.next
  mem : ∀ k r, (∃ m ∈ s.mem, m.1 = k ∧ m.2.1 = r) ↔ Listens s.log k r
  used : ∀ k r, .joined k r ∈ s.log → k ∈ s.used
  left : ∀ k, .left k ∈ s.log → k ∈ s.used
  one : ∀ a ∈ s.mem, ∀ b ∈ s.mem, a.1 = b.1 → a = b
  ended : s.ended = true ↔ .ended ∈ s.log
  over : s.ended = true → s.mem = [] ∧ ∀ c, ¬ s.live = some c
  held : ∀ g, s.live = some (.rc g) → ∃ m ∈ s.mem, m.2.2 = g
  open' : ∀ r g, s.open? r = some g → ∃ m ∈ s.mem, m.2.1 = r ∧ m.2.2 = g
  dead : ∀ g, .rc g ∈ s.dead → g < s.next
  cur : ∀ g, s.cur = some (.rc g) → g < s.next
  memu : ∀ m ∈ s.mem, m.1 ∈ s.used
  same : ∀ a ∈ s.mem, ∀ b ∈ s.mem, a.2.2 = b.2.2 → a.2.1 = b.2.1
  used' : ∀ k ∈ s.used, (∃ r, .joined k r ∈ s.log) ∨ s.ended = true
  nodup : (s.mem.map (·.1)).Nodup
  genr : ∀ r g, s.gen r = some g → ∀ m ∈ s.mem, m.2.2 = g → m.2.1 = r

theorem live_iff {s : St} {c : Src} : s.live = some c ↔ s.cur = some c ∧ c ∉ s.dead := by
  unfold St.live
  cases h : s.cur <;> grind

theorem open_iff {s : St} {r g : Nat} : s.open? r = some g ↔ s.gen r = some g ∧ .rc g ∉ s.dead := by
  unfold St.open?
  cases h : s.gen r <;> grind

theorem inv_init : Inv {} := by
  constructor <;> simp [St.live, St.open?, Connected, Listens]

/-- Proof of the clauses of a step. -/
macro "rc_case" : tactic => `(tactic|
  (simp only [live_iff, open_iff, Connected, Listens] at *
   constructor <;> dsimp only <;> (try simp only [live_iff, open_iff, Connected, Listens, List.mem_append, List.mem_cons, List.mem_map, List.mem_filter, List.not_mem_nil, or_false, or_and_right, exists_or, exists_eq_left, Ev.joined.injEq, exists_eq_right, reduceCtorEq]) <;> grind))

theorem inv_connect {s : St} (h : Inv s) (w : Nat) : Inv (s.connect (.hand w)) := by
  unfold St.connect
  split
  · exact h
  · split
    · exact h
    · rename_i he hl
      have hl' : ∀ c, ¬ s.live = some c := by intro c hc; rw [hc] at hl; simp at hl
      obtain ⟨h1, h2, h3, h4, h5, h6, h7, h8, h9, h10, h11, h12, h13, h14, h15, h16, h17, h18, h19, h20⟩ := h
      by_cases hd : Src.hand w ∈ s.dead
      · simp only [hd, if_true]
        rc_case
      · simp only [hd, if_false]
        rc_case

theorem inv_drop {s : St} (h : Inv s) (c : Src) (hc : ∀ g, c = .rc g → g < s.next) : Inv (s.drop c) := by
  obtain ⟨h1, h2, h3, h4, h5, h6, h7, h8, h9, h10, h11, h12, h13, h14, h15, h16, h17, h18, h19, h20⟩ := h
  unfold St.drop
  by_cases hl : s.live = some c
  · rw [if_pos hl]
    rc_case
  · rw [if_neg hl]
    rc_case

theorem inv_emit {s : St} (h : Inv s) (v : Nat) : Inv (step s (.emit v)) := by
  simp only [step]
  split
  · obtain ⟨h1, h2, h3, h4, h5, h6, h7, h8, h9, h10, h11, h12, h13, h14, h15, h16, h17, h18, h19, h20⟩ := h
    rc_case
  · exact h

theorem inv_finish {s : St} (h : Inv s) : Inv (step s .finish) := by
  simp only [step]
  split
  · exact h
  · rename_i c hc
    have hx := live_iff.1 hc
    obtain ⟨h1, h2, h3, h4, h5, h6, h7, h8, h9, h10, h11, h12, h13, h14, h15, h16, h17, h18, h19, h20⟩ := h
    rc_case

theorem connect_live {s : St} {c x : Src} (h : s.live = some c) : s.connect x = s := by
  unfold St.connect
  split
  · rfl
  · rw [h]; rfl

theorem connect_none {s : St} {x : Src} (he : ¬ s.ended = true) (h : s.live = none) (hd : x ∉ s.dead) :
    s.connect x = { s with cur := some x, log := s.log ++ [.up x] } := by
  unfold St.connect
  rw [if_neg he, h, if_neg hd]
  rfl

theorem inv_sub {s : St} (h : Inv s) (r k : Nat) : Inv (step s (.sub r k)) := by
  simp only [step]
  split
  · exact h
  · split
    · obtain ⟨h1, h2, h3, h4, h5, h6, h7, h8, h9, h10, h11, h12, h13, h14, h15, h16, h17, h18, h19, h20⟩ := h
      rc_case
    · rename_i hk he
      cases ho : s.open? r with
      | some g =>
        dsimp only
        have ho' := open_iff.1 ho
        obtain ⟨h1, h2, h3, h4, h5, h6, h7, h8, h9, h10, h11, h12, h13, h14, h15, h16, h17, h18, h19, h20⟩ := h
        rc_case
      | none =>
        have ho' : ∀ g, ¬ (s.gen r = some g ∧ .rc g ∉ s.dead) := fun g hg => by rw [open_iff.2 hg] at ho; cases ho
        have hn : Src.rc s.next ∉ s.dead := fun hd => absurd (h.dead _ hd) (by omega)
        cases hl : s.live with
        | some c =>
          dsimp only
          rw [connect_live (c := c) (by exact hl)]
          obtain ⟨h1, h2, h3, h4, h5, h6, h7, h8, h9, h10, h11, h12, h13, h14, h15, h16, h17, h18, h19, h20⟩ := h
          clear ho
          rc_case
        | none =>
          have hl' : ∀ c, ¬ s.live = some c := by intro c hc; rw [hc] at hl; cases hl
          dsimp only
          rw [connect_none (by exact he) (by exact hl) (by exact hn)]
          obtain ⟨h1, h2, h3, h4, h5, h6, h7, h8, h9, h10, h11, h12, h13, h14, h15, h16, h17, h18, h19, h20⟩ := h
          clear ho hl
          rc_case

theorem inv_leave {s : St} (h : Inv s) (k : Nat) : Inv (step s (.leave k)) := by
  simp only [step]
  split
  · exact h
  · rename_i x r g hf
    have hm := List.mem_of_find?_eq_some hf
    have hx : x = k := by simpa using List.find?_some hf
    subst hx
    by_cases ha : (s.mem.filter (·.1 ≠ x)).any (·.2.2 = g) = true
    · rw [if_pos ha]
      have ha' : ∃ m ∈ s.mem, m.1 ≠ x ∧ m.2.2 = g := by
        obtain ⟨m, hm, hg⟩ := List.any_eq_true.1 ha
        rw [List.mem_filter] at hm
        exact ⟨m, hm.1, by simpa using hm.2, by simpa using hg⟩
      obtain ⟨h1, h2, h3, h4, h5, h6, h7, h8, h9, h10, h11, h12, h13, h14, h15, h16, h17, h18, h19, h20⟩ := h
      clear ha hf
      rc_case
    · rw [if_neg ha]
      have ha' : ∀ m ∈ s.mem, m.1 ≠ x → m.2.2 ≠ g := by
        intro m hm hn hg
        exact ha (List.any_eq_true.2 ⟨m, List.mem_filter.2 ⟨hm, by simpa using hn⟩, by simpa using hg⟩)
      unfold St.drop
      by_cases hl : s.live = some (.rc g)
      · rw [if_pos (by exact hl)]
        obtain ⟨h1, h2, h3, h4, h5, h6, h7, h8, h9, h10, h11, h12, h13, h14, h15, h16, h17, h18, h19, h20⟩ := h
        clear ha hf
        rc_case
      · rw [if_neg (by exact hl)]
        obtain ⟨h1, h2, h3, h4, h5, h6, h7, h8, h9, h10, h11, h12, h13, h14, h15, h16, h17, h18, h19, h20⟩ := h
        clear ha hf
        rc_case

theorem inv_step {s : St} (h : Inv s) (l : Lbl) : Inv (step s l) := by
  cases l with
  | sub r k => exact inv_sub h r k
  | leave k => exact inv_leave h k
  | connect w => exact inv_connect h w
  | drop c =>
    cases c with
    | hand w => exact inv_drop h _ (fun g hg => by cases hg)
    | rc g =>
      simp only [step]
      split
      · exact inv_drop h _ (fun g' hg => by cases hg; assumption)
      · exact h
  | emit v => exact inv_emit h v
  | finish => exact inv_finish h

theorem inv_exec (ls : List Lbl) : Inv (exec ls) := by
  have : ∀ (ls : List Lbl) (s : St), Inv s → Inv (ls.foldl step s) := by
    intro ls
    induction ls with
    | nil => exact fun _ h => h
    | cons l ls ih => exact fun s h => ih _ (inv_step h l)
  exact this ls {} inv_init

theorem exec_snoc (ls : List Lbl) (l : Lbl) : exec (ls ++ [l]) = step (exec ls) l := by simp [exec, List.foldl_append]

end Rpp.RefCounts
