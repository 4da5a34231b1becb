/-!
# The queue of schedulables (C55)

Models schedulers/details/queue.hpp, `schedulables_queue` (206-284): a singly linked list of schedulables,
`m_head` first. Time points are unbounded integers (nanosecond overflow is not modelled). The mutex and the
condition variable of a shared queue (253-260) are modelled in `NewThread.lean`; here an operation is atomic.
-/

namespace Rpp.Sched

/-- `schedulable_base` as far as the queue is concerned: `m_time_point` (queue.hpp 112) and the identity of the
task. -/
structure Ent where
  tp : Int
  id : Nat
deriving DecidableEq, Repr

/-- The `while` loop of `emplace_impl` (queue.hpp 269-275) and `update_next` (87-92): `cur` is the element
after which the walk stands, the argument is its successor list. -/
def insertAfter (e : Ent) : List Ent → List Ent
  | [] => [e]
  | n :: rest => if e.tp < n.tp then e :: n :: rest else n :: insertAfter e rest

/-- `schedulables_queue::emplace_impl`, queue.hpp 250-278. -/
def emplace (q : List Ent) (e : Ent) : List Ent :=
  match q with
  | [] => [e]
  | h :: rest => if e.tp < h.tp then e :: h :: rest else h :: insertAfter e rest

/-- `schedulables_queue::pop`, queue.hpp 239-242. Calling it on an empty queue dereferences a null pointer:
undefined behaviour, `none`. -/
def popQ : List Ent → Option (Ent × List Ent)
  | [] => none
  | h :: rest => some (h, rest)

namespace QueueRun

/-- A user of the queue: tasks are numbered in the order they are inserted. Popping an empty queue is skipped,
as every caller in /repo guards `pop` with `is_empty` or `top`. -/
inductive Op where
  | push (tp : Int)
  | pop
deriving DecidableEq, Repr

/-- What an observer sees. -/
inductive Ev where
  | pushed (e : Ent)
  | popped (e : Ent)
deriving DecidableEq, Repr

/-- State: the members of the objects of schedulers/details/queue.hpp 220-280, what the running calls are doing, and the log. -/
structure St where
  queue : List Ent := []
  count : Nat := 0
  log : List Ev := []

/-- One step; the single cases cite the lines of schedulers/details/queue.hpp 220-280 they model. -/
def step (s : St) : Op → St
  | .push tp => ⟨emplace s.queue ⟨tp, s.count⟩, s.count + 1, s.log ++ [.pushed ⟨tp, s.count⟩]⟩
  | .pop => match popQ s.queue with
    | none => s
    | some (e, q) => ⟨q, s.count, s.log ++ [.popped e]⟩

/-- The state after a sequence of steps; no counterpart in /repo. -/
def run (ops : List Op) : St := ops.foldl step {}

end QueueRun

/-! ## Specification -/

namespace QueueSpec
open QueueRun

/-- The tasks that were inserted and not yet handed out, as a bag (in insertion order). -/
def pending : List Ev → List Ent
  | [] => []
  | evs => evs.foldl (fun p ev => match ev with
      | .pushed e => p ++ [e]
      | .popped e => p.erase e) []

/-- `e` is the one a stable priority queue hands out: it is waiting, and every other waiting task has a later
time, or the same time and a later insertion number. -/
def IsNext (waiting : List Ent) (e : Ent) : Prop :=
  e ∈ waiting ∧ ∀ f ∈ waiting, e.tp < f.tp ∨ (e.tp = f.tp ∧ e.id ≤ f.id)

end QueueSpec

/-! ## Proofs -/

/-- The order in which a stable queue keeps its tasks. -/
def Ent.before (a b : Ent) : Prop := a.tp < b.tp ∨ (a.tp = b.tp ∧ a.id < b.id)

theorem insertAfter_perm (e : Ent) (q : List Ent) : (insertAfter e q).Perm (e :: q) := by
  induction q with
  | nil => exact .refl _
  | cons n rest ih =>
    simp only [insertAfter]
    split
    · exact .refl _
    · exact (List.Perm.cons n ih).trans (List.Perm.swap _ _ _)

theorem emplace_perm (e : Ent) (q : List Ent) : (emplace q e).Perm (e :: q) := by
  cases q with
  | nil => exact .refl _
  | cons h rest =>
    simp only [emplace]
    split
    · exact .refl _
    · exact (List.Perm.cons h (insertAfter_perm e rest)).trans (List.Perm.swap _ _ _)

theorem emplace_eq_insertAfter (e : Ent) (q : List Ent) : emplace q e = insertAfter e q := by
  cases q <;> rfl

/-- Inserting a task with a fresh (largest) number keeps the list ordered. -/
theorem insertAfter_sorted (e : Ent) (q : List Ent) (hs : q.Pairwise Ent.before)
    (hf : ∀ f ∈ q, f.id < e.id) : (insertAfter e q).Pairwise Ent.before := by
  induction q with
  | nil => simp [insertAfter]
  | cons n rest ih =>
    simp only [List.pairwise_cons, List.mem_cons, forall_eq_or_imp] at hs hf
    simp only [insertAfter]
    split
    · rename_i hlt
      simp only [List.pairwise_cons, List.mem_cons, forall_eq_or_imp]
      refine ⟨⟨.inl hlt, fun f hfm => ?_⟩, hs.1, hs.2⟩
      have := hs.1 f hfm
      simp only [Ent.before] at this ⊢; omega
    · rename_i hge
      simp only [List.pairwise_cons]
      refine ⟨fun f hfm => ?_, ih hs.2 hf.2⟩
      have := (insertAfter_perm e rest).mem_iff.mp hfm
      simp only [List.mem_cons] at this
      rcases this with rfl | hm
      · simp only [Ent.before]; omega
      · exact hs.1 f hm

namespace QueueRun
open QueueSpec

theorem pending_snoc (l : List Ev) (ev : Ev) : pending (l ++ [ev]) = match ev with
    | .pushed e => pending l ++ [e]
    | .popped e => (pending l).erase e := by
  cases l with
  | nil => cases ev <;> rfl
  | cons a l => simp only [pending, List.cons_append, List.foldl_append, List.foldl_cons, List.foldl_nil]

/-- Invariant of the proofs; models no code. -/
structure Inv (s : St) : Prop where
  sorted : s.queue.Pairwise Ent.before
  fresh : ∀ e ∈ s.queue, e.id < s.count
  perm : s.queue.Perm (pending s.log)
  legal : ∀ pre e post, s.log = pre ++ .popped e :: post → IsNext (pending pre) e

theorem Inv.init : Inv {} := by
  constructor <;> simp [pending]

theorem snoc_eq {α} {l pre post : List α} {x y : α} (h : l ++ [x] = pre ++ y :: post) :
    (l = pre ∧ x = y ∧ post = []) ∨ ∃ post', post = post' ++ [x] ∧ l = pre ++ y :: post' := by
  rcases List.eq_nil_or_concat post with rfl | ⟨post', z, rfl⟩
  · left
    have := List.append_inj' h rfl
    simp_all
  · right
    refine ⟨post', ?_⟩
    have h' : l ++ [x] = (pre ++ y :: post') ++ [z] := by simpa using h
    have := List.append_inj' h' rfl
    simp_all

theorem Inv.step {s : St} (h : Inv s) (op : Op) : Inv (step s op) := by
  cases op with
  | push tp =>
    simp only [QueueRun.step]
    refine ⟨?_, ?_, ?_, ?_⟩
    · simp only [emplace_eq_insertAfter]
      exact insertAfter_sorted _ _ h.sorted h.fresh
    · intro e he
      have := (emplace_perm ⟨tp, s.count⟩ s.queue).mem_iff.mp he
      simp only [List.mem_cons] at this
      rcases this with rfl | hm
      · exact Nat.lt_succ_self _
      · exact Nat.lt_succ_of_lt (h.fresh e hm)
    · simp only [pending_snoc]
      exact (emplace_perm _ _).trans ((List.Perm.cons _ h.perm).trans
        (List.perm_append_comm (l₁ := [_])))
    · intro pre e post hl
      rcases snoc_eq hl with ⟨_, h2, _⟩ | ⟨post', _, h2⟩
      · cases h2
      · exact h.legal _ _ _ h2
  | pop =>
    simp only [QueueRun.step]
    cases hq : s.queue with
    | nil => simpa [popQ] using h
    | cons e q =>
      simp only [popQ]
      have hs := h.sorted
      have hf := h.fresh
      have hp := h.perm
      rw [hq] at hs hf hp
      simp only [List.pairwise_cons] at hs
      refine ⟨hs.2, fun f hm => hf f (List.mem_cons_of_mem _ hm), ?_, ?_⟩
      · simp only [pending_snoc]
        have := hp.erase e
        simpa using this
      · intro pre f post hl
        rcases snoc_eq hl with ⟨rfl, h2, _⟩ | ⟨post', _, h2⟩
        · cases h2
          refine ⟨hp.mem_iff.mp (by simp), fun g hg => ?_⟩
          have := hp.mem_iff.mpr hg
          simp only [List.mem_cons] at this
          rcases this with rfl | hm
          · right; exact ⟨rfl, Nat.le_refl _⟩
          · have := hs.1 g hm
            simp only [Ent.before] at this; omega
        · exact h.legal _ _ _ h2

theorem Inv.run (ops : List Op) : Inv (run ops) := by
  suffices ∀ s, Inv s → Inv (ops.foldl QueueRun.step s) from this _ Inv.init
  induction ops with
  | nil => exact fun s h => h
  | cons op ops ih => exact fun s h => ih _ (h.step op)

end QueueRun

/-! ## Properties -/

open QueueRun QueueSpec

/-- C55, order: whatever is inserted and taken in whatever order, the task handed out is always the one with
the least time among the waiting ones and, among equal times, the one inserted first. -/
theorem C55_order (ops : List Op) (pre post : List Ev) (e : Ent)
    (h : (run ops).log = pre ++ .popped e :: post) : IsNext (pending pre) e :=
  (Inv.run ops).legal pre e post h

/-- C55, nothing is lost or duplicated: the queue always holds exactly the tasks inserted and not handed out. -/
theorem C55_lossless (ops : List Op) : (run ops).queue.Perm (pending (run ops).log) :=
  (Inv.run ops).perm

/-- C55, a `pop` hands a task out whenever one is waiting. -/
theorem C55_pop_succeeds (ops : List Op) (h : pending (run ops).log ≠ []) :
    ∃ e, (step (run ops) .pop).log = (run ops).log ++ [.popped e] := by
  have hp := (Inv.run ops).perm
  simp only [step]
  cases hq : (run ops).queue with
  | nil => rw [hq] at hp; exact absurd hp.nil_eq.symm h
  | cons e q => exact ⟨e, rfl⟩

/-- C55, every insertion is recorded with its requested time, under the next number. -/
theorem push_recorded (ops : List Op) (tp : Int) :
    (step (run ops) (.push tp)).log = (run ops).log ++ [.pushed ⟨tp, (run ops).count⟩] := rfl

/-- Non-vacuity: equal times in insertion order, an earlier task overtakes. -/
example : (run [.push 5, .push 5, .push 3, .push 5, .pop, .pop, .push 5, .pop, .pop, .pop, .pop]).log =
    [.pushed ⟨5, 0⟩, .pushed ⟨5, 1⟩, .pushed ⟨3, 2⟩, .pushed ⟨5, 3⟩, .popped ⟨3, 2⟩, .popped ⟨5, 0⟩,
     .pushed ⟨5, 4⟩, .popped ⟨5, 1⟩, .popped ⟨5, 3⟩, .popped ⟨5, 4⟩] := by decide

example : pending (run [.push 5, .push 3, .pop]).log = [⟨5, 0⟩] := by decide

end Rpp.Sched
