/-!
# C116: `create_worker` of a thread pool, called by several threads

Models schedulers/thread_pool.hpp 66-88 and schedulers/computational.hpp 29-37: `computational` is one `thread_pool` for the whole process, so `create_worker` is called by whichever
threads subscribe.  `state::get` is `m_workers[m_index++ % m_workers.size()]` with a plain `size_t`: a read and a write, with nothing to order the calls of different threads.  That is a data race, undefined
behavior in C++; the model says what happens if a read and a write are single steps and happen one after the other, which is the least that can go wrong.
-/

namespace Rpp.Sched.PoolRace

/-- `rd t i`: thread `t`'s call reads `m_index`, which is `i`; `wr t w`: it writes `m_index` and returns worker `w`.  No counterpart in /repo. -/
inductive Ev where
  | rd (t i : Nat)
  | wr (t w : Nat)
deriving DecidableEq

/-- `index`: `m_index` (thread_pool.hpp 87); `read`: what a thread's running call of `get` has read. -/
structure St where
  index : Nat := 0
  read : Nat → Option Nat := fun _ => none
  log : List Ev := []

/-- The two halves of a call of `get` by thread `t` (thread_pool.hpp 83). -/
inductive Lbl where
  | load (t : Nat)
  | store (t : Nat)
deriving DecidableEq

/-- One step (thread_pool.hpp 83): `size` is the number of threads of the pool, at least one (77); `max` the number of values of `size_t`. -/
def step (max size : Nat) (s : St) : Lbl → St
  | .load t => match s.read t with
    | some _ => s
    | none => { s with read := fun x => if x = t then some s.index else s.read x, log := s.log ++ [.rd t s.index] }
  | .store t => match s.read t with
    | some i => { s with index := (i + 1) % max, read := fun x => if x = t then none else s.read x, log := s.log ++ [.wr t (i % size)] }
    | none => s

/-- The state after a sequence of steps; no counterpart in /repo. -/
def exec (max size : Nat) (ls : List Lbl) : St := ls.foldl (step max size) {}

/-! ## Specification -/

/-- The workers handed out, in the order in which the calls return.  Specification; models no code. -/
def handed : List Ev → List Nat
  | [] => []
  | .wr _ w :: l => w :: handed l
  | .rd _ _ :: l => handed l

/-- One call after the other, made by these threads.  Specification; models no code. -/
def oneByOne : List Nat → List Lbl
  | [] => []
  | t :: ts => .load t :: .store t :: oneByOne ts

/-- All calls begin before one of them ends.  Specification; models no code. -/
def together (ts : List Nat) : List Lbl := ts.map .load ++ ts.map .store

/-- No call overlaps another: a call begins only when none is running.  Specification; models no code. -/
def Apart : Option Nat → List Ev → Prop
  | _, [] => True
  | none, .rd t _ :: l => Apart (some t) l
  | some t, .wr t' _ :: l => t = t' ∧ Apart none l
  | some _, .rd _ _ :: _ => False
  | none, .wr _ _ :: _ => False

/-! ## Proofs -/

theorem handed_append (a b : List Ev) : handed (a ++ b) = handed a ++ handed b := by
  induction a with
  | nil => rfl
  | cons e a ih => cases e <;> simp [handed, ih]

theorem exec_snoc (max size : Nat) (ls : List Lbl) (l : Lbl) : exec max size (ls ++ [l]) = step max size (exec max size ls) l := by
  simp [exec, List.foldl_append]

theorem snoc_ind {P : List β → Prop} (h0 : P []) (h1 : ∀ l a, P l → P (l ++ [a])) (l : List β) : P l := by
  rw [← l.reverse_reverse]
  induction l.reverse with
  | nil => exact h0
  | cons a l ih => rw [List.reverse_cons]; exact h1 _ _ ih

/-- Reading an `Apart` history from the left. -/
theorem apart_append (o : Option Nat) (a : List Ev) (e : Ev) (h : Apart o (a ++ [e])) : Apart o a := by
  induction a generalizing o with
  | nil => cases o <;> trivial
  | cons x a ih =>
    cases o <;> cases x <;> simp only [List.cons_append, Apart] at h ⊢
    · exact ih _ h
    · exact ⟨h.1, ih _ h.2⟩

/-- Who is running a call after the events, if calls do not overlap; models no code. -/
def running : Option Nat → List Ev → Option Nat
  | o, [] => o
  | _, .rd t _ :: l => running (some t) l
  | _, .wr _ _ :: l => running none l

theorem running_append (o : Option Nat) (a b : List Ev) : running o (a ++ b) = running (running o a) b := by
  induction a generalizing o with
  | nil => rfl
  | cons x a ih => cases x <;> simp [running, ih]

theorem apart_last (o : Option Nat) (a : List Ev) (e : Ev) (h : Apart o (a ++ [e])) : Apart (running o a) [e] := by
  induction a generalizing o with
  | nil => exact h
  | cons x a ih =>
    cases o <;> cases x <;> simp only [List.cons_append, Apart, running] at h ⊢
    · exact ih _ h
    · exact ih _ h.2

/-- Invariant of the proofs about calls that do not overlap; models no code. -/
structure Inv (max size : Nat) (s : St) : Prop where
  idle : ∀ t, running none s.log ≠ some t → s.read t = none
  busy : ∀ t, running none s.log = some t → s.read t = some s.index
  index : s.index = (handed s.log).length % max
  handed : handed s.log = (List.range (handed s.log).length).map (fun i => i % max % size)

theorem inv (max size : Nat) (ls : List Lbl) (h : Apart none (exec max size ls).log) : Inv max size (exec max size ls) := by
  induction ls using snoc_ind with
  | h0 => exact ⟨fun _ _ => rfl, (fun _ h => by cases h), by simp [exec, PoolRace.handed], rfl⟩
  | h1 ls l ih =>
    rw [exec_snoc] at h ⊢
    generalize exec max size ls = s at *
    cases l with
    | load t =>
      cases hr : s.read t with
      | some i =>
        have e : step max size s (.load t) = s := by simp [step, hr]
        rw [e] at h ⊢; exact ih h
      | none =>
        have e : step max size s (.load t) = { s with read := fun x => if x = t then some s.index else s.read x, log := s.log ++ [.rd t s.index] } := by simp [step, hr]
        rw [e] at h ⊢
        have hi := ih (apart_append _ _ _ h)
        have hl := apart_last _ _ _ h
        have hn : running none s.log = none := by
          cases hx : running none s.log with
          | none => rfl
          | some t' => rw [hx] at hl; exact hl.elim
        refine ⟨?_, ?_, ?_, ?_⟩
        · intro t' ht
          simp only [running_append, running, ne_eq, Option.some.injEq] at ht
          dsimp only
          rw [if_neg (fun e => ht e.symm)]
          exact hi.idle t' (by rw [hn]; simp)
        · intro t' ht
          simp only [running_append, running, Option.some.injEq] at ht
          dsimp only
          rw [if_pos ht.symm]
        · simpa [handed_append, PoolRace.handed] using hi.index
        · simpa [handed_append, PoolRace.handed] using hi.handed
    | store t =>
      cases hr : s.read t with
      | none =>
        have e : step max size s (.store t) = s := by simp [step, hr]
        rw [e] at h ⊢; exact ih h
      | some i =>
        have e : step max size s (.store t) = { s with index := (i + 1) % max, read := fun x => if x = t then none else s.read x, log := s.log ++ [.wr t (i % size)] } := by
          simp [step, hr]
        rw [e] at h ⊢
        have hi := ih (apart_append _ _ _ h)
        have hn : running none s.log = some t := by
          cases hx : decide (running none s.log = some t) with
          | true => exact of_decide_eq_true hx
          | false => rw [hi.idle t (of_decide_eq_false hx)] at hr; cases hr
        have hii : i = s.index := by rw [hi.busy t hn] at hr; exact (Option.some.inj hr).symm
        refine ⟨?_, ?_, ?_, ?_⟩
        · intro t' _
          dsimp only
          by_cases ht : t' = t
          · rw [if_pos ht]
          · rw [if_neg ht]; exact hi.idle t' (by rw [hn]; simp [Ne.symm ht])
        · intro t' ht; simp [running_append, running] at ht
        · simp only [handed_append, PoolRace.handed, List.length_append, List.length_cons, List.length_nil]
          rw [hii, hi.index, Nat.mod_add_mod]
        · have hh := hi.handed
          have hx := hi.index
          simp only [handed_append, PoolRace.handed, List.length_append, List.length_cons, List.length_nil]
          rw [List.range_succ, List.map_append, ← hh, hii, hx]
          rfl

theorem together_load (max size : Nat) (ts : List Nat) : ∀ s : St, (∀ t ∈ ts, s.read t = none) → ts.Nodup →
    (ts.map Lbl.load).foldl (step max size) s =
      { s with read := fun x => if x ∈ ts then some s.index else s.read x, log := s.log ++ ts.map (fun t => .rd t s.index) } := by
  induction ts with
  | nil => intro s _ _; simp
  | cons t ts ih =>
    intro s h hn
    have e : step max size s (.load t) = { s with read := fun x => if x = t then some s.index else s.read x, log := s.log ++ [.rd t s.index] } := by
      simp [step, h t List.mem_cons_self]
    rw [List.map_cons, List.foldl_cons, e, ih _ ?_ (List.nodup_cons.1 hn).2]
    · simp only [List.mem_cons, List.append_assoc, List.cons_append, List.nil_append, List.map_cons]
      congr 1
      funext x
      by_cases h1 : x ∈ ts <;> by_cases h2 : x = t <;> simp [h1, h2]
    · intro t' ht'
      dsimp only
      rw [if_neg (fun e : t' = t => (List.nodup_cons.1 hn).1 (e ▸ ht'))]
      exact h t' (List.mem_cons_of_mem _ ht')

theorem together_store (max size i : Nat) (ts : List Nat) : ∀ s : St, (∀ t ∈ ts, s.read t = some i) → ts.Nodup →
    ((ts.map Lbl.store).foldl (step max size) s).log = s.log ++ ts.map (fun t => .wr t (i % size)) ∧
    (ts ≠ [] → ((ts.map Lbl.store).foldl (step max size) s).index = (i + 1) % max) ∧
    (∀ x, ((ts.map Lbl.store).foldl (step max size) s).read x = if x ∈ ts then none else s.read x) := by
  induction ts with
  | nil => intro s _ _; simp
  | cons t ts ih =>
    intro s h hn
    have e : step max size s (.store t) = { s with index := (i + 1) % max, read := fun x => if x = t then none else s.read x, log := s.log ++ [.wr t (i % size)] } := by
      simp [step, h t List.mem_cons_self]
    rw [List.map_cons, List.foldl_cons, e]
    have hi := ih { s with index := (i + 1) % max, read := fun x => if x = t then none else s.read x, log := s.log ++ [.wr t (i % size)] } (by
      intro t' ht'
      dsimp only
      rw [if_neg (fun e : t' = t => (List.nodup_cons.1 hn).1 (e ▸ ht'))]
      exact h t' (List.mem_cons_of_mem _ ht')) (List.nodup_cons.1 hn).2
    refine ⟨by rw [hi.1]; simp, fun _ => ?_, fun x => ?_⟩
    · cases hts : ts with
      | nil => rfl
      | cons a b => rw [← hts]; exact hi.2.1 (by rw [hts]; simp)
    · rw [hi.2.2 x]
      by_cases h1 : x ∈ ts <;> by_cases h2 : x = t <;> simp [h1, h2]

end Rpp.Sched.PoolRace
