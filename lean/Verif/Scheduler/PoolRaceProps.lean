import Verif.Scheduler.PoolRace

/-!
# C116: property theorems

Which threads of the pool the workers get that several threads create.  `handed (exec max size ls).log` are the workers in the order in which the calls of `create_worker` return.
-/

namespace Rpp.Sched.PoolRace

/-- C116: whatever the calls of `create_worker` do to each other, each returns a worker of the pool. -/
theorem C116_in_range (max size : Nat) (hs : 0 < size) (ls : List Lbl) : ∀ w ∈ handed (exec max size ls).log, w < size := by
  induction ls using snoc_ind with
  | h0 => intro w h; cases h
  | h1 ls l ih =>
    rw [exec_snoc]
    generalize exec max size ls = s at *
    intro w hw
    cases l with
    | load t =>
      cases hr : s.read t with
      | some i => simp only [step, hr] at hw; exact ih w hw
      | none => simp only [step, hr, handed_append, handed, List.append_nil] at hw; exact ih w hw
    | store t =>
      cases hr : s.read t with
      | none => simp only [step, hr] at hw; exact ih w hw
      | some i =>
        simp only [step, hr, handed_append, handed, List.mem_append, List.mem_singleton] at hw
        rcases hw with hw | hw
        · exact ih w hw
        · rw [hw]; exact Nat.mod_lt _ hs

example : handed (exec (2 ^ 64) 2 [.load 0, .load 1, .store 1, .load 1, .store 1, .store 0]).log = [0, 1, 0] := by decide

/-- C116: while no two calls overlap, the `i`-th worker uses thread `i mod size`, whichever threads call (up to 2^64 workers).  Partial: with overlapping calls it is false, `C116_same_refutes`. -/
theorem C116_round_robin_partial (size : Nat) (ls : List Lbl) (h : Apart none (exec (2 ^ 64) size ls).log)
    (hn : (handed (exec (2 ^ 64) size ls).log).length ≤ 2 ^ 64) :
    handed (exec (2 ^ 64) size ls).log = (List.range (handed (exec (2 ^ 64) size ls).log).length).map fun i => i % size := by
  have hi := (inv (2 ^ 64) size ls h).handed
  rw [hi]
  simp only [List.length_map, List.length_range]
  apply List.map_congr_left
  intro i hi'
  have := List.mem_range.1 hi'
  rw [Nat.mod_eq_of_lt (show i < 2 ^ 64 by omega)]

example : Apart none (exec (2 ^ 64) 2 (oneByOne [0, 1, 1, 2])).log ∧ handed (exec (2 ^ 64) 2 (oneByOne [0, 1, 1, 2])).log = [0, 1, 0, 1] := by
  refine ⟨?_, by decide⟩
  simp [exec, oneByOne, step, Apart]

/-- C116, refuted: any number of threads that call `create_worker` for the first time at the same moment may all get the same thread of the pool, however many threads it has; so the
loads of two threads differ by more than one. -/
theorem C116_same_refutes (size : Nat) (ts : List Nat) (hn : ts.Nodup) :
    handed (exec (2 ^ 64) size (together ts)).log = ts.map fun _ => 0 := by
  have h1 := together_load (2 ^ 64) size ts {} (fun _ _ => rfl) hn
  have h2 := together_store (2 ^ 64) size 0 ts ((ts.map Lbl.load).foldl (step (2 ^ 64) size) {}) (by rw [h1]; intro t ht; simp [ht]) hn
  have hm : ∀ (a : List Nat), handed (a.map fun t => Ev.rd t 0) = [] ∧ handed (a.map fun t => Ev.wr t (0 % size)) = a.map fun _ => 0 := by
    intro a
    induction a with
    | nil => exact ⟨rfl, rfl⟩
    | cons x a ih => simp [handed] at ih ⊢; exact ih
  have e : exec (2 ^ 64) size (together ts) = (ts.map Lbl.store).foldl (step (2 ^ 64) size) ((ts.map Lbl.load).foldl (step (2 ^ 64) size) {}) := by
    simp [exec, together, List.foldl_append]
  rw [e, h2.1, h1]
  simp only [List.nil_append, handed_append]
  rw [(hm ts).1, (hm ts).2]; rfl

example : [0, 1, 2].Nodup ∧ handed (exec (2 ^ 64) 4 (together [0, 1, 2])).log = [0, 0, 0] := by decide

/-- C116, refuted: a call that is interrupted between its read and its write sets the counter back, whatever number `n` of workers other threads have created meanwhile: the next worker gets thread 1 again. -/
theorem C116_back_refutes (size n : Nat) (t u v : Nat) (h : u ≠ t) :
    ∃ l : List Nat, l.length = n + 1 ∧
      handed (exec (2 ^ 64) size ([.load t] ++ oneByOne (List.replicate n u) ++ [.store t] ++ oneByOne [v])).log = l ++ [1 % size] := by
  have key : ∀ (n : Nat) (s : St), s.read t = some 0 → s.read u = none → (∀ x, x ≠ t → s.read x = none) →
      ∃ s' : St, (oneByOne (List.replicate n u)).foldl (step (2 ^ 64) size) s = s' ∧ s'.read t = some 0 ∧ (∀ x, x ≠ t → s'.read x = none) ∧
        (handed s'.log).length = (handed s.log).length + n := by
    intro n
    induction n with
    | zero => intro s h1 _ h3; exact ⟨s, rfl, h1, h3, rfl⟩
    | succ n ih =>
      intro s h1 h2 h3
      have e1 : step (2 ^ 64) size s (.load u) = { s with read := fun x => if x = u then some s.index else s.read x, log := s.log ++ [.rd u s.index] } := by
        simp only [step, h2]
      have e2 : step (2 ^ 64) size { s with read := fun x => if x = u then some s.index else s.read x, log := s.log ++ [.rd u s.index] } (.store u) =
          { s with index := (s.index + 1) % 2 ^ 64, read := fun x => if x = u then none else if x = u then some s.index else s.read x,
                   log := s.log ++ [.rd u s.index] ++ [.wr u (s.index % size)] } := by
        simp [step]
      obtain ⟨s', g1, g2, g3, g4⟩ := ih { s with index := (s.index + 1) % 2 ^ 64, read := fun x => if x = u then none else if x = u then some s.index else s.read x,
                                                 log := s.log ++ [.rd u s.index] ++ [.wr u (s.index % size)] }
        (by simp [Ne.symm h, h1]) (by simp) (by intro x hx; by_cases hu : x = u <;> simp [hu, h3 x hx])
      refine ⟨s', ?_, g2, g3, ?_⟩
      · rw [List.replicate_succ, oneByOne, List.foldl_cons, List.foldl_cons, e1, e2]; exact g1
      · rw [g4]; simp [handed_append, handed]; omega
  obtain ⟨s', g1, g2, g3, g4⟩ := key n (step (2 ^ 64) size {} (.load t)) (by simp [step]) (by simp [step, h]) (by intro x hx; simp [step, hx])
  have e : exec (2 ^ 64) size ([.load t] ++ oneByOne (List.replicate n u) ++ [.store t] ++ oneByOne [v]) =
      step (2 ^ 64) size (step (2 ^ 64) size (step (2 ^ 64) size s' (.store t)) (.load v)) (.store v) := by
    rw [← g1]; simp [exec, List.foldl_append, oneByOne]
  have e1 : step (2 ^ 64) size s' (.store t) = { s' with index := (0 + 1) % 2 ^ 64, read := fun x => if x = t then none else s'.read x, log := s'.log ++ [.wr t (0 % size)] } := by
    simp only [step, g2]
  have hv : (if v = t then none else s'.read v) = none := by
    by_cases hv : v = t
    · rw [if_pos hv]
    · rw [if_neg hv]; exact g3 v hv
  have hl : (handed (step (2 ^ 64) size {} (.load t)).log).length = 0 := by simp [step, handed]
  refine ⟨handed s'.log ++ [0 % size], by simp [g4, hl], ?_⟩
  rw [e, e1]
  simp [step, hv, handed_append, handed]

example : handed (exec (2 ^ 64) 4 ([.load 0] ++ oneByOne (List.replicate 3 1) ++ [.store 0] ++ oneByOne [2])).log = [0, 1, 2, 0, 1] := by decide

end Rpp.Sched.PoolRace
