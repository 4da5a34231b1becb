import Verif.Scheduler.PoolWaitCycle

/-!
# C117: property theorems

`size p` is the number of threads of pool `p`; `exec size bs ls` is the state after the threads in `ls` have made a step each, for the programs `bs` of the threads the process starts with.
-/

namespace Rpp.Sched.PoolWait

/-- C117: an execution has a bounded number of steps, so it goes on until no thread can make one. -/
theorem C117_bounded (size : Nat → Nat) (bs : List Prog) (ls : List Th) : (exec size bs ls).log.length ≤ (bs.map Prog.size).sum := by
  have := exec_left size bs ls; omega

/-- C117: a thread that can make a step makes one when it is its turn; one that cannot changes nothing. -/
theorem C117_steps (size : Nat → Nat) (bs : List Prog) (ls : List Th) (th : Th) :
    (Enabled (exec size bs ls) th → (exec size bs (ls ++ [th])).log = (exec size bs ls).log ++ [th]) ∧ (¬ Enabled (exec size bs ls) th → exec size bs (ls ++ [th]) = exec size bs ls) := by
  rw [exec_snoc]
  have := left_step size (exec_ids size bs ls) th
  exact ⟨fun e => (this.1 e).2, this.2⟩

/-- C117: when tasks of a pool wait only for pools of a higher level or for threads of their own, nothing hangs: an execution that cannot go on has run all tasks to their end.  Partial: without this
condition it is false, `C117_wait_refutes`. -/
theorem C117_no_hang_partial (size : Nat → Nat) (bs : List Prog) (h : ∀ b ∈ bs, Layered 0 b) (ls : List Th) (hs : ∀ th, ¬ Enabled (exec size bs ls) th) :
    (exec size bs ls).tasks = [] ∧ ∀ j, j < (exec size bs ls).next → (exec size bs ls).fin j = true := by
  have hi := (exec_inv size bs h ls).1
  have e : (exec size bs ls).tasks = [] := by
    cases hc : (exec size bs ls).tasks with
    | nil => rfl
    | cons a l =>
      obtain ⟨th, ht⟩ := no_deadlock hi (by rw [hc]; simp)
      exact (hs th ht).elim
  refine ⟨e, fun j hj => ?_⟩
  rcases hi.alive j hj with h | ⟨t, ht, _⟩
  · exact h
  · rw [e] at ht; cases ht

/-- C117: such a program can be finished from wherever it is. -/
theorem C117_finishes_partial (size : Nat → Nat) (bs : List Prog) (h : ∀ b ∈ bs, Layered 0 b) (ls : List Th) : ∃ ls', (exec size bs (ls ++ ls')).tasks = [] := by
  have hi := exec_inv size bs h ls
  obtain ⟨ls', hls⟩ := finishes size _ _ rfl hi.1 hi.2
  exact ⟨ls', by simpa [exec, List.foldl_append] using hls⟩

/-- A task of `computational` (pool 0) starts another there and waits for a thread of its own; the main thread waits for it. -/
example : Layered 0 (.join (.pool 0) (.spawn (.pool 0) .done (.join .fresh .done .done)) .done) := by simp [Layered]

example : let bs := [Prog.join (.pool 0) (.spawn (.pool 0) .done (.join .fresh .done .done)) .done]
    let ls := [Th.own 0, .pool 0 0, .pool 0 0, .own 1, .pool 0 0, .pool 0 0, .pool 0 0, .own 0, .own 0]
    (exec (fun _ => 1) bs ls).tasks.length = 0 ∧ (exec (fun _ => 1) bs ls).next = 4 := by decide

/-- C117: `as_blocking` on `new_thread` is always in order, at any depth. -/
theorem C117_new_thread (b : Prog) (h : NewThreadsOnly b) : ∀ lv, Layered lv b := by
  induction b with
  | done => exact fun _ => trivial
  | spawn w b k ihb ihk => intro lv; rw [h.1]; exact ⟨ihb h.2.1 0, ihk h.2.2 lv⟩
  | join w b k ihb ihk => intro lv; rw [h.1]; exact ⟨ihb h.2.1 lv, ihk h.2.2 lv⟩

example : NewThreadsOnly (.join .fresh (.join .fresh .done .done) (.spawn .fresh .done .done)) := by simp [NewThreadsOnly]

/-- C117: so are tasks that never wait, on whatever schedulers. -/
theorem C117_never_waits (b : Prog) (h : NeverWaits b) : ∀ lv, Layered lv b := by
  induction b with
  | done => exact fun _ => trivial
  | spawn w b k ihb ihk =>
    intro lv
    cases w with
    | fresh => exact ⟨ihb h.1 0, ihk h.2 lv⟩
    | pool p => exact ⟨ihb h.1 (p + 1), ihk h.2 lv⟩
  | join w b k ihb ihk => exact h.elim

example : NeverWaits (.spawn (.pool 0) (.spawn (.pool 0) .done .done) (.spawn .fresh .done .done)) := by simp [NeverWaits]

/-- C117: a hang is a cycle: if no thread can make a step although there are tasks left, some running tasks wait in a circle, each for a task in the queue of the next one's thread, and at least one of
these threads is of a pool. -/
theorem C117_cycle (size : Nat → Nat) (bs : List Prog) (ls : List Th) (hs : ∀ th, ¬ Enabled (exec size bs ls) th) (hne : (exec size bs ls).tasks ≠ []) :
    ∃ (c : Nat → Task) (m : Nat), 0 < m ∧ c m = c 0 ∧ (∀ i, i < m → Blocked (exec size bs ls) (c i) (c (i + 1))) ∧ ∃ i, i < m ∧ ∃ p k, (c i).th = .pool p k := by
  obtain ⟨c, m, hm, hc, hb⟩ := cycle (execW_inv size bs ls) hs hne
  exact ⟨c, m, hm, hc, hb, cycle_pool (execW_inv size bs ls) hm hc hb⟩

/-- C117: and such a cycle is a hang: its tasks never end, whatever the other threads do. -/
theorem C117_cycle_hangs (size : Nat → Nat) (bs : List Prog) (ls ls' : List Th) (c : Nat → Task) (m : Nat) (hc : c m = c 0)
    (hb : ∀ i, i < m → Blocked (exec size bs ls) (c i) (c (i + 1))) :
    ∀ i, i < m → Blocked (exec size bs (ls ++ ls')) (c i) (c (i + 1)) ∧ (exec size bs (ls ++ ls')).fin (c i).id = false := by
  have key : ∀ i, i < m → Blocked (exec size bs (ls ++ ls')) (c i) (c (i + 1)) := by
    induction ls' using snoc_ind with
    | h0 => simpa using hb
    | h1 ls' l ih =>
      rw [← List.append_assoc, exec_snoc]
      exact blocked_step size (execW_inv size bs _) (exec_unfin size bs _) hc ih l
  intro i hi
  exact ⟨key i hi, exec_unfin size bs _ _ (head_mem (key i hi).1).1⟩

/-- `n` times: subscribe to an empty source on the pool and wait for its end.  Specification; models no code. -/
def waits : Nat → Prog
  | 0 => .done
  | n + 1 => .join (.pool 0) .done (waits n)

/-! ## A task that waits for its own thread -/

/-- Invariant of `C117_wait_refutes` once the task runs: `k` of the `n` waits have begun; models no code. -/
structure Hung (n k : Nat) (t : Task) (s : St) : Prop where
  le : k ≤ n
  next : s.next = k + 2
  index : s.index 0 = k + 1
  head : s.head (.pool 0 0) = some t
  id : t.id = 1
  prog : t.prog = waits (n - k)
  stuck : k = n → t.wait = some (n + 1)
  leaf : ∀ u ∈ s.tasks, u.id ≠ 1 → u.prog = .done
  last : ∀ u ∈ s.tasks, u.id = n + 1 → u.th = .pool 0 0
  own : ∀ u ∈ s.tasks, u.id = 1 → u.th = .pool 0 0
  finlt : ∀ j, s.fin j = true → j < s.next ∧ j ≠ 1 ∧ j ≠ n + 1
  lt : ∀ u ∈ s.tasks, u.id < s.next

theorem hung_goOn {n k : Nat} {t : Task} {s : St} (h : Hung n k t s) (hk : k < n) {id : Nat} {q : Prog} (l : List Th) (hq : ∀ u ∈ s.tasks, u.id = id → u.prog = q) :
    Hung n k (upd id q none t) { s.goOn id q none with log := l } := by
  have ht := head_mem h.head
  have htq : (upd id q none t).prog = t.prog := by
    rw [upd_prog]; split
    · rename_i e; exact (hq t ht.1 e).symm
    · rfl
  refine ⟨h.le, h.next, h.index, ?_, ?_, ?_, fun e => by omega, ?_, ?_, ?_, h.finlt, ?_⟩
  · have := head_goOn s id q none (.pool 0 0)
    rw [h.head] at this; exact this
  · rw [upd_id]; exact h.id
  · rw [htq]; exact h.prog
  all_goals
    intro u hu
    simp only [goOn_eq] at hu
    obtain ⟨v, hv, rfl⟩ := List.mem_map.1 hu
  · intro e
    rw [upd_id] at e
    rw [upd_prog]; split
    · rename_i e'; rw [← hq v hv e']; exact h.leaf v hv e
    · exact h.leaf v hv e
  · intro e; rw [upd_id] at e; rw [upd_th]; exact h.last v hv e
  · intro e; rw [upd_id] at e; rw [upd_th]; exact h.own v hv e
  · rw [upd_id]; exact h.lt v hv

theorem hung_step {size : Nat → Nat} {n k : Nat} (hn : size 0 = n) (h0 : 0 < n) {t : Task} {s : St} (hI : Ids s) (h : Hung n k t s) (th : Th) : ∃ k' t', Hung n k' t' (step size s th) := by
  cases hh : s.head th with
  | none => rw [step_none size hh]; exact ⟨k, t, h⟩
  | some u =>
    have hu := head_mem hh
    have huq : ∀ v ∈ s.tasks, v.id = u.id → v.prog = u.prog := by
      intro v hv e
      have : ∀ l : List Task, l.Pairwise (fun t u => t.id ≠ u.id) → v ∈ l → u ∈ l → v = u := by
        intro l hp
        induction l with
        | nil => intro h; cases h
        | cons a l ih =>
          have := List.pairwise_cons.1 hp
          intro h1 h2
          rcases List.mem_cons.1 h1 with e3 | e3 <;> rcases List.mem_cons.1 h2 with e4 | e4
          · rw [e3, e4]
          · exact absurd (e3 ▸ e) (this.1 u e4)
          · exact absurd (e4 ▸ e.symm) (this.1 v e3)
          · exact ih this.2 e3 e4
      rw [this _ hI.uniq hv hu.1]
    by_cases hth : th = .pool 0 0
    · subst hth
      have e : u = t := by rw [h.head] at hh; exact (Option.some.inj hh).symm
      subst e
      cases hw : u.wait with
      | some j =>
        by_cases hf : s.fin j = true
        · by_cases hk : k = n
          · have := h.stuck hk
            rw [hw] at this; cases this
            exact ((h.finlt _ hf).2.2 rfl).elim
          · rw [step_resume size hh hw hf]
            exact ⟨k, _, hung_goOn h (by have := h.le; omega) _ huq⟩
        · rw [step_stay size hh hw hf]; exact ⟨k, u, h⟩
      | none =>
        have hk : k < n := by
          rcases Nat.lt_or_ge k n with hk | hk
          · exact hk
          · have := h.stuck (by have := h.le; omega)
            rw [hw] at this; cases this
        have hp : u.prog = .join (.pool 0) .done (waits (n - (k + 1))) := by
          rw [h.prog, show n - k = (n - (k + 1)) + 1 by omega]; rfl
        rw [step_join size hh hw hp]
        refine ⟨k + 1, upd u.id (waits (n - (k + 1))) (some s.next) u, ?_⟩
        refine ⟨by omega, ?_, ?_, ?_, ?_, ?_, ?_, ?_, ?_, ?_, ?_, ?_⟩
        · simp [St.schedule, goOn_eq, h.next]
        · simp [St.schedule, goOn_eq, h.index]
        · have e1 := head_goOn s u.id (waits (n - (k + 1))) (some s.next) (.pool 0 0)
          rw [hh] at e1
          exact head_schedule size e1 (.pool 0) .done (level u.lv (.pool 0))
        · rw [upd_id]; exact h.id
        · rw [upd_prog, if_pos rfl]
        · intro e; rw [upd_wait, if_pos rfl, h.next]; congr 1; omega
        all_goals simp only [St.schedule, goOn_eq, List.mem_append, List.mem_singleton, List.mem_map]
        · intro v hv e
          rcases hv with ⟨x, hx, rfl⟩ | rfl
          · rw [upd_id] at e
            rw [upd_prog, if_neg (by rw [h.id]; exact e)]
            exact h.leaf x hx e
          · rfl
        · intro v hv e
          rcases hv with ⟨x, hx, rfl⟩ | rfl
          · rw [upd_id] at e; rw [upd_th]; exact h.last x hx e
          · have e' : k + 1 = n := by have := h.next; dsimp only at e; omega
            show Th.pool 0 (s.index 0 % size 0) = _
            rw [h.index, hn, e', Nat.mod_self]
        · intro v hv e
          rcases hv with ⟨x, hx, rfl⟩ | rfl
          · rw [upd_id] at e; rw [upd_th]; exact h.own x hx e
          · have := h.next; dsimp only at e; omega
        · intro j hj; have := h.finlt j hj; exact ⟨by omega, this.2⟩
        · intro v hv
          rcases hv with ⟨x, hx, rfl⟩ | rfl
          · rw [upd_id]; have := h.lt x hx; omega
          · exact Nat.lt_succ_self _
    · have hne : u.id ≠ 1 := fun e => hth (hu.2 ▸ h.own u hu.1 e)
      have hnl : u.id ≠ n + 1 := fun e => hth (hu.2 ▸ h.last u hu.1 e)
      have hp := h.leaf u hu.1 hne
      have hupd : ∀ q j, upd u.id q j t = t := by
        intro q j; unfold upd; rw [if_neg (by rw [h.id]; exact fun e => hne e.symm)]
      cases hw : u.wait with
      | some j =>
        by_cases hf : s.fin j = true
        · rw [step_resume size hh hw hf]
          refine ⟨k, t, h.le, h.next, h.index, ?_, h.id, h.prog, h.stuck, ?_, ?_, ?_, h.finlt, ?_⟩
          · have := head_goOn s u.id u.prog none (.pool 0 0)
            rw [h.head, Option.map_some, hupd] at this; exact this
          all_goals
            intro v hv
            simp only [goOn_eq] at hv
            obtain ⟨x, hx, rfl⟩ := List.mem_map.1 hv
          · intro e
            rw [upd_id] at e
            rw [upd_prog]; split
            · exact hp
            · exact h.leaf x hx e
          · intro e; rw [upd_id] at e; rw [upd_th]; exact h.last x hx e
          · intro e; rw [upd_id] at e; rw [upd_th]; exact h.own x hx e
          · rw [upd_id]; exact h.lt x hx
        · rw [step_stay size hh hw hf]; exact ⟨k, t, h⟩
      | none =>
        rw [step_done size hh hw hp]
        refine ⟨k, t, h.le, h.next, h.index, ?_, h.id, h.prog, h.stuck, ?_, ?_, ?_, ?_, ?_⟩
        · exact find_filter h.head (decide_eq_true (by rw [h.id]; exact fun e => hne e.symm))
        · exact fun v hv => h.leaf v (List.mem_filter.1 hv).1
        · exact fun v hv => h.last v (List.mem_filter.1 hv).1
        · exact fun v hv => h.own v (List.mem_filter.1 hv).1
        · intro j hj
          dsimp only at hj
          split at hj
          · rename_i e; rw [e]; exact ⟨h.lt u hu.1, hne, hnl⟩
          · exact h.finlt j hj
        · exact fun v hv => h.lt v (List.mem_filter.1 hv).1

/-- C117, refuted: on a pool of any number `n` of threads that nobody else uses, a task that `n` times in turn subscribes to an empty source on the same pool and waits for its end never ends, in no execution: one of the
sources is queued behind the task that waits for it. -/
theorem C117_wait_refutes (size : Nat → Nat) (n : Nat) (h0 : 0 < n) (hn : size 0 = n) (ls : List Th) :
    (exec size [.spawn (.pool 0) (waits n) .done] ls).fin 1 = false := by
  have key : exec size [.spawn (.pool 0) (waits n) .done] ls = start [.spawn (.pool 0) (waits n) .done] ∨ ∃ k t, Hung n k t (exec size [.spawn (.pool 0) (waits n) .done] ls) := by
    induction ls using snoc_ind with
    | h0 => exact .inl rfl
    | h1 ls l ih =>
      rw [exec_snoc]
      have hI := exec_ids size [.spawn (.pool 0) (waits n) .done] ls
      rcases ih with ih | ⟨k, t, ih⟩
      · rw [ih]
        by_cases hl : l = .own 0
        · right
          subst hl
          refine ⟨0, ⟨1, .pool 0 0, waits n, none, 1⟩, ?_⟩
          have e : step size (start [.spawn (.pool 0) (waits n) .done]) (.own 0) =
              { tasks := [⟨0, .own 0, .done, none, 0⟩, ⟨1, .pool 0 0, waits n, none, 1⟩], index := fun q => if q = 0 then 1 else 0, own := 1, next := 2, fin := fun _ => false, log := [.own 0] } := by
            simp [start, step, St.schedule, St.head, St.goOn, level]
          rw [e]
          refine ⟨by omega, rfl, rfl, rfl, rfl, rfl, (fun e => by omega), ?_, ?_, ?_, (fun j hj => by cases hj), ?_⟩ <;> simp <;> omega
        · left
          apply step_none
          simp [start, St.head, St.schedule, Ne.symm hl]
      · right
        exact hung_step hn h0 hI ih l
  rcases key with e | ⟨k, t, h⟩
  · rw [e]; rfl
  · cases hf : (exec size [.spawn (.pool 0) (waits n) .done] ls).fin 1 with
    | false => rfl
    | true => exact ((h.finlt 1 hf).2.1 rfl).elim

example : let s := exec (fun _ => 2) [.spawn (.pool 0) (waits 2) .done] [.own 0, .own 0, .pool 0 0, .pool 0 1, .pool 0 0, .pool 0 0]
    s.tasks.map (fun t => (t.id, t.th, t.wait)) = [(1, .pool 0 0, some 3), (3, .pool 0 0, none)] := by decide

/-- A cycle of one task: it waits for a task behind it. -/
example : let s := exec (fun _ => 2) [.spawn (.pool 0) (waits 2) .done] [.own 0, .own 0, .pool 0 0, .pool 0 1, .pool 0 0, .pool 0 0]
    ∃ c : Nat → Task, c 1 = c 0 ∧ ∀ i, i < 1 → Blocked s (c i) (c (i + 1)) :=
  ⟨fun _ => ⟨1, .pool 0 0, .done, some 3, 1⟩, rfl, fun i hi => ⟨rfl, rfl, 3, ⟨3, .pool 0 0, .done, none, 1⟩, rfl, by simp [exec, start, step, St.schedule, St.head, St.goOn, level, waits], rfl, rfl⟩⟩

/-- And no thread can go on there. -/
example : let s := exec (fun _ => 2) [.spawn (.pool 0) (waits 2) .done] [.own 0, .own 0, .pool 0 0, .pool 0 1, .pool 0 0, .pool 0 0]
    (∀ th, ¬ Enabled s th) ∧ s.tasks ≠ [] := by
  refine ⟨fun th ⟨t, ht, hw⟩ => ?_, List.cons_ne_nil _ _⟩
  by_cases e : th = .pool 0 0
  · subst e
    have h2 : (⟨1, .pool 0 0, .done, some 3, 1⟩ : Task) = t := Option.some.inj ht
    subst h2
    rcases hw with h | ⟨j, h, hf⟩
    · cases h
    · cases h; cases hf
  · have hm := List.find?_some ht
    have hmem := List.mem_of_find?_eq_some ht
    have : t.th = .pool 0 0 := by
      have h3 : t = ⟨1, .pool 0 0, .done, some 3, 1⟩ ∨ t = ⟨3, .pool 0 0, .done, none, 1⟩ := by
        rcases List.mem_cons.1 hmem with h | h
        · exact .inl h
        · exact .inr (List.mem_singleton.1 h)
      rcases h3 with h | h <;> rw [h]
    exact e (by rw [← this]; exact (of_decide_eq_true hm).symm)

end Rpp.Sched.PoolWait
