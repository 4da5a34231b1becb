import Verif.Ext.StrandLogs

/-!
# The asio strand scheduler: requests are served
-/

namespace Rpp.Strand

/-- An endless execution. -/
def run (σ : Nat → Lbl) : Nat → St
  | 0 => {}
  | n + 1 => step (run σ n) (σ n)

/-- What is expected of the environment: the clock goes on, an expired timer gives its handler to the strand, functions return,
the strand keeps entering the handlers it was given, and `io_context::run()` is not called from inside a `current_thread` task. -/
structure Fair (σ : Nat → Lbl) : Prop where
  clock : ∀ T : Int, ∃ n, T ≤ (run σ n).now
  timer : ∀ n, ∀ j ∈ (run σ n).timers, j.due ≤ (run σ n).now → ∃ m ≥ n, j ∉ (run σ m).timers
  ends : ∀ n, (run σ n).run ≠ [] → ∃ m ≥ n, ∃ r, σ m = .finish r
  strand : ∀ n, (run σ n).ready ≠ [] → ∃ m ≥ n, (run σ m).run = [] ∧ ∃ t, σ m = .start t
  inner : ∀ n t, σ n ≠ .own t

theorem run_eq (σ : Nat → Lbl) (n : Nat) : run σ n = exec ((List.range n).map σ) := by
  induction n with
  | zero => rfl
  | succ n ih => rw [List.range_succ, List.map_append, List.map_singleton, exec_snoc, ← ih]; rfl

theorem run_book (σ : Nat → Lbl) (n : Nat) : (run σ n).Book ∧ Ctl (run σ n) := by
  rw [run_eq]; exact exec_inv _

theorem timed_log {L : List Ev} {s : St} (j : Job) (h : L <+: s.log) : L <+: (deferWithTime s j).log := by
  unfold deferWithTime
  split
  · exact h.trans (List.prefix_append _ _)
  · exact h

theorem handOver_log {L : List Ev} {s : St} (q : List Job) (h : L <+: s.log) : L <+: (handOver s q).log := by
  induction q generalizing s with
  | nil => exact h
  | cons j q ih =>
    simp only [handOver]
    split
    · exact ih (h.trans (List.prefix_append _ _))
    · exact ih (timed_log _ (h.trans (List.prefix_append _ _)))

theorem say_log (s : St) (e : Ev) : s.log <+: (s.say e).log := List.prefix_append _ _

theorem step_log (s : St) (l : Lbl) : s.log <+: (step s l).log := by
  cases l with
  | schedule h d =>
    simp only [step, deferFor]
    split
    · unfold defer
      split
      · exact (say_log s _).trans (say_log (s.say _) _)
      · exact say_log s _
    · exact timed_log _ (say_log s _)
  | scheduleTo h tp =>
    simp only [step, deferTo]
    exact timed_log _ (say_log s _)
  | current h d => exact ct h _
  | currentTo h tp => exact ct h tp
  | dispose h => exact List.prefix_append _ _
  | tick k => exact List.prefix_refl _
  | expire i =>
    simp only [step]
    split
    · split <;> exact List.prefix_refl _
    · exact List.prefix_refl _
  | start t =>
    simp only [step, start]
    split
    · split
      · exact List.prefix_append _ _
      · split <;> exact List.prefix_append _ _
    · exact List.prefix_refl _
  | finish r =>
    show s.log <+: (finish s r).log
    cases hr : s.run with
    | nil => unfold finish; rw [hr]; exact List.prefix_refl _
    | cons f fs =>
      rw [finish_eq hr]
      refine List.IsPrefix.trans (l₂ := (ending s f fs r).log) ?_ ?_
      · unfold ending
        cases r with
        | done => exact List.prefix_append _ _
        | again w => exact timed_log _ (List.IsPrefix.trans (List.prefix_append s.log _) (List.prefix_append _ _))
        | throws => simp only; split <;> exact (say_log _ _).trans (say_log _ _)
      · unfold unguard
        split
        · exact handOver_log _ (List.prefix_refl _)
        · exact List.prefix_refl _
  | own t =>
    simp only [step]
    split <;> exact List.prefix_refl _
where
  ct {s : St} (h : Nat) (tp : Int) : s.log <+: (ctDefer s h tp).log := by
    unfold ctDefer
    split
    · exact List.prefix_refl _
    · simp only
      split
      · exact (say_log s _).trans (say_log (s.say _) _)
      · split
        · exact say_log s _
        · exact (say_log s _).trans (say_log (s.say _) _)
        · exact (say_log s _).trans (say_log (s.say _) _)

theorem run_log (σ : Nat → Lbl) (n k : Nat) : (run σ n).log <+: (run σ (n + k)).log := by
  induction k with
  | zero => exact List.prefix_refl _
  | succ k ih => exact ih.trans (step_log _ _)

/-- The events of `id` that end a request. -/
def Leaves (id : Nat) (e : Ev) : Prop :=
  (∃ how, e = .refused id how) ∨ (∃ how, e = .dropped id how) ∨ e = .outer id ∨ ∃ t a how, e = .began id t a how

/-- A request stays what it is until it ends. -/
theorem waiting_stays {id : Nat} {L l : List Ev} {w : Nat × Int} (hok : AllOk (L ++ l)) (hw : waiting id L = some w)
    (hl : ∀ e ∈ l, ¬ Leaves id e) : waiting id (L ++ l) = some w := by
  induction l using Sched.snoc_ind with
  | h0 => simpa using hw
  | h1 l e ih =>
    have hok' : AllOk (L ++ l) := by
      intro pre x post hx
      exact hok pre x (post ++ [e]) (by rw [← List.append_assoc, hx]; simp)
    have ih := ih hok' (fun x hx => hl x (by simp [hx]))
    have he := hl e (by simp)
    have hoe := hok (L ++ l) e [] (by simp)
    rw [← List.append_assoc, waiting_snoc, ih]
    cases e with
    | asked i h due how =>
      simp only [waitStep]
      split
      · rename_i hi
        subst hi
        have := hoe.1
        rw [ih] at this
        simp at this
      · rfl
    | refused i how =>
      simp only [waitStep]
      split
      · rename_i hi; subst hi; exact absurd (.inl ⟨how, rfl⟩) he
      · rfl
    | dropped i how =>
      simp only [waitStep]
      split
      · rename_i hi; subst hi; exact absurd (.inr (.inl ⟨how, rfl⟩)) he
      · rfl
    | outer i =>
      simp only [waitStep]
      split
      · rename_i hi; subst hi; exact absurd (.inr (.inr (.inl rfl))) he
      · rfl
    | began i t a how =>
      simp only [waitStep]
      split
      · rename_i hi; subst hi; exact absurd (.inr (.inr (.inr ⟨t, a, how, rfl⟩))) he
      · rfl
    | _ => rfl

/-- The first of the events that end a request. -/
theorem first_leave {id : Nat} {l : List Ev} (h : ∃ e ∈ l, Leaves id e) :
    ∃ l1 e l2, l = l1 ++ e :: l2 ∧ Leaves id e ∧ ∀ x ∈ l1, ¬ Leaves id x := by
  induction l with
  | nil => simp at h
  | cons a l ih =>
    by_cases ha : Leaves id a
    · exact ⟨[], a, l, rfl, ha, by simp⟩
    · obtain ⟨e, he, hl⟩ := h
      rcases List.mem_cons.1 he with rfl | he
      · exact absurd hl ha
      · obtain ⟨l1, x, l2, h1, h2, h3⟩ := ih ⟨e, he, hl⟩
        refine ⟨a :: l1, x, l2, by rw [h1]; rfl, h2, ?_⟩
        intro y hy
        rcases List.mem_cons.1 hy with rfl | hy
        · exact ha
        · exact h3 y hy

/-- If a request ends, the function is entered, or its handler is disposed of, or it was given to another queue. -/
theorem leave_why {id : Nat} {L l : List Ev} {h : Nat} {due : Int} (hok : AllOk (L ++ l)) (hw : waiting id L = some (h, due))
    (hl : ∃ e ∈ l, Leaves id e) :
    (∃ t a how, Ev.began id t a how ∈ l ∧ due ≤ a) ∨ Ev.disposed h ∈ L ++ l ∨ Ev.outer id ∈ l := by
  obtain ⟨l1, e, l2, rfl, he, h1⟩ := first_leave hl
  have hok' : AllOk (L ++ l1) := by
    intro pre x post hx
    exact hok pre x (post ++ e :: l2) (by rw [← List.append_assoc, hx]; simp)
  have hw' := waiting_stays hok' hw h1
  have hoe := hok (L ++ l1) e l2 (by simp)
  rcases he with ⟨how, rfl⟩ | ⟨how, rfl⟩ | rfl | ⟨t, a, how, rfl⟩
  · obtain ⟨h', due', pre', hp, hd⟩ := hoe
    rw [hp, waiting_snoc] at hw'
    simp [waitStep] at hw'
    rw [hw'.1] at hd
    refine .inr (.inl ?_)
    simp only [List.mem_append] at hd ⊢
    rcases hd with hd | hd
    · exact .inl hd
    · exact .inr (.inl hd)
  · obtain ⟨h', due', hp, hd⟩ := hoe
    rw [hp] at hw'
    simp at hw'
    rw [hw'.1] at hd
    refine .inr (.inl ?_)
    simp only [List.mem_append] at hd ⊢
    rcases hd with hd | hd
    · exact .inl hd
    · exact .inr (.inl hd)
  · exact .inr (.inr (by simp))
  · obtain ⟨⟨h', due', hp, hd, _⟩, _⟩ := hoe
    rw [hp] at hw'
    simp at hw'
    exact .inl ⟨t, a, how, by simp, by rw [← hw'.2]; exact hd⟩

theorem until' (P Q : Nat → Prop) {n m : Nat} (hP : P n) (hm : n ≤ m) (hQ : Q m)
    (hs : ∀ k, n ≤ k → P k → Q k ∨ P (k + 1)) : ∃ k, n ≤ k ∧ P k ∧ Q k := by
  obtain ⟨d, rfl⟩ := Nat.exists_eq_add_of_le hm
  clear hm
  induction d generalizing n with
  | zero => exact ⟨n, Nat.le_refl _, hP, hQ⟩
  | succ d ih =>
    rcases hs n (Nat.le_refl _) hP with h | h
    · exact ⟨n, Nat.le_refl _, hP, h⟩
    · obtain ⟨k, h1, h2⟩ := ih h (fun k hk => hs k (by omega)) (by rw [Nat.add_assoc, Nat.add_comm 1 d]; exact hQ)
      exact ⟨k, by omega, h2⟩

/-- The strand's queue: its front is taken by `start` and new handlers are appended, nothing else happens to it. -/
theorem ready_step {s : St} (l : Lbl) {i : Nat} {j : Job} (h : s.ready[i]? = some j) :
    (s.run = [] ∧ ∃ t, l = .start t) ∨ (step s l).ready[i]? = some j := by
  have hap : ∀ x : List Job, (s.ready ++ x)[i]? = some j := fun x => by
    rw [List.getElem?_append_left (List.getElem?_eq_some_iff.1 h).1]; exact h
  cases l with
  | schedule g d =>
    refine .inr ?_
    simp only [step, deferFor]
    split
    · unfold defer
      split
      · exact h
      · exact hap _
    · rw [(timed_same _ _).2.2.2.1]; exact h
  | scheduleTo g tp => refine .inr ?_; simp only [step, deferTo]; rw [(timed_same _ _).2.2.2.1]; exact h
  | current g d => exact .inr (ct h g _)
  | currentTo g tp => exact .inr (ct h g _)
  | dispose g => exact .inr h
  | tick k => exact .inr h
  | expire k =>
    refine .inr ?_
    simp only [step]
    split
    · split
      · exact hap _
      · exact h
    · exact h
  | start t =>
    cases hr : s.run with
    | nil => exact .inl ⟨rfl, t, rfl⟩
    | cons f fs =>
      refine .inr ?_
      simp only [step, start, hr]
      exact h
  | finish r =>
    refine .inr ?_
    show (finish s r).ready[i]? = some j
    cases hr : s.run with
    | nil => unfold finish; rw [hr]; exact h
    | cons f fs =>
      rw [finish_eq hr]
      have he : (ending s f fs r).ready = s.ready := by
        unfold ending
        cases r with
        | done => rfl
        | again w => exact (timed_same _ _).2.2.2.1
        | throws => simp only; split <;> rfl
      unfold unguard
      split
      · simp only [(handOver_same _ _).2.2.2.1, he]; exact h
      · rw [he]; exact h
  | own t =>
    refine .inr ?_
    simp only [step]
    split <;> exact h
where
  ct {s : St} {i : Nat} {j : Job} (h : s.ready[i]? = some j) (g : Nat) (tp : Int) : (ctDefer s g tp).ready[i]? = some j := by
    unfold ctDefer
    split
    · exact h
    · simp only
      split
      · exact h
      · split <;> exact h

theorem handOver_timers_mono {s : St} {j : Job} (q : List Job) (h : j ∈ s.timers) : j ∈ (handOver s q).timers := by
  induction q generalizing s with
  | nil => exact h
  | cons a q ih =>
    simp only [handOver]
    split
    · exact ih h
    · refine ih ?_
      unfold deferWithTime
      split
      · exact h
      · exact List.mem_append_left _ h

theorem timed_mono {s : St} {j k : Job} (h : j ∈ s.timers) : j ∈ (deferWithTime s k).timers := by
  unfold deferWithTime
  split
  · exact h
  · exact List.mem_append_left _ h

/-- A timer is waited for until its handler is given to the strand. -/
theorem timers_step {s : St} (l : Lbl) {j : Job} (h : j ∈ s.timers) : j ∈ (step s l).timers ∨ j ∈ (step s l).ready := by
  cases l with
  | schedule g d =>
    refine .inl ?_
    simp only [step, deferFor]
    split
    · unfold defer
      split <;> exact h
    · exact timed_mono h
  | scheduleTo g tp => refine .inl ?_; simp only [step, deferTo]; exact timed_mono h
  | current g d => exact .inl (ct h g _)
  | currentTo g tp => exact .inl (ct h g _)
  | dispose g => exact .inl h
  | tick k => exact .inl h
  | expire k =>
    simp only [step]
    split
    · rename_i a ha
      split
      · rcases List.mem_cons.1 ((erase_perm ha).mem_iff.1 h) with rfl | hm
        · exact .inr (by simp)
        · exact .inl hm
      · exact .inl h
    · exact .inl h
  | start t =>
    refine .inl ?_
    simp only [step, start]
    split
    · split
      · exact h
      · split <;> exact h
    · exact h
  | finish r =>
    refine .inl ?_
    show j ∈ (finish s r).timers
    cases hr : s.run with
    | nil => unfold finish; rw [hr]; exact h
    | cons f fs =>
      rw [finish_eq hr]
      have he : j ∈ (ending s f fs r).timers := by
        unfold ending
        cases r with
        | done => exact h
        | again w => exact timed_mono h
        | throws => simp only; split <;> exact h
      unfold unguard
      split
      · exact handOver_timers_mono _ he
      · exact he
  | own t =>
    refine .inl ?_
    simp only [step]
    split <;> exact h
where
  ct {s : St} {j : Job} (h : j ∈ s.timers) (g : Nat) (tp : Int) : j ∈ (ctDefer s g tp).timers := by
    unfold ctDefer
    split
    · exact h
    · simp only
      split
      · exact h
      · split <;> exact h

theorem now_step (s : St) (l : Lbl) : s.now ≤ (step s l).now := by
  cases l with
  | schedule g d =>
    simp only [step, deferFor]
    split
    · unfold defer
      split <;> exact Int.le_refl _
    · rw [(timed_same _ _).2.2.2.2.1]; exact Int.le_refl _
  | scheduleTo g tp => simp only [step, deferTo]; rw [(timed_same _ _).2.2.2.2.1]; exact Int.le_refl _
  | current g d => exact ct g _
  | currentTo g tp => exact ct g _
  | dispose g => exact Int.le_refl _
  | tick k => simp only [step]; omega
  | expire k =>
    simp only [step]
    split
    · split <;> exact Int.le_refl _
    · exact Int.le_refl _
  | start t =>
    simp only [step, start]
    split
    · split
      · exact Int.le_refl _
      · split <;> exact Int.le_refl _
    · exact Int.le_refl _
  | finish r =>
    show s.now ≤ (finish s r).now
    cases hr : s.run with
    | nil => unfold finish; rw [hr]; exact Int.le_refl _
    | cons f fs =>
      rw [finish_eq hr]
      have he : (ending s f fs r).now = s.now := by
        unfold ending
        cases r with
        | done => rfl
        | again w => exact (timed_same _ _).2.2.2.2.1
        | throws => simp only; split <;> rfl
      unfold unguard
      split
      · simp only [(handOver_same _ _).2.2.2.2.1, he]; exact Int.le_refl _
      · rw [he]; exact Int.le_refl _
  | own t =>
    simp only [step]
    split <;> exact Int.le_refl _
where
  ct {s : St} (g : Nat) (tp : Int) : s.now ≤ (ctDefer s g tp).now := by
    unfold ctDefer
    split
    · exact Int.le_refl _
    · simp only
      split
      · exact Int.le_refl _
      · split <;> exact Int.le_refl _

theorem run_now (σ : Nat → Lbl) (n k : Nat) : (run σ n).now ≤ (run σ (n + k)).now := by
  induction k with
  | zero => exact Int.le_refl _
  | succ k ih => exact Int.le_trans ih (now_step _ _)

/-- No thread has an outer queue. -/
def Inner (s : St) : Prop := (∀ t, s.tls t ≠ some .outer) ∧ ∀ id, Ev.outer id ∉ s.log

theorem Inner.say {s s' : St} (h : Inner s) {e : Ev} (he : ∀ id, e ≠ .outer id) (hl : s'.log = s.log ++ [e])
    (ht : s'.tls = s.tls) : Inner s' := by
  refine ⟨by rw [ht]; exact h.1, ?_⟩
  intro id hm
  rw [hl] at hm
  simp only [List.mem_append, List.mem_singleton] at hm
  rcases hm with hm | hm
  · exact h.2 id hm
  · exact he id hm.symm

theorem Inner.timed {s : St} (h : Inner s) (k : Job) : Inner (deferWithTime s k) := by
  unfold deferWithTime
  split
  · exact h.say (e := .refused k.id k.how) (by simp) rfl rfl
  · exact h

theorem Inner.over {s : St} (h : Inner s) (q : List Job) : Inner (handOver s q) := by
  induction q generalizing s with
  | nil => exact h
  | cons j q ih =>
    simp only [handOver]
    split
    · exact ih (h.say (e := .dropped j.id j.how) (by simp) rfl rfl)
    · have h1 : Inner (({ s with link := fun i => if i = j.id then q.head?.map Job.id else s.link i }).say (.handed j.id)) :=
        h.say (e := .handed j.id) (by simp) rfl rfl
      exact ih (h1.timed _)

theorem Inner.current {s : St} (i : Inner s) (h : Nat) (tp : Int) : Inner (ctDefer s h tp) := by
  unfold ctDefer
  split
  · exact i
  · rename_i f fs hr
    simp only
    have i' : Inner ({ s with count := s.count + 1 }.say (.asked (s.count + 1) h tp .queued)) :=
      i.say (e := .asked (s.count + 1) h tp .queued) (by simp) rfl rfl
    split
    · exact i'.say (e := .refused (s.count + 1) .queued) (by simp) rfl rfl
    · split
      · exact i'
      · rename_i ht; exact absurd ht (i.1 f.tid)
      · exact i'.say (e := .began (s.count + 1) f.tid s.now .queued) (by simp) rfl rfl

theorem Inner.step {s : St} (i : Inner s) {l : Lbl} (hl : ∀ t, l ≠ .own t) : Inner (step s l) := by
  cases l with
  | schedule h d =>
    simp only [Strand.step, deferFor]
    split
    · have i' : Inner ({ s with count := s.count + 1 }.say (.asked (s.count + 1) h s.now .posted)) :=
        i.say (e := .asked (s.count + 1) h s.now .posted) (by simp) rfl rfl
      unfold defer
      split
      · exact i'.say (e := .refused (s.count + 1) .posted) (by simp) rfl rfl
      · exact i'
    · have i' : Inner ({ s with count := s.count + 1 }.say (.asked (s.count + 1) h (s.now + d) .timed)) :=
        i.say (e := .asked (s.count + 1) h (s.now + d) .timed) (by simp) rfl rfl
      exact i'.timed _
  | scheduleTo h tp =>
    have i' : Inner ({ s with count := s.count + 1 }.say (.asked (s.count + 1) h tp .timed)) :=
      i.say (e := .asked (s.count + 1) h tp .timed) (by simp) rfl rfl
    exact i'.timed ⟨s.count + 1, h, tp, .timed, false⟩
  | current h d => exact i.current h _
  | currentTo h tp => exact i.current h tp
  | dispose h => exact i.say (e := .disposed h) (by simp) rfl rfl
  | tick k => exact i
  | expire k =>
    simp only [Strand.step]
    split
    · split <;> exact i
    · exact i
  | start t =>
    simp only [Strand.step, start]
    split
    · rename_i j rest _ _
      split
      · exact i.say (e := .dropped j.id j.how) (by simp) rfl rfl
      · split
        · have i' : Inner { s with ready := rest, tls := fun t' => if t' = t then some .guard else s.tls t' } := by
            refine ⟨?_, i.2⟩
            intro t'
            simp only
            split
            · simp
            · exact i.1 t'
          exact i'.say (e := .began j.id t s.now j.how) (by simp) rfl rfl
        · exact i.say (e := .began j.id t s.now j.how) (by simp) rfl rfl
    · exact i
  | finish r =>
    show Inner (finish s r)
    cases hr : s.run with
    | nil => unfold finish; rw [hr]; exact i
    | cons f fs =>
      rw [finish_eq hr]
      have he : Inner (ending s f fs r) := by
        unfold ending
        cases r with
        | done => exact i.say (e := .ended f.job.id s.now .done) (by simp) rfl rfl
        | again w =>
          have i1 : Inner ({ s with run := fs }.say (.ended f.job.id s.now (.again w))) :=
            i.say (e := .ended f.job.id s.now (.again w)) (by simp) rfl rfl
          have i2 : ∀ due, Inner (({ s with run := fs }.say (.ended f.job.id s.now (.again w))).say
              (.asked f.job.id f.job.h due .timed)) := fun due =>
            i1.say (e := .asked f.job.id f.job.h due .timed) (by simp) rfl rfl
          exact (i2 _).timed _
        | throws =>
          simp only
          split
          · have i1 : Inner ({ s with run := fs }.say (.onError f.job.id f.job.h)) :=
              i.say (e := .onError f.job.id f.job.h) (by simp) rfl rfl
            exact i1.say (e := .ended f.job.id s.now .throws) (by simp) rfl rfl
          · have i1 : Inner ({ s with run := fs }.say (.ended f.job.id s.now .throws)) :=
              i.say (e := .ended f.job.id s.now .throws) (by simp) rfl rfl
            exact i1.say (e := .escaped f.job.id) (by simp) rfl rfl
      unfold unguard
      split
      · have io := he.over (ending s f fs r).queue
        refine ⟨?_, io.2⟩
        intro t
        simp only
        split
        · simp
        · exact io.1 t
      · exact he
  | own t => exact absurd rfl (hl t)

theorem run_inner {σ : Nat → Lbl} (hσ : ∀ n t, σ n ≠ .own t) (n : Nat) : Inner (run σ n) := by
  induction n with
  | zero => exact ⟨by simp [run], by simp [run]⟩
  | succ n ih => exact ih.step (hσ n)

theorem finish_queue {s : St} (c : Ctl s) (i : Inner s) (r : Res) : (finish s r).queue = [] := by
  cases hr : s.run with
  | nil => unfold finish; rw [hr]; exact c.idle hr
  | cons f fs =>
    rw [finish_eq hr]
    have ho : f.own = true := by
      cases h : f.own with
      | true => rfl
      | false => exact absurd (c.away f (by simp [hr]) h).1 (i.1 _)
    unfold unguard
    rw [if_pos ho]

theorem served_live {σ : Nat → Lbl} (fair : Fair σ) {n id h : Nat} {due : Int}
    (hw : waiting id (run σ n).log = some (h, due)) :
    ∃ k l, (run σ (n + k)).log = (run σ n).log ++ l ∧ ∃ e ∈ l, Leaves id e := by
  refine Classical.byContradiction fun hno => ?_
  have hstay : ∀ k, waiting id (run σ (n + k)).log = some (h, due) := by
    intro k
    obtain ⟨l, hl⟩ := run_log σ n k
    rw [← hl]
    refine waiting_stays ?_ hw ?_
    · rw [hl]; exact (run_book σ (n + k)).1.ok
    · intro e he hlv
      exact hno ⟨k, l, hl.symm, e, he, hlv⟩
  have hjob : ∀ m, n ≤ m → ∃ j ∈ (run σ m).pend, j.id = id ∧ j.due = due := by
    intro m hm
    obtain ⟨k, rfl⟩ := Nat.exists_eq_add_of_le hm
    have b := (run_book σ (n + k)).1
    obtain ⟨j, hj, hid⟩ := b.only id (by simp [hstay k])
    have := b.wait j hj
    rw [hid, hstay k] at this
    simp at this
    exact ⟨j, hj, hid, this.2.symm⟩
  have hnone : ∀ m, n ≤ m → waiting id (run σ m).log ≠ none := by
    intro m hm
    obtain ⟨k, rfl⟩ := Nat.exists_eq_add_of_le hm
    simp [hstay k]
  -- the strand
  have noReady : ∀ i m : Nat, n ≤ m → ∀ j : Job, (run σ m).ready[i]? = some j → j.id ≠ id := by
    intro i
    induction i with
    | zero =>
      intro m hm j hj hid
      have hne : (run σ m).ready ≠ [] := by intro h0; simp [h0] at hj
      obtain ⟨m', hm', hrun, t, ht⟩ := fair.strand m hne
      obtain ⟨k, hk, hPk, hQk⟩ := until' (fun k => (run σ k).ready[0]? = some j)
        (fun k => (run σ k).run = [] ∧ ∃ t, σ k = .start t) hj hm' ⟨hrun, t, ht⟩
        (fun k _ hp => ready_step (σ k) hp)
      obtain ⟨hr0, t', ht'⟩ := hQk
      refine hnone (k + 1) (by omega) ?_
      show waiting id (step (run σ k) (σ k)).log = none
      rw [ht']
      cases hrd : (run σ k).ready with
      | nil => simp [hrd] at hPk
      | cons a rest =>
        simp [hrd] at hPk
        subst hPk
        simp only [step, start, hr0, hrd]
        split
        · simp only [St.say]; rw [waiting_snoc]; simp [waitStep, hid]
        · split <;> (simp only [St.say]; rw [waiting_snoc]; simp [waitStep, hid])
    | succ i ih =>
      intro m hm j hj hid
      have hne : (run σ m).ready ≠ [] := by intro h0; simp [h0] at hj
      obtain ⟨m', hm', hrun, t, ht⟩ := fair.strand m hne
      obtain ⟨k, hk, hPk, hQk⟩ := until' (fun k => (run σ k).ready[i + 1]? = some j)
        (fun k => (run σ k).run = [] ∧ ∃ t, σ k = .start t) hj hm' ⟨hrun, t, ht⟩
        (fun k _ hp => ready_step (σ k) hp)
      obtain ⟨hr0, t', ht'⟩ := hQk
      refine ih (k + 1) (by omega) j ?_ hid
      show (step (run σ k) (σ k)).ready[i]? = some j
      rw [ht']
      cases hrd : (run σ k).ready with
      | nil => simp [hrd] at hPk
      | cons a rest =>
        simp [hrd] at hPk
        simp only [step, start, hr0, hrd]
        split
        · exact hPk
        · split <;> exact hPk
  have noReady' : ∀ m, n ≤ m → ∀ j ∈ (run σ m).ready, j.id ≠ id := by
    intro m hm j hj
    obtain ⟨i, hi⟩ := List.getElem?_of_mem hj
    exact noReady i m hm j hi
  -- the timers
  have noTimer : ∀ m, n ≤ m → ∀ j ∈ (run σ m).timers, j.id = id → j.due = due → False := by
    intro m hm j hj hid hdue
    have keep : ∀ k, j ∈ (run σ (m + k)).timers := by
      intro k
      induction k with
      | zero => exact hj
      | succ k ih =>
        rcases timers_step (σ (m + k)) ih with h | h
        · exact h
        · exact absurd hid (noReady' (m + k + 1) (by omega) j h)
    obtain ⟨T, hT⟩ := fair.clock due
    have h1 : due ≤ (run σ (m + T)).now := by
      have := run_now σ T m
      rw [Nat.add_comm] at this
      exact Int.le_trans hT this
    obtain ⟨m', hm', hout⟩ := fair.timer (m + T) j (keep T) (by rw [hdue]; exact h1)
    obtain ⟨k, rfl⟩ := Nat.exists_eq_add_of_le hm'
    exact hout (by rw [Nat.add_assoc]; exact keep (T + k))
  -- the guard's queue
  have noQueue : ∀ m, n ≤ m → (run σ m).queue = [] → False := by
    intro m hm hq
    obtain ⟨j, hj, hid, hdue⟩ := hjob m hm
    simp only [St.pend, List.mem_append, hq, List.not_mem_nil, or_false] at hj
    rcases hj with hj | hj
    · exact noReady' m hm j hj hid
    · exact noTimer m hm j hj hid hdue
  cases hr : (run σ n).run with
  | nil => exact noQueue n (Nat.le_refl _) ((run_book σ n).2.idle hr)
  | cons f fs =>
    obtain ⟨m, hm, r, hfin⟩ := fair.ends n (by simp [hr])
    refine noQueue (m + 1) (by omega) ?_
    show (step (run σ m) (σ m)).queue = []
    rw [hfin]
    exact finish_queue (run_book σ m).2 (run_inner fair.inner m) r

end Rpp.Strand
