import Verif.Scheduler.CurrentThread
/-!
# current_thread scheduler: invariants
-/

namespace Rpp.Sched
open CT TrampSpec

/-! ## The queue as a stable sort of the waiting requests -/

/-- Used in the proofs; models no code. -/
def isort (l : List Ent) : List Ent := l.foldl emplace []

theorem isort_snoc (l : List Ent) (e : Ent) : isort (l ++ [e]) = emplace (isort l) e := by
  simp [isort]

theorem emplace_ne_nil (q : List Ent) (e : Ent) : emplace q e ≠ [] := by
  cases q with
  | nil => simp [emplace]
  | cons h r => simp only [emplace]; split <;> simp

theorem snoc_ind {α} {P : List α → Prop} (h0 : P []) (h1 : ∀ l x, P l → P (l ++ [x])) : ∀ l, P l := by
  intro l
  rw [← List.reverse_reverse l]
  induction l.reverse with
  | nil => exact h0
  | cons x r ih => rw [List.reverse_cons]; exact h1 _ _ ih

theorem isort_nil {l : List Ent} (h : isort l = []) : l = [] := by
  rcases List.eq_nil_or_concat l with rfl | ⟨l', x, rfl⟩
  · rfl
  · rw [List.concat_eq_append, isort_snoc] at h; exact absurd h (emplace_ne_nil _ _)

/-- The head of the queue is the next one, and removing it leaves the queue of the others. -/
theorem isort_cons (l : List Ent) : ∀ (h : Ent) (rest : List Ent), isort l = h :: rest →
    ∃ pre post, l = pre ++ h :: post ∧ (∀ f ∈ pre, h.tp < f.tp) ∧ (∀ f ∈ post, h.tp ≤ f.tp) ∧
      rest = isort (pre ++ post) := by
  induction l using snoc_ind with
  | h0 => intro h rest hh; simp [isort] at hh
  | h1 l x ih =>
    intro h rest hh
    rw [isort_snoc] at hh
    cases hq : isort l with
    | nil =>
      have := isort_nil hq
      subst this
      simp only [hq, emplace, List.cons.injEq] at hh
      obtain ⟨rfl, rfl⟩ := hh
      exact ⟨[], [], rfl, by simp, by simp, rfl⟩
    | cons g r =>
      obtain ⟨pre, post, hl, h1, h2, h3⟩ := ih g r hq
      simp only [hq, emplace] at hh
      split at hh
      · rename_i hlt
        simp only [List.cons.injEq] at hh
        obtain ⟨rfl, rfl⟩ := hh
        refine ⟨l, [], rfl, ?_, by simp, by simp [hq]⟩
        intro f hf
        rw [hl] at hf
        simp only [List.mem_append, List.mem_cons] at hf
        rcases hf with hf | rfl | hf
        · have := h1 f hf; omega
        · exact hlt
        · have := h2 f hf; omega
      · rename_i hge
        simp only [List.cons.injEq] at hh
        obtain ⟨rfl, rfl⟩ := hh
        refine ⟨pre, post ++ [x], by simp [hl], h1, ?_, ?_⟩
        · intro f hf
          simp only [List.mem_append, List.mem_singleton] at hf
          rcases hf with hf | rfl
          · exact h2 f hf
          · omega
        · rw [← List.append_assoc, isort_snoc, ← h3, emplace_eq_insertAfter]

theorem erase_mid {pre post : List Ent} {e : Ent} (h : ∀ f ∈ pre, e.tp < f.tp) :
    (pre ++ e :: post).erase e = pre ++ post := by
  have : e ∉ pre := fun hm => by have := h e hm; omega
  rw [List.erase_append_right _ this]
  simp

/-! ## Replaying a log one event further -/

theorem waiting_snoc (l : List Ev) (ev : Ev) : waiting (l ++ [ev]) = (match ev with
    | .sched e => waiting l ++ [e]
    | .drop e => (waiting l).erase e
    | .start e _ => (waiting l).erase e
    | _ => waiting l) := by
  simp only [waiting, List.foldl_append, List.foldl_cons, List.foldl_nil]
  cases ev <;> rfl

theorem running_snoc (l : List Ev) (ev : Ev) : running (l ++ [ev]) = (match ev with
    | .start e _ => e.id :: running l
    | .fin _ _ _ => (running l).tail
    | _ => running l) := by
  simp only [running, List.foldl_append, List.foldl_cons, List.foldl_nil]
  cases ev <;> rfl

theorem requested_snoc (k : Nat → Kind) (l : List Ev) (ev : Ev) (id : Nat) :
    requested k (l ++ [ev]) id = reqStep k id (requested k l id) ev := by
  simp only [requested, List.foldl_append, List.foldl_cons, List.foldl_nil]

namespace CT

variable (c : Cfg) (P : Nat → Prop)

/-- What each event of a trampoline's log has to satisfy, given what was logged before. `P` selects the tasks
whose times are claimed to be right. -/
def Ok (pre : List Ev) : Ev → Prop
  | .sched e => (P e.id → requested c.kind pre e.id = some e.tp) ∧ .err e.id ∉ pre
  | .start e t => running pre = [] ∧ IsNext (waiting pre) e ∧ e.tp ≤ t ∧ .err e.id ∉ pre ∧
      .disp (c.hnd e.id) ∉ pre ∧ (P e.id → requested c.kind pre e.id = some e.tp)
  | .drop e => running pre = [] ∧ IsNext (waiting pre) e
  | .fin id _ _ => running pre = [id]
  | .err id => .err id ∉ pre ∧ ∃ pre' t, pre = pre' ++ [.fin id t .throw]
  | _ => True

/-- What the logs satisfy (for the proofs); models no code. -/
def Legal (log : List Ev) : Prop := ∀ pre ev post, log = pre ++ ev :: post → Ok c P pre ev

/-- Every throw is followed by a call of `on_error`. -/
def Paired (log : List Ev) : Prop :=
  ∀ pre id t post, log = pre ++ .fin id t .throw :: post → ∃ post', post = .err id :: post'

/-- The invariant while the queue is owned: `r` lists the tasks being executed, `m` the tasks held by the
scheduler outside the queue, `pend` the requests already taken from the queue but not started. -/
structure Base (s : St) (r m : List Nat) (pend : List Ent) : Prop where
  lastle : s.last ≤ s.now
  run : running s.log = r
  rep : isort (waiting s.log) = pend ++ s.queue
  legal : Legal c P s.log
  lt : ∀ i ∈ s.queue.map (·.id) ++ m, i < s.next
  nd : (s.queue.map (·.id) ++ m).Nodup
  dead : ∀ i, .err i ∈ s.log → i < s.next ∧ i ∉ s.queue.map (·.id) ++ m
  req : ∀ e ∈ pend ++ s.queue, P e.id → requested c.kind s.log e.id = some e.tp
  disp : ∀ h, h ∈ s.disposed ↔ .disp h ∈ s.log
  paired : Paired s.log

variable {c : Cfg} {P : Nat → Prop}

theorem Legal.snoc {log : List Ev} {ev : Ev} (h : Legal c P log) (ho : Ok c P log ev) :
    Legal c P (log ++ [ev]) := by
  intro pre ev' post heq
  rcases QueueRun.snoc_eq heq with ⟨rfl, rfl, _⟩ | ⟨post', _, h2⟩
  · exact ho
  · exact h _ _ _ h2

theorem Paired.snoc {log : List Ev} {ev : Ev} (h : Paired log) (hev : ∀ id t, ev ≠ .fin id t .throw) :
    Paired (log ++ [ev]) := by
  intro pre id t post heq
  rcases QueueRun.snoc_eq heq with ⟨rfl, rfl, _⟩ | ⟨post', rfl, h2⟩
  · exact absurd rfl (hev id t)
  · obtain ⟨p, rfl⟩ := h _ _ _ _ h2
    exact ⟨p ++ [ev], rfl⟩

theorem Paired.snoc2 {log : List Ev} (h : Paired log) (id : Nat) (t : Int) :
    Paired (log ++ [.fin id t .throw] ++ [.err id]) := by
  intro pre id' t' post heq
  rcases QueueRun.snoc_eq heq with ⟨_, h2, _⟩ | ⟨post', rfl, h2⟩
  · cases h2
  · rcases QueueRun.snoc_eq h2 with ⟨_, h3, rfl⟩ | ⟨post'', rfl, h3⟩
    · cases h3; exact ⟨[], rfl⟩
    · obtain ⟨p, rfl⟩ := h _ _ _ _ h3
      exact ⟨_, rfl⟩

theorem mem_emplace {q : List Ent} {e f : Ent} : f ∈ emplace q e ↔ f = e ∨ f ∈ q := by
  rw [(emplace_perm e q).mem_iff, List.mem_cons]

theorem ids_emplace (q : List Ent) (e : Ent) (m : List Nat) :
    ((emplace q e).map (·.id) ++ m).Perm (e.id :: (q.map (·.id) ++ m)) := by
  exact ((emplace_perm e q).map _).append_right m

/-- A task is put into the queue; it was held by the scheduler before. -/
theorem Base.sched {s : St} {r m} (e : Ent) (h : Base c P s r (e.id :: m) [])
    (hr : P e.id → requested c.kind s.log e.id = some e.tp) : Base c P (s.enqueue e) r m [] := by
  obtain ⟨h1, h2, h3, h4, h5, h6, h7, h8, h9, h10⟩ := h
  have hp : ((s.enqueue e).queue.map (·.id) ++ m).Perm (s.queue.map (·.id) ++ e.id :: m) :=
    (ids_emplace s.queue e m).trans List.perm_middle.symm
  refine ⟨h1, ?_, ?_, ?_, ?_, ?_, ?_, ?_, ?_, ?_⟩
  · simp only [St.enqueue, St.emit, running_snoc]; exact h2
  · simp only [St.enqueue, St.emit, waiting_snoc, isort_snoc, h3, List.nil_append]
  · refine h4.snoc ⟨hr, fun hm => (h7 _ hm).2 (by simp)⟩
  · intro i hi; exact h5 i (hp.mem_iff.mp hi)
  · exact hp.nodup_iff.mpr h6
  · intro i hi
    have : Ev.err i ∈ s.log := by simpa [St.enqueue, St.emit] using hi
    exact ⟨(h7 i this).1, fun hm => (h7 i this).2 (hp.mem_iff.mp hm)⟩
  · intro f hf hP
    simp only [St.enqueue, St.emit, requested_snoc, reqStep]
    rcases mem_emplace.mp hf with rfl | hf
    · exact hr hP
    · exact h8 f hf hP
  · intro x; simp only [St.enqueue, St.emit, h9]; simp
  · exact h10.snoc (by simp)

/-- The user asks for a run; the task gets the next number and is held by the scheduler. -/
theorem Base.call {s : St} {r m} (h : Base c P s r m []) (due : Int) :
    Base c P { s.emit (.call s.next due) with next := s.next + 1 } r (s.next :: m) [] ∧
      requested c.kind (s.emit (.call s.next due)).log s.next = some due := by
  obtain ⟨h1, h2, h3, h4, h5, h6, h7, h8, h9, h10⟩ := h
  refine ⟨⟨h1, ?_, ?_, h4.snoc trivial, ?_, ?_, ?_, ?_, ?_, h10.snoc (by simp)⟩, ?_⟩
  · simp only [St.emit, running_snoc]; exact h2
  · simp only [St.emit, waiting_snoc]; exact h3
  · intro i hi
    simp only [St.emit, List.mem_append, List.mem_cons] at hi h5 ⊢
    rcases hi with hi | rfl | hi
    · exact Nat.lt_succ_of_lt (h5 i (.inl hi))
    · exact Nat.lt_succ_self _
    · exact Nat.lt_succ_of_lt (h5 i (.inr hi))
  · refine List.perm_middle.nodup_iff.mpr (List.nodup_cons.mpr ⟨fun hm => ?_, h6⟩)
    exact Nat.lt_irrefl _ (h5 _ hm)
  · intro i hi
    have : Ev.err i ∈ s.log := by simpa [St.emit] using hi
    have h' := h7 i this
    refine ⟨Nat.lt_succ_of_lt h'.1, fun hm => ?_⟩
    simp only [St.emit, List.mem_append, List.mem_cons] at hm h'
    rcases hm with hm | rfl | hm
    · exact h'.2 (.inl hm)
    · exact Nat.lt_irrefl _ h'.1
    · exact h'.2 (.inr hm)
  · intro e he hP
    have : e.id < s.next := h5 _ (by simp only [List.mem_append, List.mem_map]; exact .inl ⟨e, he, rfl⟩)
    simp only [St.emit, requested_snoc, reqStep]
    rw [if_neg (by omega)]
    exact h8 e he hP
  · intro x; simp only [St.emit, h9]; simp
  · simp only [St.emit, requested_snoc, reqStep, if_true]

/-- A held task is given up. -/
theorem Base.forget {s : St} {r m i pend} (h : Base c P s r (i :: m) pend) : Base c P s r m pend := by
  obtain ⟨h1, h2, h3, h4, h5, h6, h7, h8, h9, h10⟩ := h
  refine ⟨h1, h2, h3, h4, ?_, ?_, ?_, h8, h9, h10⟩
  · intro j hj
    refine h5 j ?_
    grind
  · exact (List.nodup_cons.mp (List.perm_middle.nodup_iff.mp h6)).2
  · intro j hj
    refine ⟨(h7 j hj).1, fun hm => (h7 j hj).2 ?_⟩
    grind

/-- Time, the cached time, ownership and program counter may change freely. -/
theorem Base.clock {s s' : St} {r m pend} (h : Base c P s r m pend) (hl : s'.last ≤ s'.now)
    (h1 : s'.log = s.log) (h2 : s'.queue = s.queue) (h3 : s'.next = s.next)
    (h4 : s'.disposed = s.disposed) : Base c P s' r m pend := by
  obtain ⟨a1, a2, a3, a4, a5, a6, a7, a8, a9, a10⟩ := h
  exact ⟨hl, by rw [h1]; exact a2, by rw [h1, h2]; exact a3, by rw [h1]; exact a4,
    by rw [h2, h3]; exact a5, by rw [h2]; exact a6, by rw [h1, h2, h3]; exact a7,
    by rw [h1, h2]; exact a8, by rw [h1, h4]; exact a9, by rw [h1]; exact a10⟩

theorem Base.deferFor {s : St} {r m} (h : Base c P s r m []) (ho : s.owned = true) (d : Int) :
    Base c P (doAct c s (.deferFor d)) r m [] ∧ (doAct c s (.deferFor d)).owned = true ∧
      (doAct c s (.deferFor d)).mode = s.mode := by
  obtain ⟨hc, hr⟩ := h.call (s.now + d)
  simp only [doAct, CT.deferFor]
  split
  · exact ⟨hc.forget, ho, rfl⟩
  · have ho' : (s.emit (.call s.next (s.now + d))).owned = true := ho
    simp only [ho', if_true]
    refine ⟨Base.sched _ (hc.clock (Int.le_refl _) rfl rfl rfl rfl) (fun _ => hr), rfl, rfl⟩

theorem Base.act {s : St} {r m} (h : Base c P s r m []) (ho : s.owned = true) (a : Act) :
    Base c P (doAct c s a) r m [] ∧ (doAct c s a).owned = true ∧ (doAct c s a).mode = s.mode := by
  cases a with
  | elapse d =>
    exact ⟨h.clock (by have := h.1; simp only [doAct]; omega) rfl rfl rfl rfl, ho, rfl⟩
  | deferFor d => exact h.deferFor ho d
  | deferTo tp =>
    obtain ⟨hc, hr⟩ := h.call tp
    simp only [doAct, CT.deferTo]
    split
    · exact ⟨hc.forget, ho, rfl⟩
    · have ho' : (s.emit (.call s.next tp)).owned = true := ho
      simp only [ho', if_true]
      exact ⟨Base.sched _ (hc.clock hc.1 rfl rfl rfl rfl) (fun _ => hr), rfl, rfl⟩
  | dispose x =>
    obtain ⟨h1, h2, h3, h4, h5, h6, h7, h8, h9, h10⟩ := h
    refine ⟨⟨h1, ?_, ?_, h4.snoc trivial, h5, h6, ?_, ?_, ?_, h10.snoc (by simp)⟩, ho, rfl⟩
    · simp only [doAct, St.emit, running_snoc]; exact h2
    · simp only [doAct, St.emit, waiting_snoc]; exact h3
    · intro i hi; exact h7 i (by simpa [doAct, St.emit] using hi)
    · intro e he hP; simp only [doAct, St.emit, requested_snoc, reqStep]; exact h8 e he hP
    · intro y; simp only [doAct, St.emit, List.mem_cons, h9, List.mem_append, List.not_mem_nil, or_false,
        Ev.disp.injEq]; exact Or.comm

theorem Base.acts {r m} (as : List Act) : ∀ {s : St}, Base c P s r m [] → s.owned = true →
    Base c P (as.foldl (doAct c) s) r m [] ∧ (as.foldl (doAct c) s).owned = true ∧
      (as.foldl (doAct c) s).mode = s.mode := by
  induction as with
  | nil => exact fun h ho => ⟨h, ho, rfl⟩
  | cons a as ih =>
    intro s h ho
    obtain ⟨h1, h2, h3⟩ := h.act (c := c) ho a
    obtain ⟨h4, h5, h6⟩ := ih h1 h2
    exact ⟨h4, h5, h6.trans h3⟩

theorem act_requested {s : St} (a : Act) (i : Nat) (hi : i < s.next) :
    requested c.kind (doAct c s a).log i = requested c.kind s.log i ∧ i < (doAct c s a).next := by
  have hne : s.next ≠ i := by omega
  cases a with
  | elapse d => exact ⟨rfl, hi⟩
  | deferFor d =>
    simp only [doAct, CT.deferFor]
    split
    · simp only [St.emit, requested_snoc, reqStep, hne, if_false]; exact ⟨trivial, by omega⟩
    split
    · simp only [St.enqueue, readNow, St.emit, requested_snoc, reqStep, hne, if_false]; exact ⟨trivial, by omega⟩
    · split <;>
        (simp only [readNow, St.emit, requested_snoc, reqStep, hne, if_false]; exact ⟨trivial, by omega⟩)
  | deferTo tp =>
    simp only [doAct, CT.deferTo]
    split
    · simp only [St.emit, requested_snoc, reqStep, hne, if_false]; exact ⟨trivial, by omega⟩
    split
    · simp only [St.enqueue, St.emit, requested_snoc, reqStep, hne, if_false]; exact ⟨trivial, by omega⟩
    · simp only [CT.deferFor]
      split
      · simp only [readNow, St.emit, requested_snoc, reqStep, hne, if_false]; exact ⟨trivial, by omega⟩
      split
      · simp only [St.enqueue, readNow, St.emit, requested_snoc, reqStep, hne, if_false]; exact ⟨trivial, by omega⟩
      · split <;>
          (simp only [readNow, St.emit, requested_snoc, reqStep, hne, if_false]; exact ⟨trivial, by omega⟩)
  | dispose x => simp only [doAct, St.emit, requested_snoc, reqStep]; exact ⟨trivial, hi⟩

theorem acts_requested (as : List Act) (i : Nat) : ∀ {s : St}, i < s.next →
    requested c.kind (as.foldl (doAct c) s).log i = requested c.kind s.log i := by
  induction as with
  | nil => exact fun _ => rfl
  | cons a as ih =>
    intro s hi
    have := act_requested (c := c) a i hi
    simp only [List.foldl_cons]
    rw [ih this.2, this.1]

/-- The state right after the user function was entered. -/
def entered (s : St) (e : Ent) : St :=
  { s with inv := fun i => if i = e.id then s.inv e.id + 1 else s.inv i }.emit (.start e s.now)

/-- The state right before the user function is left. -/
def leaving (c : Cfg) (s : St) (e : Ent) : St := (c.body e.id (s.inv e.id)).1.foldl (doAct c) (entered s e)

theorem Base.entered {s : St} {e : Ent} (h : Base c P s [] [e.id] [e]) (hd : e.tp ≤ s.now)
    (hnd : c.hnd e.id ∉ s.disposed) : Base c P (CT.entered s e) [e.id] [e.id] [] := by
  obtain ⟨h1, h2, h3, h4, h5, h6, h7, h8, h9, h10⟩ := h
  obtain ⟨pre, post, hw, hp, hq, hr⟩ := isort_cons _ _ _ h3
  refine ⟨h1, ?_, ?_, h4.snoc ⟨h2, ⟨pre, post, hw, hp, hq⟩, hd, ?_, fun hm => hnd ((h9 _).mpr hm),
      h8 e (by simp)⟩,
    h5, h6, ?_, ?_, ?_, h10.snoc (by simp)⟩
  · simp only [CT.entered, St.emit, running_snoc, h2]
  · simp only [CT.entered, St.emit, waiting_snoc, hw, erase_mid hp, List.nil_append]; exact hr.symm
  · exact fun hm => (h7 _ hm).2 (by simp)
  · intro i hi; exact h7 i (by simpa [CT.entered, St.emit] using hi)
  · intro f hf hP; simp only [CT.entered, St.emit, requested_snoc, reqStep]; exact h8 f (.tail _ hf) hP
  · intro y; simp only [CT.entered, St.emit, h9]; simp

/-- A call of a task function that is next in line, due and not disposed. -/
theorem Base.task {s : St} {e : Ent} (h : Base c P s [] [e.id] [e]) (ho : s.owned = true)
    (hd : e.tp ≤ s.now) (hnd : c.hnd e.id ∉ s.disposed) :
    Base c P (runTask c s e).1 [] [] [] ∧ (runTask c s e).1.owned = true ∧
    (runTask c s e).1.mode = s.mode ∧
    (∀ v, (runTask c s e).2 = .again v →
      Base c P (runTask c s e).1 [] [e.id] [] ∧
      requested c.kind (runTask c s e).1.log e.id =
        reqStep c.kind e.id (requested c.kind s.log e.id) (.fin e.id (runTask c s e).1.now (.again v))) := by
  obtain ⟨hb, hbo, hbm⟩ := (h.entered hd hnd).acts (c.body e.id (s.inv e.id)).1 ho
  have hlt : e.id < s.next := h.lt _ (by simp)
  have hreq : requested c.kind (leaving c s e).log e.id = requested c.kind s.log e.id := by
    refine (acts_requested (c.body e.id (s.inv e.id)).1 e.id (s := CT.entered s e) hlt).trans ?_
    simp only [CT.entered, St.emit, requested_snoc, reqStep]
  change Base c P (leaving c s e) [e.id] [e.id] [] at hb
  change (leaving c s e).owned = true at hbo
  change (leaving c s e).mode = s.mode at hbm
  have hrun : runTask c s e = (match (c.body e.id (s.inv e.id)).2 with
      | .throw => ((leaving c s e).emit (.fin e.id (leaving c s e).now (c.body e.id (s.inv e.id)).2)).emit (.err e.id)
      | _ => (leaving c s e).emit (.fin e.id (leaving c s e).now (c.body e.id (s.inv e.id)).2),
      (c.body e.id (s.inv e.id)).2) := rfl
  rw [hrun]
  obtain ⟨h1, h2, h3, h4, h5, h6, h7, h8, h9, h10⟩ := hb
  have hqne : ∀ f ∈ (leaving c s e).queue, e.id ≠ f.id := by
    intro f hf heq
    refine (List.nodup_append.mp h6).2.2 f.id ?_ e.id (by simp) heq.symm
    exact List.mem_map.mpr ⟨f, hf, rfl⟩
  have hfin : ∀ r, r ≠ .throw → Base c P ((leaving c s e).emit (.fin e.id (leaving c s e).now r)) [] [e.id] [] := by
    intro r hr
    refine ⟨h1, ?_, ?_, h4.snoc h2, h5, h6, ?_, ?_, ?_, h10.snoc (by simp [hr])⟩
    · simp only [St.emit, running_snoc, h2, List.tail_cons]
    · simp only [St.emit, waiting_snoc]; exact h3
    · intro i hi; exact h7 i (by simpa [St.emit] using hi)
    · intro f hf hP
      have := hqne f hf
      simp only [St.emit, requested_snoc]
      cases r <;> simp only [reqStep, this, if_false] <;> exact h8 f hf hP
    · intro y; simp only [St.emit, h9]; simp
  cases hres : (c.body e.id (s.inv e.id)).2 with
  | stop => exact ⟨(hfin .stop (by simp)).forget, hbo, hbm, by simp⟩
  | again v =>
    refine ⟨(hfin (.again v) (by simp)).forget, hbo, hbm, ?_⟩
    intro v' hv
    simp only [Res.again.injEq] at hv
    subst hv
    refine ⟨hfin (.again v) (by simp), ?_⟩
    simp only [St.emit, requested_snoc, hreq]
  | throw =>
    refine ⟨⟨h1, ?_, ?_, ?_, ?_, ?_, ?_, ?_, ?_, ?_⟩, hbo, hbm, by simp⟩
    · simp only [St.emit, running_snoc, h2, List.tail_cons]
    · simp only [St.emit, waiting_snoc]; exact h3
    · refine (h4.snoc (ev := .fin e.id _ .throw) h2).snoc ⟨?_, _, _, rfl⟩
      intro hm
      have : Ev.err e.id ∈ (leaving c s e).log := by simpa using hm
      exact (h7 _ this).2 (by simp)
    · intro i hi; exact h5 i (by simp only [St.emit] at hi; grind)
    · have := h6; simp only [St.emit]; grind
    · intro i hi
      simp only [St.emit, List.mem_append, List.mem_singleton, Ev.err.injEq, reduceCtorEq, or_false] at hi
      rcases hi with hi | rfl
      · refine ⟨(h7 i hi).1, fun hm => (h7 i hi).2 ?_⟩
        simp only [St.emit] at hm; grind
      · refine ⟨h5 _ (by simp), ?_⟩
        have := (List.nodup_append.mp h6).2.2
        simp only [St.emit]; grind
    · intro f hf hP
      have := hqne f hf
      simp only [St.emit, requested_snoc, reqStep]
      exact h8 f hf hP
    · intro y; simp only [St.emit, h9]; simp
    · exact h10.snoc2 _ _

/-! ## The invariant between scheduler steps -/

/-- The tasks held outside the queue. -/
def held : Mode → List Nat
  | .imm id _ => [id]
  | .inner top _ => [top.id]
  | _ => []

/-- The request taken from the queue and not started. -/
def pend : Mode → List Ent
  | .inner top due => [⟨due, top.id⟩]
  | _ => []

variable (c P) in
/-- Invariant of the proofs; models no code. -/
structure Inv (s : St) : Prop where
  base : Base c P s [] (held s.mode) (pend s.mode)
  own : match s.mode with
    | .user => s.owned = false → s.queue = []
    | _ => s.owned = true
  wait : match s.mode with
    | .imm id (.till tp) => requested c.kind s.log id = some tp
    | .imm id (.dur d) => requested c.kind s.log id = some (s.now + d) ∧ c.kind id ≠ .fromThis
    | .inner top due => s.queue = [] ∧ due ≤ s.now ∧ c.hnd top.id ∉ s.disposed ∧
        (P top.id → c.kind top.id ≠ .fromThis)
    | _ => True

theorem sleepFor_props (s : St) (d : Int) : (sleepFor c s d).now ≥ s.now ∧ (sleepFor c s d).now ≥ s.now + d ∧
    (sleepFor c s d).last = s.last ∧ (sleepFor c s d).log = s.log ∧ (sleepFor c s d).queue = s.queue ∧
    (sleepFor c s d).owned = s.owned ∧ (sleepFor c s d).next = s.next ∧
    (sleepFor c s d).disposed = s.disposed := by
  simp only [sleepFor]
  split <;> (refine ⟨?_, ?_, rfl, rfl, rfl, rfl, rfl, rfl⟩ <;> (try dsimp only) <;> omega)

theorem sleepUntil_props (s : St) (tp : Int) (h : s.last ≤ s.now) :
    (sleepUntil c s tp).1.now ≥ s.now ∧ (sleepUntil c s tp).1.now ≥ tp ∧
    (sleepUntil c s tp).1.last ≤ (sleepUntil c s tp).1.now ∧ (sleepUntil c s tp).1.log = s.log ∧
    (sleepUntil c s tp).1.queue = s.queue ∧
    (sleepUntil c s tp).1.owned = s.owned ∧ (sleepUntil c s tp).1.next = s.next ∧
    (sleepUntil c s tp).1.disposed = s.disposed := by
  simp only [sleepUntil]
  split
  · exact ⟨Int.le_refl _, by dsimp only; omega, h, rfl, rfl, rfl, rfl, rfl⟩
  · obtain ⟨h1, h2, h3, h4, h5, h6, h7, h8⟩ := sleepFor_props (c := c) s (tp - s.now)
    exact ⟨h1, by dsimp only; omega, by dsimp only; omega, h4, h5, h6, h7, h8⟩

theorem not_disposed {s : St} {id : Nat} (h : ¬ isDisposed c s id = true) : c.hnd id ∉ s.disposed := by
  intro hm
  apply h
  simp only [isDisposed, Bool.or_eq_true, List.contains_iff_mem]
  exact .inl hm

theorem Inv.drain {s : St} (h : Base c P s [] [] []) (ho : s.owned = true) :
    Inv c P { s with mode := .drain } :=
  ⟨h.clock h.1 rfl rfl rfl rfl, ho, trivial⟩

/-- A request is announced and then taken at once: nothing else is waiting. -/
theorem Base.takeNow {s : St} {r m} (e : Ent) (h : Base c P s r (e.id :: m) []) (hq : s.queue = [])
    (hr : P e.id → requested c.kind s.log e.id = some e.tp) :
    Base c P (s.emit (.sched e)) r (e.id :: m) [e] := by
  obtain ⟨h1, h2, h3, h4, h5, h6, h7, h8, h9, h10⟩ := h
  have hw : waiting s.log = [] := isort_nil (by rw [h3, hq]; rfl)
  refine ⟨h1, ?_, ?_, h4.snoc ⟨hr, fun hm => (h7 _ hm).2 (by simp)⟩, h5, h6, ?_, ?_, ?_, h10.snoc (by simp)⟩
  · simp only [St.emit, running_snoc]; exact h2
  · simp only [St.emit, waiting_snoc, hw, hq]; rfl
  · intro i hi; exact h7 i (by simpa [St.emit] using hi)
  · intro f hf hP
    simp only [St.emit, requested_snoc, reqStep]
    simp only [St.emit, hq, List.append_nil, List.mem_singleton] at hf
    subst hf; exact hr hP
  · intro y; simp only [St.emit, h9]; simp

theorem Inv.afterCall {s : St} (top : Ent) (r : Res) (h : Base c P s [] [] []) (ho : s.owned = true)
    (req : Option Int) (hreq : c.kind top.id = .fromThis → P top.id → req = some top.tp)
    (hh : ∀ v, r = .again v → Base c P s [] [top.id] [] ∧
      requested c.kind s.log top.id = reqStep c.kind top.id req (.fin top.id s.now (.again v)))
    (hP : ∀ due, (CT.afterCall c s top r).mode = .inner top due → P top.id → c.kind top.id ≠ .fromThis) :
    Inv c P (CT.afterCall c s top r) := by
  have hdone : Inv c P { s with mode := .drain } := Inv.drain h ho
  cases r with
  | stop => exact hdone
  | throw => exact hdone
  | again v =>
    obtain ⟨hb, hr⟩ := hh v rfl
    by_cases hnd : isDisposed c s top.id = true
    · simp only [CT.afterCall, hnd, if_true]; exact hdone
    have hnd' := not_disposed hnd
    simp only [CT.afterCall, hnd] at hP ⊢
    simp only [Bool.false_eq_true, if_false] at hP ⊢
    by_cases hq : s.queue.isEmpty = true
    · have hq' : s.queue = [] := by simpa using hq
      simp only [hq, if_true] at hP ⊢
      cases hk : c.kind top.id with
      | fromNow =>
        have hb2 := hb.takeNow ⟨s.now + v, top.id⟩ hq' (by intro _; simp only [hr, reqStep, hk, if_true])
        obtain ⟨h1, h2, h3, h4, h5, h6, h7, h8⟩ :=
          sleepFor_props (c := c) (s.emit (.sched ⟨s.now + v, top.id⟩)) v
        have hle : s.last ≤ s.now := h.1
        refine ⟨hb2.clock ?_ h4 h5 h7 h8, h6.trans ho, h5.trans hq', h2, ?_⟩
        · have h1' : s.now ≤ _ := h1
          have h3' : _ = s.last := h3
          simp only [] at h1' h3' ⊢
          omega
        · rw [h8]; exact ⟨hnd', by rw [hk]; simp⟩
      | fromThis =>
        have hb2 := hb.takeNow ⟨top.tp + v, top.id⟩ hq' (by
          intro hp
          simp only [hk] at hP
          exact absurd rfl (hP _ rfl hp))
        obtain ⟨h1, h2, h3, h4, h5, h6, h7, h8⟩ :=
          sleepUntil_props (c := c) (s.emit (.sched ⟨top.tp + v, top.id⟩)) (top.tp + v) h.1
        refine ⟨hb2.clock h3 h4 h5 h7 h8, h6.trans ho, h5.trans hq', h2, ?_⟩
        rw [h8]; exact ⟨hnd', by simp only [hk] at hP; exact fun hp => hk ▸ hP _ rfl hp⟩
      | to =>
        have hb2 := hb.takeNow ⟨v, top.id⟩ hq' (by intro _; simp only [hr, reqStep, hk, if_true])
        obtain ⟨h1, h2, h3, h4, h5, h6, h7, h8⟩ :=
          sleepUntil_props (c := c) (s.emit (.sched ⟨v, top.id⟩)) v h.1
        refine ⟨hb2.clock h3 h4 h5 h7 h8, h6.trans ho, h5.trans hq', h2, ?_⟩
        rw [h8]; exact ⟨hnd', by rw [hk]; simp⟩
    · simp only [hq]
      simp only [Bool.false_eq_true, if_false]
      cases hk : c.kind top.id with
      | fromNow =>
        refine Inv.drain (s := (readNow s).enqueue ⟨s.now + v, top.id⟩)
          (Base.sched _ (hb.clock (Int.le_refl _) rfl rfl rfl rfl) ?_) ho
        intro _; simp only [readNow, hr, reqStep, hk, if_true]
      | fromThis =>
        refine Inv.drain (s := s.enqueue ⟨top.tp + v, top.id⟩) (Base.sched _ hb ?_) ho
        intro hp; simp only [hr, reqStep, hk, if_true, hreq hk hp, Option.map_some]
      | to =>
        refine Inv.drain (s := s.enqueue ⟨v, top.id⟩) (Base.sched _ hb ?_) ho
        intro _; simp only [hr, reqStep, hk, if_true]

theorem Inv.deferFor {s : St} {due : Int} (hc : Base c P { s with next := s.next + 1 } [] [s.next] [])
    (hm : s.mode = .user) (hown : s.owned = false → s.queue = []) (d : Int) (hdue : due = s.now + d)
    (hr : requested c.kind s.log s.next = some due) : Inv c P (CT.deferFor c s d) := by
  subst hdue
  simp only [CT.deferFor]
  split
  · exact ⟨by simp only [hm, held, pend]; exact hc.forget.clock hc.1 rfl rfl rfl rfl, by simp only [hm]; exact hown, by simp only [hm]⟩
  split
  · rename_i ho
    have := Base.sched ⟨s.now + d, s.next⟩ (hc.clock (s' := readNow { s with next := s.next + 1 })
      (Int.le_refl _) rfl rfl rfl rfl) (fun _ => hr)
    refine ⟨?_, ?_, ?_⟩
    · simp only [St.enqueue, readNow, St.emit, hm, held, pend]; exact this.clock this.1 rfl rfl rfl rfl
    · simp only [St.enqueue, readNow, St.emit, hm]
      intro h; rw [h] at ho; simp at ho
    · simp only [St.enqueue, readNow, St.emit, hm]
  · rename_i ho
    have hq : s.queue = [] := hown (by simpa using ho)
    split
    · exact ⟨hc.clock (Int.le_refl _) rfl hq.symm rfl rfl, rfl, hr⟩
    · rename_i hk
      exact ⟨hc.clock hc.1 rfl hq.symm rfl rfl, rfl, hr, by simpa using hk⟩

theorem Inv.init : Inv c P {} := by
  refine ⟨⟨Int.le_refl _, rfl, rfl, ?_, by simp [held], by simp [held], by simp, by simp [pend], by simp, ?_⟩,
    fun _ => rfl, trivial⟩
  · intro pre ev post h; simp at h
  · intro pre ev t post h; simp at h

theorem Inv.imm {s : St} {id : Nat} {w : Wait} (h : Inv c P s) (hm : s.mode = .imm id w) :
    Inv c P (immStep c s id w) := by
  obtain ⟨hb, ho, hw⟩ := h
  simp only [hm, held, pend] at hb ho hw
  simp only [immStep]
  split
  · -- the queue is not empty
    have hgo : ∀ (s' : St) (tp : Int), Base c P s' [] [id] [] → s'.owned = true →
        requested c.kind s'.log id = some tp →
        Inv c P (if isDisposed c s' id then { s' with mode := .drain }
          else { s'.enqueue ⟨tp, id⟩ with mode := .drain }) := by
      intro s' tp hb' ho' hr'
      split
      · exact Inv.drain hb'.forget ho'
      · exact Inv.drain (Base.sched _ hb' (fun _ => hr')) ho'
    cases w with
    | till tp => exact hgo s tp hb ho hw
    | dur d => exact hgo (readNow s) _ (hb.clock (Int.le_refl _) rfl rfl rfl rfl) ho hw.1
  · rename_i hne
    have hq : s.queue = [] := by simpa using hne
    split
    · exact Inv.drain hb.forget ho
    · rename_i hnd
      have main : ∀ (s' : St) (slept : Bool) (due : Int), Base c P s' [] [id] [] → due ≤ s'.now →
          s'.queue = [] → s'.owned = true → c.hnd id ∉ s'.disposed →
          requested c.kind s'.log id = some due →
          Inv c P (if slept && isDisposed c s' id then { s' with mode := .drain }
            else match (runTask c (s'.emit (.sched ⟨due, id⟩)) ⟨due, id⟩).2 with
              | .again v => { (runTask c (s'.emit (.sched ⟨due, id⟩)) ⟨due, id⟩).1 with
                  mode := .imm id (match c.kind id with
                    | .fromThis => .till (due + v)
                    | .fromNow => .dur v
                    | .to => .till v) }
              | _ => { (runTask c (s'.emit (.sched ⟨due, id⟩)) ⟨due, id⟩).1 with mode := .drain }) := by
        intro s' slept due e1 e2 e3 e4 e5 e6
        split
        · exact Inv.drain e1.forget e4
        · have hb2 := Base.takeNow ⟨due, id⟩ e1 e3 (fun _ => e6)
          obtain ⟨t1, t2, _, t4⟩ := Base.task hb2 e4 e2 e5
          split
          · rename_i v hv
            obtain ⟨u1, u2⟩ := t4 v hv
            have hr2 : requested c.kind (s'.emit (.sched ⟨due, id⟩)).log id = some due := by
              simp only [St.emit, requested_snoc, reqStep]; exact e6
            simp only [hr2] at u2
            refine ⟨u1.clock u1.1 rfl rfl rfl rfl, t2, ?_⟩
            cases hk : c.kind id with
            | fromThis => simp only [hk]; rw [u2]; simp only [reqStep, hk, if_true, Option.map_some]
            | fromNow => simp only [hk]; rw [u2]; simp only [reqStep, hk, if_true]; exact ⟨trivial, by simp⟩
            | to => simp only [hk]; rw [u2]; simp only [reqStep, hk, if_true]
          · exact Inv.drain t1 t2
      have hnd' := not_disposed hnd
      cases w with
      | till tp =>
        obtain ⟨a1, a2, a3, a4, a5, a6, a7, a8⟩ := sleepUntil_props (c := c) s tp hb.1
        exact main _ _ _ (hb.clock a3 a4 a5 a7 a8) a2 (a5.trans hq) (a6.trans ho) (by rw [a8]; exact hnd')
          (by rw [a4]; exact hw)
      | dur d =>
        obtain ⟨a1, a2, a3, a4, a5, a6, a7, a8⟩ := sleepFor_props (c := c) s d
        exact main _ (decide (d > 0)) _ (hb.clock (by rw [a3]; exact Int.le_trans hb.1 a1) a4 a5 a7 a8) a2
          (a5.trans hq) (a6.trans ho) (by rw [a8]; exact hnd') (by rw [a4]; exact hw.1)

theorem Inv.drainStep {s : St} (h : Inv c P s) (hm : s.mode = .drain)
    (hP : ∀ top due, (CT.drainStep c s).mode = .inner top due → P top.id → c.kind top.id ≠ .fromThis) :
    Inv c P (CT.drainStep c s) := by
  obtain ⟨hb, ho, hw⟩ := h
  simp only [hm, held, pend] at hb ho hw
  simp only [CT.drainStep] at hP ⊢
  cases hq : s.queue with
  | nil => exact ⟨hb.clock hb.1 rfl hq.symm rfl rfl, fun _ => rfl, trivial⟩
  | cons top rest =>
    simp only [hq] at hP ⊢
    obtain ⟨b1, b2, b3, b4, b5, b6, b7, b8, b9, b10⟩ := hb
    rw [hq] at b3 b5 b6 b7 b8
    have hp : (rest.map (·.id) ++ [top.id]).Perm (top.id :: (rest.map (·.id) ++ [])) := by
      simpa using List.perm_append_comm (l₁ := rest.map (·.id)) (l₂ := [top.id])
    have hb' : Base c P { s with queue := rest } [] [top.id] [top] := by
      refine ⟨b1, b2, b3, b4, ?_, ?_, ?_, b8, b9, b10⟩
      · intro i hi; exact b5 i (hp.mem_iff.mp hi)
      · exact hp.nodup_iff.mpr b6
      · intro i hi; exact ⟨(b7 i hi).1, fun hm => (b7 i hi).2 (hp.mem_iff.mp hm)⟩
    split
    · obtain ⟨pre, post, hw', hpre, hpo, hr⟩ := isort_cons _ _ _ b3
      refine ⟨?_, ?_, ?_⟩
      · simp only [St.emit, hm, held, pend]
        obtain ⟨d1, d2, d3, d4, d5, d6, d7, d8, d9, d10⟩ := hb'.forget
        refine ⟨d1, ?_, ?_, d4.snoc ⟨d2, pre, post, hw', hpre, hpo⟩, d5, d6, ?_, ?_, ?_, d10.snoc (by simp)⟩
        · simp only [running_snoc]; exact d2
        · simp only [waiting_snoc, hw', erase_mid hpre]; exact hr.symm
        · intro i hi; exact d7 i (by simpa using hi)
        · intro f hf hPf; simp only [requested_snoc, reqStep]; exact d8 f (.tail _ hf) hPf
        · intro y; simp only [d9]; simp
      · simp only [St.emit, hm]; exact ho
      · simp only [St.emit, hm]
    · rename_i hnd
      simp only [hnd, Bool.false_eq_true, if_false] at hP
      have hnd' := not_disposed hnd
      obtain ⟨a1, a2, a3, a4, a5, a6, a7, a8⟩ := sleepUntil_props (c := c) { s with queue := rest } top.tp b1
      obtain ⟨t1, t2, _, t4⟩ := Base.task (hb'.clock a3 a4 a5 a7 a8) (a6.trans ho) a2
        (by rw [a8]; exact hnd')
      refine Inv.afterCall top _ t1 t2 (requested c.kind s.log top.id)
        (fun _ hPt => b8 top (by simp) hPt) ?_ (fun due => hP top due)
      intro v hv
      obtain ⟨u1, u2⟩ := t4 v hv
      refine ⟨u1, ?_⟩
      rw [u2, a4]

theorem Inv.innerStep {s : St} {top : Ent} {due : Int} (h : Inv c P s) (hm : s.mode = .inner top due)
    (hP : ∀ due', (CT.innerStep c s top due).mode = .inner top due' → P top.id → c.kind top.id ≠ .fromThis) :
    Inv c P (CT.innerStep c s top due) := by
  obtain ⟨hb, ho, hw⟩ := h
  simp only [hm, held, pend] at hb ho hw
  obtain ⟨hq, hd, hnd, hk⟩ := hw
  obtain ⟨t1, t2, _, t4⟩ := Base.task (e := ⟨due, top.id⟩) hb ho hd hnd
  simp only [CT.innerStep] at hP ⊢
  exact Inv.afterCall top _ t1 t2 (requested c.kind s.log top.id)
    (fun hk' hPt => absurd hk' (hk hPt)) (fun v hv => t4 v hv) hP

theorem Inv.step {s : St} (h : Inv c P s) (l : Lbl)
    (hP : ∀ top due, (CT.step c s l).mode = .inner top due → P top.id → c.kind top.id ≠ .fromThis) :
    Inv c P (CT.step c s l) := by
  have hcopy := h
  obtain ⟨hb, ho, hw⟩ := h
  cases hm : s.mode with
  | imm id w =>
    cases l with
    | run => simp only [CT.step, hm]; exact hcopy.imm hm
    | _ => simpa only [CT.step, hm] using hcopy
  | drain =>
    cases l with
    | run => simp only [CT.step, hm] at hP ⊢; exact hcopy.drainStep hm hP
    | _ => simpa only [CT.step, hm] using hcopy
  | inner top due =>
    cases l with
    | run => simp only [CT.step, hm] at hP ⊢; exact hcopy.innerStep hm (hP top)
    | _ => simpa only [CT.step, hm] using hcopy
  | user =>
    simp only [hm, held, pend] at hb ho hw
    cases l with
    | run => simpa only [CT.step, hm] using hcopy
    | own =>
      simp only [CT.step, hm]
      split
      · exact hcopy
      · rename_i hno
        have hq := ho (by simpa using hno)
        refine ⟨?_, ?_, ?_⟩
        · simp only [hm, held, pend]; exact hb.clock hb.1 rfl hq.symm rfl rfl
        · simp [hm]
        · simp only [hm]
    | release =>
      simp only [CT.step, hm]
      split
      · exact Inv.drain hb (by assumption)
      · exact hcopy
    | act a =>
      simp only [CT.step, hm]
      cases hown : s.owned with
      | true =>
        obtain ⟨c1, c2, c3⟩ := hb.act hown a
        rw [hm] at c3
        exact ⟨by rw [c3]; exact c1, by rw [c3]; simp [c2], by rw [c3]; trivial⟩
      | false =>
        cases a with
        | elapse d =>
          refine ⟨?_, ?_, ?_⟩
          · simp only [doAct, hm, held, pend]
            exact hb.clock (by have := hb.1; simp only []; omega) rfl rfl rfl rfl
          · simp only [doAct, hm]; exact ho
          · simp only [doAct, hm]
        | deferFor d =>
          obtain ⟨hc, hr⟩ := hb.call (s.now + d)
          exact Inv.deferFor (s := s.emit (.call s.next (s.now + d))) hc hm ho d rfl hr
        | deferTo tp =>
          obtain ⟨hc, hr⟩ := hb.call tp
          simp only [doAct, CT.deferTo]
          split
          · refine ⟨?_, ?_, ?_⟩
            · simp only [St.emit, hm, held, pend]; exact hc.forget.clock hc.1 rfl rfl rfl rfl
            · simp only [St.emit, hm]; exact ho
            · simp only [St.emit, hm]
          split
          · rename_i h'; simp only [St.emit, hown] at h'; simp at h'
          · exact Inv.deferFor (s := readNow (s.emit (.call s.next tp)))
              (hc.clock (Int.le_refl _) rfl rfl rfl rfl) hm ho _
              (due := tp) (by simp only [readNow, St.emit]; omega) hr
        | dispose x =>
          -- ownership plays no role here
          obtain ⟨c1, _, c3⟩ := Base.act (s := { s with owned := true })
            (hb.clock hb.1 rfl rfl rfl rfl) rfl (.dispose x)
          refine ⟨?_, ?_, ?_⟩
          · simp only [doAct, St.emit, hm, held, pend]; exact c1.clock c1.1 rfl rfl rfl rfl
          · simp only [doAct, St.emit, hm]; exact ho
          · simp only [doAct, St.emit, hm]

/-- `P` only selects tasks that return `delay_from_this_timepoint` if the scheduler never keeps such a task for
an immediate further call inside `drain_queue`. -/
theorem Inv.exec (ls : List Lbl)
    (hP : ∀ ls' l ls'', ls = ls' ++ l :: ls'' → ∀ top due, (CT.step c (CT.exec c ls') l).mode = .inner top due →
      P top.id → c.kind top.id ≠ .fromThis) : Inv c P (CT.exec c ls) := by
  induction ls using snoc_ind with
  | h0 => exact Inv.init
  | h1 ls l ih =>
    have h1 := ih (fun ls' l' ls'' he => hP ls' l' (ls'' ++ [l]) (by simp [he]))
    have h2 := h1.step l (hP ls l [] rfl)
    simpa only [CT.exec, List.foldl_append, List.foldl_cons, List.foldl_nil] using h2

end CT
end Rpp.Sched
