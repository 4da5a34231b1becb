import Verif.Time.DelayLog

/-!
# C36, C37: `delay` and `observe_on`

All statements are about `(exec clr d ls).log` for every schedule `ls`: every pattern of arrivals
(also concurrent ones), every interleaving with the draining tasks, every behaviour of the
scheduler that runs the tasks (early, late, never) and every passage of time.
`clr = false` is `delay(d)`, `clr = true` is `observe_on` with the delay `d`.
-/

namespace Rpp.Time.Delay
variable {α ε : Type}

/-- Items up to and including the first terminal one. -/
def upToTerm : List (Item α ε) → List (Item α ε)
  | [] => []
  | x :: r => if x.term then [x] else x :: upToTerm r

/-- Nothing is left to do: no call of the source is in progress, no task is queued or running. -/
def Quiescent (s : St α ε) : Prop :=
  (∀ i, s.calls i = .idle) ∧ ∀ t, s.tasks t = .none ∨ s.tasks t = .over

theorem filter_queued_false (l : List (Item α ε × Nat)) : l.filter (queued false) = l := by
  simp [queued]

theorem upToTerm_none (l : List (Item α ε)) (h : ∀ x ∈ l, x.term = false) : upToTerm l = l := by
  induction l with
  | nil => rfl
  | cons x l ih => simp_all [upToTerm]

theorem upToTerm_prefix (l m : List (Item α ε)) (h : ∀ x ∈ l, x.term = false) (x : Item α ε)
    (hx : x.term = true) : upToTerm (l ++ x :: m) = l ++ [x] := by
  induction l with
  | nil => simp [upToTerm, hx]
  | cons y l ih => simp_all [upToTerm]

theorem Matches.prefix {d} {as bs : List (Item α ε × Nat)} (h : Matches d as bs) :
    bs.map (·.1) <+: as.map (·.1) := by
  have hlen : bs.length ≤ as.length := by
    rcases Nat.lt_or_ge as.length bs.length with hl | hl
    · obtain ⟨a, ha, -⟩ := h as.length bs[as.length] (by simp [hl])
      simp at ha
    · exact hl
  rw [List.prefix_iff_eq_take]
  apply List.ext_getElem?
  intro k
  rw [List.getElem?_take]
  by_cases hk : k < bs.length
  · obtain ⟨a, ha, hl⟩ := h k bs[k] (by simp [hk])
    simp [hk, ha, hl.1]
  · simp [hk]

/-! ## C36 -/

/-- The `k`-th callback of the observer is the `k`-th arrival, not earlier than `d` after it. -/
theorem C36_order (d : Nat) (ls : List (Lbl α ε)) (k : Nat) (x : Item α ε) (t' : Nat)
    (h : (delivered (exec false d ls).log)[k]? = some (x, t')) :
    ∃ t, (arrivals (exec false d ls).log)[k]? = some (x, t) ∧ t + d ≤ t' := by
  obtain ⟨-, -, ⟨held, lost, hD⟩, -⟩ := all_inv false d ls
  have hm := hD.mat k (x, t') (by rw [drained, filter_queued_false]; exact h)
  obtain ⟨⟨y, t⟩, ha, h1, h2⟩ := hm
  cases h1
  exact ⟨t, ha, h2⟩

/-- A terminal event is the last thing the observer sees. -/
theorem C36_terminal_last (d : Nat) (ls : List (Lbl α ε)) (pre rest : List (Item α ε × Nat))
    (x : Item α ε) (t : Nat) (h : delivered (exec false d ls).log = pre ++ (x, t) :: rest)
    (hx : x.term = true) : rest = [] :=
  last_inv d ls pre (x, t) rest h hx

/-- The observer's callbacks never overlap. -/
theorem C36_serial (d : Nat) (ls : List (Lbl α ε)) :
    running (exec false d ls).log = 0 ∨ running (exec false d ls).log = 1 := by
  obtain ⟨-, ⟨own, ho⟩, -, ⟨a, b, w, hr⟩, -⟩ := all_inv false d ls
  have ha : a = 0 := hr.a0 fun i e hi => by
    have := ho.clrd i (by rw [hi]; rfl)
    cases this
  have hb : b = 0 ∨ b = 1 := by
    by_cases hh : ∃ t x, (exec false d ls).tasks t = .inCall x
    · obtain ⟨t, x, h⟩ := hh
      exact .inr (hr.b1 t x h)
    · exact .inl (hr.b0 fun t x h => hh ⟨t, x, h⟩)
  have := hr.run
  omega

theorem lossless (clr : Bool) (d : Nat) (ls : List (Lbl α ε))
    (hq : Quiescent (exec clr d ls)) (hg : .gone ∉ (exec clr d ls).log)
    (hl : Last (exec clr d ls).log)
    (hdr : drained clr (exec clr d ls).log = delivered (exec clr d ls).log) :
    (delivered (exec clr d ls).log).map (·.1) = upToTerm ((arrivals (exec clr d ls).log).map (·.1)) := by
  obtain ⟨-, ⟨own, ho⟩, ⟨held, lost, hD⟩, ⟨a, b, w, hr⟩, hT⟩ := all_inv clr d ls
  generalize exec clr d ls = s at *
  obtain ⟨hc, ht⟩ := hq
  have hown : own = none := by
    rcases own with _ | i | t
    · rfl
    · have := ho.ownC i rfl; rw [hc i] at this; cases this
    · have := ho.ownT t rfl; rcases ht t with h | h <;> rw [h] at this <;> cases this
  have hgone : s.log.any Ev.isGone = false := by
    rw [List.any_eq_false]
    intro e he
    cases e <;> simp [Ev.isGone]
    exact hg he
  cases hd : s.disposed
  · have hterm : anyTerm s.log = false := by
      cases hb : anyTerm s.log
      · rfl
      · rcases hT.t1 hb hd with ⟨t, h⟩ | ⟨i, h⟩
        · rcases ht t with h' | h' <;> rw [h'] at h <;> cases h
        · rw [hc i] at h; cases h
    have hheld : held = [] := hD.heldN fun t x tp h => by
      rcases ht t with h' | h' <;> rw [h'] at h <;> cases h
    have hmx : s.mutex = none := by
      rcases hm : s.mutex with _ | i
      · rfl
      · have := ho.mtx' i hm; rw [hc i] at this; cases this
    have hrest := hD.rest hd
    rw [hheld, hD.lostM hd hmx, ho.idle hown hd] at hrest
    simp only [List.append_nil, List.nil_append] at hrest
    have hlen : (arrivals s.log).length ≤ (drained clr s.log).length := by
      have := congrArg List.length hrest
      simp at this
      omega
    have hpre := hD.mat.prefix
    rw [hdr] at hpre hlen
    have heq : (delivered s.log).map (·.1) = (arrivals s.log).map (·.1) :=
      hpre.eq_of_length_le (by simpa using hlen)
    rw [← heq, upToTerm_none]
    intro x hx
    simp only [List.mem_map] at hx
    obtain ⟨b, hb, rfl⟩ := hx
    simp only [anyTerm, List.any_eq_false] at hterm
    simpa using hterm b hb
  · have hterm : anyTerm s.log = true := by
      rcases hT.t2 hd with h | h
      · exact h
      · rw [hgone] at h; cases h
    simp only [anyTerm, List.any_eq_true] at hterm
    obtain ⟨b, hb, hbt⟩ := hterm
    obtain ⟨pre, rest, hsp⟩ := List.append_of_mem hb
    have hr0 := hl pre b rest hsp hbt
    subst hr0
    have hpre := hD.mat.prefix
    rw [hdr, hsp] at hpre
    obtain ⟨more, hmore⟩ := hpre
    rw [← hmore, hsp]
    simp only [List.map_append, List.map_cons, List.map_nil, List.append_assoc, List.singleton_append]
    rw [upToTerm_prefix _ _ _ _ hbt]
    intro x hx
    simp only [List.mem_map] at hx
    obtain ⟨c, hc', rfl⟩ := hx
    cases hct : c.1.term
    · rfl
    · obtain ⟨p, q, hpq⟩ := List.append_of_mem hc'
      have := hl p c (q ++ [b]) (by rw [hsp, hpq]; simp) hct
      simp at this

/-- Nothing is lost: once nothing is left to do (and nobody disposed of the observer), everything
that arrived has been delivered, up to the first terminal event. -/
theorem C36_lossless (d : Nat) (ls : List (Lbl α ε)) (hq : Quiescent (exec false d ls))
    (hg : .gone ∉ (exec false d ls).log) :
    (delivered (exec false d ls).log).map (·.1) =
      upToTerm ((arrivals (exec false d ls).log).map (·.1)) := by
  exact lossless false d ls hq hg (last_inv d ls) (by rw [drained, filter_queued_false])

/-- The task that will drain the queue is never asked for later than the items in the queue are due. -/
structure InvW (d : Nat) (s : St α ε) : Prop where
  sorted : s.queue.Pairwise (fun a b => a.2 ≤ b.2)
  bound : ∀ b ∈ s.queue, b.2 ≤ s.now + d
  sch : ∀ i tp, s.calls i = .sched tp → tp ≤ s.now + d
  wait : ∀ t tp, s.tasks t = .waiting tp → tp ≤ s.now + d
  schq : ∀ i tp, s.calls i = .sched tp → s.disposed = false → ∀ b ∈ s.queue, tp ≤ b.2
  waitq : ∀ t tp, s.tasks t = .waiting tp → s.disposed = false → ∀ b ∈ s.queue, tp ≤ b.2

theorem InvW.tr {clr d} {s s' : St α ε} {own} (h : InvW d s) (ho : InvO clr s own)
    (t : Tr clr d s s') : InvW d s' := by
  have hidle := ho.idle
  have hina := ho.inact
  have hsch := ho.sch
  have hlive := ho.live
  obtain ⟨h1, h2, h3, h4, h5, h6⟩ := h
  cases t <;> constructor <;> simp only [List.pairwise_append, List.mem_append, List.mem_singleton] at *
  all_goals first
    | assumption
    | grind [CPc.isSched, TPc.live, List.pairwise_cons, List.Pairwise.nil]
    | (next hq hn =>
       have := h2 (_, _) (by rw [hq]; exact List.mem_cons_self)
       grind)

theorem invW (clr d) (ls : List (Lbl α ε)) : InvW d (exec clr d ls) := by
  refine (exec_induct clr d (P := fun s => InvF s ∧ (∃ own, InvO clr s own) ∧ InvW d s) ?_ ?_ ls).2.2
  · obtain ⟨h1, h2, -⟩ := all_inv (α := α) (ε := ε) clr d []
    refine ⟨h1, h2, ?_⟩
    constructor <;> simp
  · rintro s s' ⟨hf, ⟨own, ho⟩, h⟩ t
    exact ⟨hf.tr t, ho.tr hf t, h.tr ho t⟩

/-- Nothing is forgotten and nothing is late but for the scheduler: while an item that arrived at
`t` has not been delivered (and the observer is neither disposed nor terminated), the queue is being
drained, or a task for it is queued, or about to be queued, for a time not after `t + d`. -/
theorem C36_on_time (d : Nat) (ls : List (Lbl α ε)) (k : Nat) (x : Item α ε) (t : Nat)
    (h : (arrivals (exec false d ls).log)[k]? = some (x, t))
    (hk : (delivered (exec false d ls).log).length ≤ k)
    (hg : .gone ∉ (exec false d ls).log)
    (hn : ∀ y u, (y, u) ∈ delivered (exec false d ls).log → y.term = false) :
    (∃ i tp, (exec false d ls).calls i = .sched tp ∧ tp ≤ t + d) ∨
    (∃ j tp, (exec false d ls).tasks j = .waiting tp ∧ tp ≤ t + d) ∨
    (∃ j, (exec false d ls).tasks j = .loop ∨ (∃ y tp, (exec false d ls).tasks j = .hold y tp) ∨
      ∃ y, (exec false d ls).tasks j = .inCall y) := by
  obtain ⟨-, ⟨own, ho⟩, ⟨held, lost, hD⟩, -, hT⟩ := all_inv false d ls
  have hW := invW false d ls
  have hdr : drained false (exec false d ls).log = delivered (exec false d ls).log := by
    rw [drained, filter_queued_false]
  generalize exec false d ls = s at *
  have hgone : s.log.any Ev.isGone = false := by
    rw [List.any_eq_false]
    intro e he
    cases e <;> simp [Ev.isGone]
    exact hg he
  have hterm : anyTerm s.log = false := by
    simp only [anyTerm, List.any_eq_false]
    intro b hb
    simp [hn b.1 b.2 hb]
  have hd : s.disposed = false := by
    cases hd : s.disposed
    · rfl
    · rcases hT.t2 hd with h | h
      · rw [hterm] at h; cases h
      · rw [hgone] at h; cases h
  have hmx : s.mutex = none := by
    rcases hm : s.mutex with _ | i
    · rfl
    · cases ho.clrd i (ho.mtx' i hm)
  have hrest := hD.rest hd
  rw [hD.lostM hd hmx, hdr, List.nil_append] at hrest
  have hmem : (x, t + d) ∈ held ++ s.queue := by
    have h1 : ((arrivals s.log).map (due d))[k]? = some (x, t + d) := by
      simp [h, due]
    have hlen := hD.len
    rw [hdr] at hlen
    rw [hrest, List.getElem?_append_right (by simp; omega)] at h1
    exact List.mem_of_getElem? h1
  rcases own with _ | i | j
  · exfalso
    have hq := ho.idle rfl hd
    have hh : held = [] := hD.heldN fun u y tp hu => by
      have := ho.live u (by rw [hu]; rfl)
      cases this
    rw [hq, hh] at hmem
    simp at hmem
  · have hi := ho.ownC i rfl
    have hh : held = [] := hD.heldN fun u y tp hu => by
      have := ho.live u (by rw [hu]; rfl)
      cases this
    rw [hh, List.nil_append] at hmem
    cases hc : s.calls i <;> rw [hc] at hi <;> try (cases hi; done)
    next tp => exact .inl ⟨i, tp, hc, hW.schq i tp hc hd _ hmem⟩
  · have hj := ho.ownT j rfl
    cases hc : s.tasks j <;> rw [hc] at hj <;> try (cases hj; done)
    · next tp =>
      have hh : held = [] := hD.heldN fun u y up hu => by
        have := ho.hold_unique (t := u) (u := j) (by rw [hu]; rfl) (by rw [hc]; rfl)
        subst this; rw [hc] at hu; cases hu
      rw [hh, List.nil_append] at hmem
      exact .inr (.inl ⟨j, tp, hc, hW.waitq j tp hc hd _ hmem⟩)
    · exact .inr (.inr ⟨j, .inl hc⟩)
    · next y tp => exact .inr (.inr ⟨j, .inr (.inl ⟨y, tp, hc⟩)⟩)
    · next y => exact .inr (.inr ⟨j, .inr (.inr ⟨y, hc⟩)⟩)

/-! A concrete run: two values and the completion arrive at times 1, 2 and 3; the task is run too
early, too late and then to the end. -/
def demo : List (Lbl Nat Nat) :=
  [.tick 1, .arrive 0 (.val 7), .call 0, .call 0, .tick 1, .arrive 0 (.val 8), .call 0, .task 0, .task 0,
   .tick 1, .arrive 1 .done, .call 1, .tick 4, .task 0, .task 0, .task 0, .task 0, .task 0, .task 0, .task 0,
   .task 0, .tick 1, .task 0, .task 0, .task 0, .task 0, .task 0]

example : arrivals (exec false 5 demo).log = [(.val 7, 1), (.val 8, 2), (.done, 3)] ∧
    delivered (exec false 5 demo).log = [(.val 7, 7), (.val 8, 7), (.done, 8)] := by decide
example : running (exec false 5 (demo.take 16)).log = 1 ∧ .gone ∉ (exec false 5 (demo.take 16)).log ∧
    (delivered (exec false 5 (demo.take 16)).log).length ≤ 1 := by decide
/-- The hypotheses of `C36_on_time` are met by an undelivered item. -/
example : (arrivals (exec false 5 (demo.take 16)).log)[1]? = some (.val 8, 2) := by decide

theorem stepCall_other {clr d} {s : St α ε} {i j : Nat} (h : j ≠ i) :
    (stepCall clr d s i).calls j = s.calls j := by
  unfold stepCall
  split
  · rfl
  · split
    · rfl
    · split
      · simp [St.setCall, St.emit, h]
      · unfold St.emplace; dsimp only; split <;> simp [St.setCall, St.emit, h]
  · simp [St.setCall, St.setTask, h]
  · split <;> simp [St.setCall, St.emit, h]
  · simp [St.setCall, St.emit, h]

/-- The calls with numbers above all those in the schedule are idle, and so on: a finite check is
enough for `Quiescent`. -/
theorem quiet_call {clr d} (ls : List (Lbl α ε)) (n : Nat)
    (h : ∀ i x, (.arrive i x ∈ ls ∨ .call i ∈ ls) → i < n) (j : Nat) (hj : n ≤ j) :
    (exec clr d ls).calls j = .idle := by
  suffices hh : ∀ s : St α ε, s.calls j = .idle → (ls.foldl (step clr d) s).calls j = .idle from hh _ rfl
  induction ls with
  | nil => exact fun s h => h
  | cons l ls ih =>
    intro s hs
    apply ih (fun i x hi => h i x (by rcases hi with hi | hi <;> simp [hi]))
    cases l with
    | tick k => exact hs
    | dispose => exact hs
    | arrive i x =>
      have : j ≠ i := by have := h i x (by simp); omega
      simp only [step]
      split
      · split
        · exact hs
        · simp [St.setCall, this, hs]
      · exact hs
    | call i =>
      by_cases hji : j = i
      · subst hji
        simp only [step, stepCall, hs]
      · simp only [step]; rw [stepCall_other hji]; exact hs
    | task t =>
      simp only [step, stepTask]
      repeat' split
      all_goals simp [St.setTask, St.emit, hs]

/-- The demonstration run ends with nothing left to do, as `C36_lossless` requires. -/
example : Quiescent (exec false 5 demo) ∧ .gone ∉ (exec false 5 demo).log := by
  refine ⟨⟨fun i => ?_, fun t => ?_⟩, by decide⟩
  · by_cases hi : i < 2
    · have : ∀ i < 2, (exec false 5 demo).calls i = .idle := by decide
      exact this i hi
    · refine quiet_call demo 2 ?_ i (by omega)
      intro i x h
      simp only [demo, List.mem_cons, Lbl.arrive.injEq, Lbl.call.injEq, List.not_mem_nil, or_false,
        reduceCtorEq, false_or] at h
      omega
  · by_cases ht : t < 1
    · have : ∀ t < 1, (exec false 5 demo).tasks t = .none ∨ (exec false 5 demo).tasks t = .over := by decide
      exact this t ht
    · exact .inl (invF false 5 demo t (by
        have : (exec false 5 demo).fresh = 1 := by decide
        omega))

end Rpp.Time.Delay
