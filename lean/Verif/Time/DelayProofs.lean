import Verif.Time.Delay

/-!
# Invariants of `delay` / `observe_on`
-/

namespace Rpp.Time.Delay
variable {α ε : Type}

/-- Who is responsible for draining the queue: the call about to schedule, or the task. -/
inductive Who where
  | call (i : Nat)
  | task (t : Nat)
  deriving DecidableEq

/-- The transitions that change something. -/
inductive Tr (clr : Bool) (d : Nat) (s : St α ε) : St α ε → Prop
  | tick (k) : Tr clr d s { s with now := s.now + k }
  | dispose : Tr clr d s { s with disposed := true, log := s.log ++ [.gone] }
  | arrive (i x) (hi : s.calls i = .idle) (hd : s.disposed = false) :
      Tr clr d s { s with calls := fun j => if j = i then .checked x else s.calls j }
  | clear (i e) (hi : s.calls i = .checked (.err e)) (hm : s.mutex = none) (hc : clr = true) :
      Tr clr d s { s with mutex := some i, queue := [], log := s.log ++ [.failed e s.now],
                          calls := fun j => if j = i then .clearing e else s.calls j }
  | push (i x) (hi : s.calls i = .checked x) (hm : s.mutex = none)
      (hc : (clr && x.isErr) = false) (ha : s.active = true) :
      Tr clr d s { s with queue := s.queue ++ [(x, s.now + d)], log := s.log ++ [.arrived x s.now],
                          calls := fun j => if j = i then .idle else s.calls j }
  | pushSched (i x) (hi : s.calls i = .checked x) (hm : s.mutex = none)
      (hc : (clr && x.isErr) = false) (ha : s.active = false) :
      Tr clr d s { s with queue := s.queue ++ [(x, s.now + d)], log := s.log ++ [.arrived x s.now],
                          active := true,
                          calls := fun j => if j = i then .sched (s.now + d) else s.calls j }
  | sched (i tp) (hi : s.calls i = .sched tp) :
      Tr clr d s { s with fresh := s.fresh + 1,
                          tasks := fun j => if j = s.fresh then .waiting tp else s.tasks j,
                          calls := fun j => if j = i then .idle else s.calls j }
  | errDrop (i e) (hi : s.calls i = .clearing e) (hd : s.disposed = true) :
      Tr clr d s { s with mutex := none, calls := fun j => if j = i then .idle else s.calls j }
  | errBeg (i e) (hi : s.calls i = .clearing e) (hd : s.disposed = false) :
      Tr clr d s { s with log := s.log ++ [.beg (.err e) s.now],
                          calls := fun j => if j = i then .inErr e else s.calls j }
  | errFin (i e) (hi : s.calls i = .inErr e) :
      Tr clr d s { s with mutex := none, disposed := true, log := s.log ++ [.fin (.err e)],
                          calls := fun j => if j = i then .idle else s.calls j }
  | drop (t tp) (ht : s.tasks t = .waiting tp) (hd : s.disposed = true) :
      Tr clr d s { s with tasks := fun j => if j = t then .over else s.tasks j }
  | start (t tp) (ht : s.tasks t = .waiting tp) (hd : s.disposed = false) :
      Tr clr d s { s with tasks := fun j => if j = t then .loop else s.tasks j }
  | empty (t) (ht : s.tasks t = .loop) (hm : s.mutex = none) (hq : s.queue = []) :
      Tr clr d s { s with active := false, tasks := fun j => if j = t then .over else s.tasks j }
  | wait (t x tp q) (ht : s.tasks t = .loop) (hm : s.mutex = none) (hq : s.queue = (x, tp) :: q)
      (hn : s.now < tp) :
      Tr clr d s { s with tasks := fun j => if j = t then .waiting tp else s.tasks j }
  | take (t x tp q) (ht : s.tasks t = .loop) (hm : s.mutex = none) (hq : s.queue = (x, tp) :: q)
      (hn : tp ≤ s.now) :
      Tr clr d s { s with queue := q, log := s.log ++ [.took x],
                          tasks := fun j => if j = t then .hold x tp else s.tasks j }
  | skip (t x tp) (ht : s.tasks t = .hold x tp) (hd : s.disposed = true) :
      Tr clr d s { s with log := s.log ++ [.left x],
                          tasks := fun j => if j = t then .loop else s.tasks j }
  | beg (t x tp) (ht : s.tasks t = .hold x tp) (hd : s.disposed = false) :
      Tr clr d s { s with log := s.log ++ [.beg x s.now],
                          tasks := fun j => if j = t then .inCall x else s.tasks j }
  | fin (t x) (ht : s.tasks t = .inCall x) :
      Tr clr d s { s with disposed := s.disposed || x.term, log := s.log ++ [.fin x] ++ [.left x],
                          tasks := fun j => if j = t then .loop else s.tasks j }

theorem step_tr (clr : Bool) (d : Nat) (s : St α ε) (l : Lbl α ε) :
    step clr d s l = s ∨ Tr clr d s (step clr d s l) := by
  cases l with
  | tick k => exact .inr (.tick k)
  | dispose => exact .inr .dispose
  | arrive i x =>
    simp only [step]
    split
    · next h =>
      split
      · exact .inl rfl
      · next h2 => exact .inr (.arrive i x h (by simpa using h2))
    · exact .inl rfl
  | call i =>
    simp only [step, stepCall]
    split
    · exact .inl rfl
    · next x h =>
      split
      · exact .inl rfl
      · next hm =>
        split
        · exact .inr (.clear i _ h hm rfl)
        · next hne =>
          have hc : (clr && x.isErr) = false := by
            cases x <;> cases clr <;> simp_all [Item.isErr]
          simp only [St.emplace]
          split
          · next ha => exact .inr (.push i x h hm hc ha)
          · next ha => exact .inr (.pushSched i x h hm hc (by simpa using ha))
    · next h => exact .inr (.sched i _ h)
    · next e h =>
      split
      · next hd => exact .inr (.errDrop i e h hd)
      · next hd => exact .inr (.errBeg i e h (by simpa using hd))
    · next h => exact .inr (.errFin i _ h)
  | task t =>
    simp only [step, stepTask]
    split
    · exact .inl rfl
    · exact .inl rfl
    · next tp h =>
      split
      · next hd => exact .inr (.drop t tp h hd)
      · next hd => exact .inr (.start t tp h (by simpa using hd))
    · next h =>
      split
      · exact .inl rfl
      · next hm =>
        split
        · next hq => exact .inr (.empty t h hm hq)
        · next x tp q hq =>
          split
          · next hn => exact .inr (.wait t x tp q h hm hq hn)
          · next hn => exact .inr (.take t x tp q h hm hq (by omega))
    · next x tp h =>
      split
      · next hd => exact .inr (.skip t x tp h hd)
      · next hd => exact .inr (.beg t x tp h (by simpa using hd))
    · next x h => exact .inr (.fin t x h)

theorem exec_snoc (clr : Bool) (d : Nat) (ls : List (Lbl α ε)) (l : Lbl α ε) :
    exec clr d (ls ++ [l]) = step clr d (exec clr d ls) l := by
  simp [exec]

theorem exec_induct (clr : Bool) (d : Nat) {P : St α ε → Prop} (h0 : P {})
    (hs : ∀ s s', P s → Tr clr d s s' → P s') (ls : List (Lbl α ε)) : P (exec clr d ls) := by
  suffices h : ∀ s, P s → P (ls.foldl (step clr d) s) from h _ h0
  induction ls with
  | nil => exact fun s h => h
  | cons l ls ih =>
    intro s h
    apply ih
    rcases step_tr clr d s l with h1 | h1
    · rw [h1]; exact h
    · exact hs _ _ h h1

/-! ## Snoc lemmas -/

theorem arrivals_append (l m : List (Ev α ε)) : arrivals (l ++ m) = arrivals l ++ arrivals m := by
  induction l with
  | nil => rfl
  | cons e l ih => cases e <;> simp [arrivals, ih]

theorem delivered_append (l m : List (Ev α ε)) :
    delivered (l ++ m) = delivered l ++ delivered m := by
  induction l with
  | nil => rfl
  | cons e l ih => cases e <;> simp [delivered, ih]

theorem running_append (l m : List (Ev α ε)) : running (l ++ m) = running l + running m := by
  induction l with
  | nil => simp [running]
  | cons e l ih => cases e <;> simp [running, ih] <;> omega

theorem onWay_append (l m : List (Ev α ε)) : onWay (l ++ m) = onWay l + onWay m := by
  induction l with
  | nil => simp [onWay]
  | cons e l ih => cases e <;> simp [onWay, ih] <;> omega

theorem values_append (l m : List (Item α ε × Nat)) : values (l ++ m) = values l ++ values m := by
  induction l with
  | nil => rfl
  | cons e l ih => rcases e with ⟨x, t⟩; cases x <;> simp [values, ih]

/-! ## Ownership: at most one party drains -/

/-- Used in the proofs; models no code. -/
def TPc.live : TPc α ε → Bool
  | .none => false
  | .over => false
  | _ => true

/-- Used in the proofs; models no code. -/
def TPc.busy : TPc α ε → Bool
  | .hold .. => true
  | .inCall _ => true
  | _ => false

/-- A test on the constructor; models no code. -/
def CPc.isSched : CPc α ε → Bool
  | .sched _ => true
  | _ => false

/-- Used in the proofs; models no code. -/
def CPc.locks : CPc α ε → Bool
  | .clearing _ => true
  | .inErr _ => true
  | _ => false

/-- Who drains (`own`), who holds the mutex. -/
structure InvO (clr : Bool) (s : St α ε) (own : Option Who) : Prop where
  sch : ∀ i, (s.calls i).isSched = true → own = some (.call i)
  live : ∀ t, (s.tasks t).live = true → own = some (.task t)
  ownC : ∀ i, own = some (.call i) → (s.calls i).isSched = true
  ownT : ∀ t, own = some (.task t) → (s.tasks t).live = true
  inact : s.active = false → own = none
  act : s.active = true → own = none → s.disposed = true
  idle : own = none → s.disposed = false → s.queue = []
  mtx : ∀ i, (s.calls i).locks = true → s.mutex = some i
  mtx' : ∀ i, s.mutex = some i → (s.calls i).locks = true
  clrd : ∀ i, (s.calls i).locks = true → clr = true

/-- Task numbers are fresh. -/
def InvF (s : St α ε) : Prop := ∀ t, s.fresh ≤ t → s.tasks t = .none

theorem InvF.tr {clr d} {s s' : St α ε} (h : InvF s) (t : Tr clr d s s') : InvF s' := by
  unfold InvF at *
  cases t <;> simp only at * <;> grind

theorem InvO.tr {clr d} {s s' : St α ε} {own} (h : InvO clr s own) (hf : InvF s)
    (t : Tr clr d s s') : ∃ own', InvO clr s' own' := by
  have hff := hf s.fresh (Nat.le_refl _)
  obtain ⟨h1, h2, h3, h4, h5, h6, h7, h8, h9, h10⟩ := h
  cases t
  case pushSched i x hi hm hc ha =>
    refine ⟨some (.call i), ?_⟩
    constructor <;> simp only at * <;> grind [TPc.live, CPc.locks, CPc.isSched]
  case sched i tp hi =>
    refine ⟨some (.task s.fresh), ?_⟩
    constructor <;> simp only at * <;> grind [TPc.live, CPc.locks, CPc.isSched]
  case drop t tp ht hd =>
    have := h2 t (by rw [ht]; rfl)
    refine ⟨none, ?_⟩
    constructor <;> simp only at * <;> grind [TPc.live, CPc.locks, CPc.isSched]
  case empty t ht hm hq =>
    have := h2 t (by rw [ht]; rfl)
    refine ⟨none, ?_⟩
    constructor <;> simp only at * <;> grind [TPc.live, CPc.locks, CPc.isSched]
  all_goals
    refine ⟨own, ?_⟩
    constructor <;> simp only at * <;> grind [TPc.live, CPc.locks, CPc.isSched]

theorem invF (clr d) (ls : List (Lbl α ε)) : InvF (exec clr d ls) :=
  exec_induct clr d (fun _ _ => rfl) (fun _ _ h t => h.tr t) ls

theorem invO (clr d) (ls : List (Lbl α ε)) : ∃ own, InvO clr (exec clr d ls) own := by
  refine (exec_induct clr d (P := fun s => InvF s ∧ ∃ own, InvO clr s own) ?_ ?_ ls).2
  · refine ⟨fun _ _ => rfl, none, ?_⟩
    constructor <;> simp [TPc.live, CPc.locks, CPc.isSched]
  · rintro s s' ⟨hf, own, h⟩ t
    exact ⟨hf.tr t, h.tr hf t⟩

/-! ## Data: what was delivered is the front of what arrived -/

/-- Events that go through the queue. -/
def queued (clr : Bool) (b : Item α ε × Nat) : Bool := !(clr && b.1.isErr)

/-- The callbacks made by the draining task. -/
def drained (clr : Bool) (log : List (Ev α ε)) : List (Item α ε × Nat) :=
  (delivered log).filter (queued clr)

/-- When an arrival is due. -/
def due (d : Nat) (a : Item α ε × Nat) : Item α ε × Nat := (a.1, a.2 + d)

/-- `b` is the delivery of the arrival `a`, not before it was due. -/
def Late (d : Nat) (a b : Item α ε × Nat) : Prop := a.1 = b.1 ∧ a.2 + d ≤ b.2

/-- Every delivery matches the arrival at the same place. -/
def Matches (d : Nat) (as bs : List (Item α ε × Nat)) : Prop :=
  ∀ (k : Nat) b, bs[k]? = some b → ∃ a, as[k]? = some a ∧ Late d a b

theorem Matches.mono {d} {as bs : List (Item α ε × Nat)} (h : Matches d as bs) (a) :
    Matches d (as ++ [a]) bs := by
  intro k b hb
  obtain ⟨a', ha, hl⟩ := h k b hb
  exact ⟨a', by rw [List.getElem?_append_left (by grind)]; exact ha, hl⟩

theorem Matches.snoc {d} {as bs : List (Item α ε × Nat)} (h : Matches d as bs) (b a)
    (ha : as[bs.length]? = some a) (hl : Late d a b) : Matches d as (bs ++ [b]) := by
  intro k b' hb
  by_cases hk : k < bs.length
  · exact h k b' (by rw [List.getElem?_append_left hk] at hb; exact hb)
  · have : k = bs.length := by
      have := (List.getElem?_eq_some_iff.mp hb).1
      simp at this; omega
    subst this
    simp at hb
    subst hb
    exact ⟨a, ha, hl⟩

/-- `held`: the item the task took out of the queue and has not begun to deliver; `lost`: what
`ClearOnError` threw away. -/
structure InvD (clr : Bool) (d : Nat) (s : St α ε) (held lost : List (Item α ε × Nat)) : Prop where
  mat : Matches d (arrivals s.log) (drained clr s.log)
  rest : s.disposed = false →
    (arrivals s.log).map (due d) =
      ((arrivals s.log).take (drained clr s.log).length).map (due d) ++ (held ++ (lost ++ s.queue))
  len : (drained clr s.log).length ≤ (arrivals s.log).length
  heldT : ∀ t x tp, s.tasks t = .hold x tp → s.disposed = false → held = [(x, tp)]
  heldN : (∀ t x tp, s.tasks t ≠ .hold x tp) → held = []
  ripe : ∀ b ∈ held, b.2 ≤ s.now
  lostM : s.disposed = false → s.mutex = none → lost = []
  nerr : ∀ b ∈ held ++ s.queue, queued clr b = true

theorem drained_append (clr) (l m : List (Ev α ε)) :
    drained clr (l ++ m) = drained clr l ++ drained clr m := by
  simp [drained, delivered_append]

theorem drained_beg (clr) (x : Item α ε) (t) (h : queued clr (x, t) = true) :
    drained clr [.beg x t] = [(x, t)] := by
  simp [drained, delivered, h]

theorem drained_err (e : ε) (t) : drained (α := α) true [.beg (.err e) t] = [] := by
  simp [drained, delivered, queued, Item.isErr]

theorem drained_arrived (clr) (x : Item α ε) (t) : drained clr [.arrived x t] = [] := rfl
theorem drained_failed (clr) (e : ε) (t) : drained (α := α) clr [.failed e t] = [] := rfl
theorem drained_took (clr) (x : Item α ε) : drained clr [.took x] = [] := rfl
theorem drained_left (clr) (x : Item α ε) : drained clr [.left x] = [] := rfl
theorem drained_fin (clr) (x : Item α ε) : drained clr [.fin x] = [] := rfl
theorem drained_gone (clr) : drained (α := α) (ε := ε) clr [.gone] = [] := rfl

theorem InvO.hold_unique {clr} {s : St α ε} {own} (ho : InvO clr s own) {t u}
    (ht : (s.tasks t).live = true) (hu : (s.tasks u).live = true) : t = u := by
  have := ho.live t ht
  have := ho.live u hu
  grind

theorem InvD.tr {clr d} {s s' : St α ε} {own held lost} (h : InvD clr d s held lost)
    (ho : InvO clr s own) (hf : InvF s) (t : Tr clr d s s') :
    ∃ held' lost', InvD clr d s' held' lost' := by
  have hff := hf s.fresh (Nat.le_refl _)
  obtain ⟨h1, h2, h3, h4, h5, h6, h7, h8⟩ := h
  cases t
  case tick k =>
    exact ⟨held, lost, h1, h2, h3, h4, h5,
      fun b hb => Nat.le_trans (h6 b hb) (Nat.le_add_right ..), h7, h8⟩
  case push i x hi hm hc ha =>
    refine ⟨held, lost, ?_, ?_, ?_, h4, h5, h6, h7, ?_⟩
    all_goals simp only [drained_append, drained_arrived, List.append_nil, arrivals_append]
    · exact h1.mono _
    · intro hd
      rw [List.map_append, h2 hd, List.take_append_of_le_length h3]
      simp [arrivals, due]
    · simp; omega
    · intro b hb
      simp only [List.mem_append, List.mem_singleton] at hb h8
      grind [queued]
  case pushSched i x hi hm hc ha =>
    refine ⟨held, lost, ?_, ?_, ?_, h4, h5, h6, h7, ?_⟩
    all_goals simp only [drained_append, drained_arrived, List.append_nil, arrivals_append]
    · exact h1.mono _
    · intro hd
      rw [List.map_append, h2 hd, List.take_append_of_le_length h3]
      simp [arrivals, due]
    · simp; omega
    · intro b hb
      simp only [List.mem_append, List.mem_singleton] at hb h8
      grind [queued]
  case clear i e hi hm hc =>
    refine ⟨held, lost ++ s.queue, ?_, ?_, ?_, h4, h5, h6, ?_, ?_⟩
    all_goals simp only [drained_append, drained_failed, List.append_nil, arrivals_append, arrivals]
    · exact h1
    · simpa using h2
    · exact h3
    · simp
    · grind
  case errBeg i e hi hd =>
    have hc : clr = true := ho.clrd i (by rw [hi]; rfl)
    subst hc
    refine ⟨held, lost, ?_, ?_, ?_, h4, h5, h6, h7, h8⟩
    all_goals simp only [drained_append, drained_err, List.append_nil, arrivals_append, arrivals]
    · exact h1
    · exact h2
    · exact h3
  case take t x tp q ht hm hq hn =>
    have hno : ∀ u y up, s.tasks u ≠ .hold y up := by
      intro u y up hu
      have := ho.hold_unique (t := t) (u := u) (by rw [ht]; rfl) (by rw [hu]; rfl)
      subst this; rw [ht] at hu; cases hu
    have hh := h5 hno
    subst hh
    refine ⟨[(x, tp)], lost, ?_, ?_, ?_, ?_, ?_, ?_, h7, ?_⟩
    all_goals simp only [drained_append, drained_took, List.append_nil, arrivals_append, arrivals]
    · exact h1
    · intro hd
      rw [h7 hd hm]
      have := h2 hd
      rw [h7 hd hm, hq] at this
      simpa using this
    · exact h3
    · intro u y up hu hd
      grind
    · intro hu; exact absurd (by simp) (hu t x tp)
    · simpa using hn
    · rw [hq] at h8; simpa using h8
  case skip t x tp ht hd =>
    refine ⟨[], lost, ?_, ?_, ?_, ?_, ?_, ?_, h7, ?_⟩
    all_goals simp only [drained_append, drained_left, List.append_nil, arrivals_append, arrivals]
    · exact h1
    · simp [hd]
    · exact h3
    · simp [hd]
    · simp
    · simp
    · grind
  case beg t x tp ht hd =>
    have hh := h4 t x tp ht hd
    subst hh
    have hq : queued clr (x, s.now) = true := by
      have := h8 (x, tp) (by simp)
      simpa [queued] using this
    have hr := h2 hd
    have hget : ∃ a, (arrivals s.log)[(drained clr s.log).length]? = some a ∧ due d a = (x, tp) := by
      have hk : ((arrivals s.log).map (due d))[(drained clr s.log).length]? = some (x, tp) := by
        rw [hr, List.getElem?_append_right (by simp; omega)]
        simp [Nat.min_eq_left h3]
      simpa [List.getElem?_map] using hk
    obtain ⟨a, ha, hda⟩ := hget
    have hlt := (List.getElem?_eq_some_iff.mp ha).1
    refine ⟨[], lost, ?_, ?_, ?_, ?_, ?_, ?_, h7, ?_⟩
    all_goals simp only [drained_append, drained_beg _ _ _ hq, List.append_nil, arrivals_append, arrivals]
    · refine h1.snoc _ a ha ?_
      have := h6 (x, tp) (by simp)
      simp only [due, Prod.mk.injEq] at hda
      exact ⟨hda.1, by simp only at this ⊢; omega⟩
    · intro _
      rw [hr, List.length_append, List.length_singleton, List.take_succ, ha]
      simp [hda]
    · simp; omega
    · intro u y up hu _
      by_cases hut : u = t
      · simp [hut] at hu
      · simp only [hut, if_false] at hu
        exact absurd (ho.hold_unique (t := u) (u := t) (by rw [hu]; rfl) (by rw [ht]; rfl)) hut
    · simp
    · simp
    · grind
  all_goals
    refine ⟨held, lost, ?_, ?_, ?_, ?_, ?_, h6, ?_, h8⟩
    all_goals simp only [drained_append, drained_left, drained_fin, drained_gone, List.append_nil, arrivals_append, arrivals]
    all_goals first | assumption | skip
    all_goals grind

theorem invD (clr d) (ls : List (Lbl α ε)) :
    InvF (exec clr d ls) ∧ (∃ own, InvO clr (exec clr d ls) own) ∧
    ∃ held lost, InvD clr d (exec clr d ls) held lost := by
  refine exec_induct clr d (P := fun s => InvF s ∧ (∃ own, InvO clr s own) ∧
    ∃ held lost, InvD clr d s held lost) ?_ ?_ ls
  · refine ⟨fun _ _ => rfl, ⟨none, ?_⟩, [], [], ?_⟩
    · constructor <;> simp [TPc.live, CPc.locks, CPc.isSched]
    · constructor <;> simp [arrivals, drained, delivered, Matches]
  · rintro s s' ⟨hf, ⟨own, ho⟩, held, lost, h⟩ t
    exact ⟨hf.tr t, ho.tr hf t, h.tr ho hf t⟩

/-! ## Counting callbacks in progress -/

/-- Callbacks in progress, split into that of the call holding the mutex (`a`) and that of the
draining task (`b`); `w`: the draining task is between `took` and `left`. -/
structure InvR (clr : Bool) (s : St α ε) (a b w : Int) : Prop where
  run : running s.log = a + b
  way : onWay s.log = w
  a0 : (∀ i e, s.calls i ≠ .inErr e) → a = 0
  a1 : ∀ i e, s.calls i = .inErr e → a = 1
  b0 : (∀ t x, s.tasks t ≠ .inCall x) → b = 0
  b1 : ∀ t x, s.tasks t = .inCall x → b = 1
  w0 : (∀ t, (s.tasks t).busy = false) → w = 0
  w1 : ∀ t, (s.tasks t).busy = true → w = 1

theorem TPc.busy_live {p : TPc α ε} (h : p.busy = true) : p.live = true := by
  cases p <;> simp_all [TPc.busy, TPc.live]

theorem InvR.tr {clr d} {s s' : St α ε} {own a b w} (h : InvR clr s a b w)
    (ho : InvO clr s own) (hf : InvF s) (t : Tr clr d s s') :
    ∃ a' b' w', InvR clr s' a' b' w' := by
  have hff := hf s.fresh (Nat.le_refl _)
  have huniq : ∀ t u, (s.tasks t).live = true → (s.tasks u).live = true → t = u :=
    fun t u h1 h2 => ho.hold_unique h1 h2
  have hlock : ∀ i j, (s.calls i).locks = true → (s.calls j).locks = true → i = j := by
    intro i j h1 h2
    have h1 := ho.mtx i h1
    have h2 := ho.mtx j h2
    grind
  obtain ⟨h1, h2, h3, h4, h5, h6, h7, h8⟩ := h
  cases t
  case errBeg i e hi hd =>
    have ha : a = 0 := h3 fun j e' hj => by
      have := hlock i j (by rw [hi]; rfl) (by rw [hj]; rfl)
      subst this; rw [hi] at hj; cases hj
    refine ⟨1, b, w, ?_⟩
    constructor <;> simp only [running_append, onWay_append, running, onWay] at *
    all_goals first | assumption | omega | (intros; trivial) | skip
    intro hh; exact absurd (by simp) (hh i e)
  case errFin i e hi =>
    have ha : a = 1 := h4 i e hi
    refine ⟨0, b, w, ?_⟩
    constructor <;> simp only [running_append, onWay_append, running, onWay] at *
    all_goals first | assumption | omega | (intros; trivial) | skip
    · intro j e' hj
      by_cases hij : j = i
      · simp [hij] at hj
      · simp only [hij, if_false] at hj
        exact absurd (hlock j i (by rw [hj]; rfl) (by rw [hi]; rfl)) hij
  case beg t x tp ht hd =>
    have hb : b = 0 := h5 fun u y hu => by
      have := huniq t u (by rw [ht]; rfl) (by rw [hu]; rfl)
      subst this; rw [ht] at hu; cases hu
    have hw : w = 1 := h8 t (by rw [ht]; rfl)
    refine ⟨a, 1, 1, ?_⟩
    constructor <;> simp only [running_append, onWay_append, running, onWay] at *
    all_goals first | assumption | omega | (intros; trivial) | skip
    · intro hh; exact absurd (by simp) (hh t x)
    · intro hh; have := hh t; simp [TPc.busy] at this
  case fin t x ht =>
    have hb : b = 1 := h6 t x ht
    have hw : w = 1 := h8 t (by rw [ht]; rfl)
    refine ⟨a, 0, 0, ?_⟩
    constructor <;> simp only [running_append, onWay_append, running, onWay] at *
    all_goals first | assumption | omega | (intros; trivial) | skip
    · intro u y hu
      by_cases hut : u = t
      · simp [hut] at hu
      · simp only [hut, if_false] at hu
        exact absurd (huniq u t (by rw [hu]; rfl) (by rw [ht]; rfl)) hut
    · intro u hu
      by_cases hut : u = t
      · simp [hut, TPc.busy] at hu
      · simp only [hut, if_false] at hu
        exact absurd (huniq u t (TPc.busy_live hu) (by rw [ht]; rfl)) hut
  case take t x tp q ht hm hq hn =>
    have hw : w = 0 := h7 fun u => by
      cases hb : (s.tasks u).busy
      · rfl
      · have := huniq t u (by rw [ht]; rfl) (TPc.busy_live hb)
        subst this; rw [ht] at hb; cases hb
    refine ⟨a, b, 1, ?_⟩
    constructor <;> simp only [running_append, onWay_append, running, onWay] at *
    all_goals first | assumption | omega | (intros; trivial) | skip
    · intro hh; apply h5; intro u y hu; have := hh u y; grind
    · intro u y hu; apply h6 u y; grind
    · intro hh; have := hh t; simp [TPc.busy] at this
  case skip t x tp ht hd =>
    have hw : w = 1 := h8 t (by rw [ht]; rfl)
    refine ⟨a, b, 0, ?_⟩
    constructor <;> simp only [running_append, onWay_append, running, onWay] at *
    all_goals first | assumption | omega | (intros; trivial) | skip
    · intro hh; apply h5; intro u y hu; have := hh u y; grind
    · intro u y hu; apply h6 u y; grind
    · intro u hu
      by_cases hut : u = t
      · simp [hut, TPc.busy] at hu
      · simp only [hut, if_false] at hu
        exact absurd (huniq u t (TPc.busy_live hu) (by rw [ht]; rfl)) hut
  all_goals
    refine ⟨a, b, w, ?_⟩
    constructor <;> simp only [running_append, onWay_append, running, onWay] at *
    all_goals first | assumption | omega | (intros; trivial) | skip
    all_goals first
      | (intro hh; apply h3; intro j e' hj; have := hh j e'; grind)
      | (intro hh; apply h5; intro u y hu; have := hh u y; grind)
      | (intro hh; apply h7; intro u; have := hh u; grind [TPc.busy])
      | grind [TPc.busy]

end Rpp.Time.Delay
