import Verif.Scheduler.CurrentThreadProofs

/-!
# `merge_with` of sources on `current_thread`

`merge_with_t::subscribe` (operators/merge.hpp 166-177) takes the queue of `current_thread`, subscribes to the sources
one after the other - each of them schedules its first run (sources/from.hpp 121-122) -, and drains the queue
when it returns.  Each run of a `from_iterable_schedulable` (sources/from.hpp 50-80) gives one value to the merge
observer, which forwards it at once (merge.hpp 107-110), and asks to be run again unless that was the last value.
The scheduler is `Verif.Scheduler.CurrentThread`.
-/

namespace Rpp.RoundRobin
open Rpp.Sched Rpp.Sched.CT

variable {α : Type}

/-- The world in which source `i` is a `from_iterable` over the container `srcs[i]` on `current_thread`: its task
number is `i` (subscribed in this order), its `n`-th run gives the `n`-th value downstream - which takes some time - and
returns `delay_from_now{}` unless it was the last one (sources/from.hpp 62-72).  Nobody disposes the subscription. -/
structure Emits (c : Cfg) (srcs : List (List α)) : Prop where
  kind : ∀ i, c.kind i = .fromNow
  acts : ∀ i n, ∀ a ∈ (c.body i n).1, ∃ d, a = .elapse d
  res : ∀ i n, (c.body i n).2 = if n + 1 < (srcs.getD i []).length then .again 0 else .stop
  alive : ∀ h, c.ext h = none

/-- `merge_with_t::subscribe` (merge.hpp 166-177): own the queue, subscribe to every source - before that, `g` units
of time pass -, leave. -/
def subscribe (gaps : List Nat) : List Lbl :=
  .own :: gaps.flatMap (fun g => [.act (.elapse g), .act (.deferFor 0)]) ++ [.release]

/-- How often task `i` has been run. -/
def runsOf (i : Nat) (log : List Ev) : Nat :=
  log.countP (fun ev => match ev with | .start e _ => e.id = i | _ => false)

/-- What an event gives to the merged observer when `before` happened before: the `n`-th run of source `i` gives its `n`-th
value (if there is one: an empty source just completes). -/
def gives (srcs : List (List α)) (before : List Ev) : Ev → List α
  | .start e _ => ((srcs.getD e.id [])[runsOf e.id before]?).toList
  | _ => []

/-- Read off the state or the log, for statements and proofs; no counterpart in /repo. -/
def mergedFrom (srcs : List (List α)) (before : List Ev) : List Ev → List α
  | [] => []
  | ev :: log => gives srcs before ev ++ mergedFrom srcs (before ++ [ev]) log

/-- The values the merged observer got. -/
def merged (srcs : List (List α)) (log : List Ev) : List α := mergedFrom srcs [] log

/-! ## Specification -/

/-- Round robin: the first values of all sources in order of the sources, then the second values, … -/
def roundRobin (srcs : List (List α)) : List α :=
  (List.range ((srcs.map List.length).foldr max 0)).flatMap (fun r => srcs.filterMap (fun l => l[r]?))

/-! ## First come, first served is round robin -/

/-- A queue of what the sources still have. -/
structure Fifo (α : Type) where
  queue : List (Nat × List α)
  out : List α

/-- One step; the single cases cite the lines of sources/from.hpp 50-122, schedulers/details/queue.hpp they model. -/
def Fifo.step (f : Fifo α) : Fifo α :=
  match f.queue with
  | [] => f
  | (_, []) :: q => { queue := q, out := f.out }
  | (_, [a]) :: q => { queue := q, out := f.out ++ [a] }
  | (i, a :: b :: l) :: q => { queue := q ++ [(i, b :: l)], out := f.out ++ [a] }

/-- Read off the state or the log, for statements and proofs; no counterpart in /repo. -/
def maxLen (srcs : List (List α)) : Nat := (srcs.map List.length).foldr max 0

theorem maxLen_tails (srcs : List (List α)) : maxLen (srcs.map List.tail) = maxLen srcs - 1 := by
  induction srcs with
  | nil => rfl
  | cons l srcs ih => simp only [maxLen, List.map_cons, List.foldr_cons, List.length_tail] at *; omega

theorem maxLen_zero {srcs : List (List α)} (h : maxLen srcs = 0) : ∀ l ∈ srcs, l = [] := by
  induction srcs with
  | nil => intro l hl; cases hl
  | cons a srcs ih =>
    simp only [maxLen, List.map_cons, List.foldr_cons] at h ih
    intro l hl
    rcases List.mem_cons.1 hl with rfl | hl
    · exact List.eq_nil_of_length_eq_zero (by omega)
    · exact ih (by omega) l hl

theorem roundRobin_eq (srcs : List (List α)) :
    roundRobin srcs = srcs.filterMap List.head? ++ roundRobin (srcs.map List.tail) := by
  have ht := maxLen_tails srcs
  have e1 : roundRobin srcs = (List.range (maxLen srcs)).flatMap (fun r => srcs.filterMap (fun l => l[r]?)) := rfl
  have e2 : roundRobin (srcs.map List.tail) = (List.range (maxLen srcs - 1)).flatMap
      (fun r => srcs.filterMap (fun l => l[r + 1]?)) := by
    show (List.range (maxLen (srcs.map List.tail))).flatMap _ = _
    rw [ht]
    congr 1
    funext r
    rw [List.filterMap_map]
    congr 1
    funext l
    simp
  rw [e1, e2]
  cases hm : maxLen srcs with
  | zero =>
    have := maxLen_zero hm
    have : srcs.filterMap List.head? = [] := by
      rw [List.filterMap_eq_nil_iff]
      intro l hl; rw [this l hl]; rfl
    simp [this]
  | succ m =>
    rw [List.range_succ_eq_map, List.flatMap_cons, List.flatMap_map]
    congr 1
    congr 1
    funext l
    cases l <;> rfl

/-- Empty sources do not matter. -/
theorem roundRobin_nonempty (srcs : List (List α)) :
    roundRobin (srcs.filter (fun l => !l.isEmpty)) = roundRobin srcs := by
  have h1 : maxLen (srcs.filter (fun l => !l.isEmpty)) = maxLen srcs := by
    induction srcs with
    | nil => rfl
    | cons l srcs ih =>
      cases l with
      | nil => simpa [maxLen] using ih
      | cons a l => simp only [maxLen, List.isEmpty_cons, Bool.not_false, List.filter_cons_of_pos, List.map_cons,
          List.foldr_cons] at *; rw [ih]
  show (List.range (maxLen _)).flatMap _ = (List.range (maxLen srcs)).flatMap _
  rw [h1]
  congr 1
  funext r
  rw [List.filterMap_filter]
  congr 1
  funext l
  cases l <;> simp

theorem roundRobin_skip (xs ys : List (List α)) : roundRobin (xs ++ [] :: ys) = roundRobin (xs ++ ys) := by
  rw [← roundRobin_nonempty, ← roundRobin_nonempty (xs ++ ys)]
  simp

/-- What is still to come when the lists `xs` have not had their turn in this round and `ys` have. -/
def remaining (xs ys : List (List α)) : List α := xs.filterMap List.head? ++ roundRobin (ys ++ xs.map List.tail)

theorem remaining_nil (ys : List (List α)) : remaining [] ys = remaining ys [] := by
  simp only [remaining, List.filterMap_nil, List.map_nil, List.append_nil, List.nil_append]
  exact roundRobin_eq ys

/-- What the logs satisfy (for the proofs); models no code. -/
def Fifo.Ok (all : List α) (f : Fifo α) : Prop :=
  ∃ xs ys, f.queue.map Prod.snd = xs ++ ys ∧ f.out ++ remaining xs ys = all

theorem Fifo.Ok.init (srcs : List (Nat × List α)) : Fifo.Ok (roundRobin (srcs.map Prod.snd)) { queue := srcs, out := [] } :=
  ⟨srcs.map Prod.snd, [], by simp, by rw [roundRobin_eq]; simp [remaining]⟩

theorem Fifo.Ok.step_cons {all : List α} {f : Fifo α} {x xs ys}
    (hq : f.queue.map Prod.snd = (x :: xs) ++ ys) (ho : f.out ++ remaining (x :: xs) ys = all) :
    Fifo.Ok all f.step := by
  obtain ⟨q, out⟩ := f
  cases q with
  | nil => simp at hq
  | cons e q =>
    obtain ⟨i, l⟩ := e
    simp only [List.map_cons, List.cons_append, List.cons.injEq] at hq
    obtain ⟨rfl, hq⟩ := hq
    match l with
    | [] =>
      refine ⟨xs, ys, hq, ?_⟩
      rw [← ho]
      simp only [remaining, Fifo.step, List.map_cons, List.tail_nil, roundRobin_skip]
      rfl
    | [a] =>
      refine ⟨xs, ys, hq, ?_⟩
      rw [← ho]
      simp [remaining, Fifo.step, roundRobin_skip]
    | a :: b :: l =>
      refine ⟨xs, ys ++ [b :: l], by simp [Fifo.step, hq], ?_⟩
      rw [← ho]
      simp [remaining, Fifo.step]

theorem Fifo.Ok.step {all : List α} {f : Fifo α} (h : f.Ok all) : f.step.Ok all := by
  obtain ⟨xs, ys, hq, ho⟩ := h
  cases xs with
  | cons x xs => exact Fifo.Ok.step_cons hq ho
  | nil =>
    cases ys with
    | nil =>
      have : f.queue = [] := by simpa using hq
      exact ⟨[], [], by simp [Fifo.step, this], by simpa [Fifo.step, this] using ho⟩
    | cons y ys => exact Fifo.Ok.step_cons (xs := ys) (ys := []) (by simpa using hq) (by rw [← remaining_nil]; exact ho)

theorem Fifo.Ok.prefix {all : List α} {f : Fifo α} (h : f.Ok all) : f.out <+: all := by
  obtain ⟨xs, ys, _, ho⟩ := h
  exact ⟨_, ho⟩

theorem Fifo.Ok.final {all : List α} {f : Fifo α} (h : f.Ok all) (hq : f.queue = []) : f.out = all := by
  obtain ⟨xs, ys, h1, ho⟩ := h
  rw [hq] at h1
  have : xs = [] ∧ ys = [] := by simpa using h1.symm
  obtain ⟨rfl, rfl⟩ := this
  rw [← ho]; simp [remaining, roundRobin]

/-- Runs still needed. -/
def Fifo.work (f : Fifo α) : Nat := (f.queue.map (fun e => max 1 e.2.length)).sum

theorem Fifo.work_step (f : Fifo α) : f.step.work = f.work - 1 := by
  obtain ⟨q, out⟩ := f
  cases q with
  | nil => rfl
  | cons e q =>
    obtain ⟨i, l⟩ := e
    match l with
    | [] => simp [Fifo.step, Fifo.work]
    | [a] => simp [Fifo.step, Fifo.work]
    | a :: b :: l =>
      simp only [Fifo.step, Fifo.work, List.map_append, List.map_cons, List.map_nil, List.sum_append, List.sum_cons,
        List.sum_nil, List.length_cons]
      omega

theorem Fifo.work_zero {f : Fifo α} (h : f.work = 0) : f.queue = [] := by
  obtain ⟨q, out⟩ := f
  cases q with
  | nil => rfl
  | cons e q => simp only [Fifo.work, List.map_cons, List.sum_cons] at h; omega

/-! ## The scheduler serves first come, first served -/

theorem runsOf_snoc (i : Nat) (log : List Ev) (ev : Ev) : runsOf i (log ++ [ev]) =
    runsOf i log + (match ev with | .start e _ => if e.id = i then 1 else 0 | _ => 0) := by
  cases ev <;> simp [runsOf, List.countP_append, List.countP_cons]

theorem mergedFrom_snoc (srcs : List (List α)) (log : List Ev) (ev : Ev) : ∀ before,
    mergedFrom srcs before (log ++ [ev]) = mergedFrom srcs before log ++ gives srcs (before ++ log) ev := by
  induction log with
  | nil => intro b; simp [mergedFrom]
  | cons x log ih => intro b; simp [mergedFrom, ih]

theorem merged_snoc (srcs : List (List α)) (log : List Ev) (ev : Ev) :
    merged srcs (log ++ [ev]) = merged srcs log ++ gives srcs log ev := by
  simp [merged, mergedFrom_snoc]

/-- `emplace` of the latest time puts the entry last. -/
theorem emplace_last (q : List Ent) (e : Ent) (h : ∀ f ∈ q, f.tp ≤ e.tp) : emplace q e = q ++ [e] := by
  rw [emplace_eq_insertAfter]
  induction q with
  | nil => rfl
  | cons f q ih =>
    have := h f (by simp)
    rw [insertAfter, if_neg (by omega), ih (fun g hg => h g (by simp [hg]))]
    rfl

theorem elapse_acts {c : Cfg} (as : List Act) (h : ∀ a ∈ as, ∃ d, a = .elapse d) : ∀ s : St,
    ∃ t : Int, s.now ≤ t ∧ as.foldl (doAct c) s = { s with now := t } := by
  induction as with
  | nil => intro s; exact ⟨s.now, Int.le_refl _, rfl⟩
  | cons a as ih =>
    intro s
    obtain ⟨d, rfl⟩ := h a (by simp)
    obtain ⟨t, ht, he⟩ := ih (fun a ha => h a (by simp [ha])) (doAct c s (.elapse d))
    refine ⟨t, ?_, by rw [List.foldl_cons, he]; rfl⟩
    simp only [doAct] at ht; omega

/-- Where the scheduler is, given the abstract queue. -/
inductive At (s : St) (q : List (Nat × List α)) : Prop
  | drain (hm : s.mode = .drain) (ho : s.owned = true) (hq : s.queue.map Ent.id = q.map Prod.fst)
  | inner (top : Ent) (due : Int) (l : List α) (hm : s.mode = .inner top due) (ho : s.owned = true) (hs : s.queue = [])
      (hq : q = [(top.id, l)])
  | done (hm : s.mode = .user) (ho : s.owned = false) (hs : s.queue = []) (hq : q = [])

/-- Read off the state or the log, for statements and proofs; no counterpart in /repo. -/
structure Sim (srcs : List (List α)) (s : St) (f : Fifo α) : Prop where
  atq : At s f.queue
  past : ∀ e ∈ s.queue, e.tp ≤ s.now
  last : s.last ≤ s.now
  disp : s.disposed = []
  nodup : (f.queue.map Prod.fst).Nodup
  rest : ∀ i l, (i, l) ∈ f.queue → l = (srcs.getD i []).drop (s.inv i)
  runs : ∀ i, runsOf i s.log = s.inv i
  out : merged srcs s.log = f.out

variable {c : Cfg} {srcs : List (List α)}

theorem not_disposed (hc : Emits c srcs) {s : St} (h : s.disposed = []) (id : Nat) : isDisposed c s id = false := by
  simp [isDisposed, h, hc.alive]

theorem run_facts (hc : Emits c srcs) (s : St) (e : Ent) :
    ∃ t : Int, s.now ≤ t ∧ runTask c s e =
      ({ s with
          now := t
          inv := fun i => if i = e.id then s.inv e.id + 1 else s.inv i
          log := s.log ++ [.start e s.now] ++ [.fin e.id t (c.body e.id (s.inv e.id)).2] },
        (c.body e.id (s.inv e.id)).2) := by
  obtain ⟨t, ht, he⟩ := elapse_acts (c := c) _ (hc.acts e.id (s.inv e.id))
    ({ s with inv := fun i => if i = e.id then s.inv e.id + 1 else s.inv i }.emit (.start e s.now))
  refine ⟨t, ht, ?_⟩
  simp only [runTask]
  rw [he]
  have hr := hc.res e.id (s.inv e.id)
  cases hb : (c.body e.id (s.inv e.id)).2 with
  | stop => simp [St.emit]
  | again v => simp [St.emit]
  | throw => rw [hb] at hr; split at hr <;> cases hr

theorem sleepFor_zero (s : St) : sleepFor c s 0 = s := rfl

set_option maxHeartbeats 1000000 in
/-- One run of the task at the head of the queue. -/
theorem Sim.serve (hc : Emits c srcs) {s : St} {f : Fifo α} {i : Nat} {l : List α} {q} (e : Ent) (top : Ent)
    (hf : f.queue = (i, l) :: q) (hid : e.id = i) (htop : top.id = i)
    (ho : s.owned = true) (hq : s.queue.map Ent.id = q.map Prod.fst)
    (past : ∀ e ∈ s.queue, e.tp ≤ s.now) (last : s.last ≤ s.now) (disp : s.disposed = [])
    (nodup : (f.queue.map Prod.fst).Nodup)
    (rest : ∀ i l, (i, l) ∈ f.queue → l = (srcs.getD i []).drop (s.inv i))
    (runs : ∀ i, runsOf i s.log = s.inv i) (out : merged srcs s.log = f.out) :
    Sim srcs (afterCall c (runTask c s e).1 top (runTask c s e).2) f.step := by
  obtain ⟨t, ht, he⟩ := run_facts hc s e
  rw [he]
  have hl : l = (srcs.getD i []).drop (s.inv i) := rest i l (by simp [hf])
  have hr := hc.res i (s.inv i)
  subst hid
  generalize hn : s.inv e.id = n at *
  generalize hL : srcs.getD e.id [] = L at *
  rw [hr]
  have hni : e.id ∉ q.map Prod.fst := by
    rw [hf] at nodup; exact (List.nodup_cons.1 nodup).1
  have hnq : (q.map Prod.fst).Nodup := by
    rw [hf] at nodup; exact (List.nodup_cons.1 nodup).2
  have hinv' : ∀ j m, (j, m) ∈ q → m = (srcs.getD j []).drop (if j = e.id then n + 1 else s.inv j) := by
    intro j m hm
    have : j ≠ e.id := by rintro rfl; exact hni (List.mem_map_of_mem (f := Prod.fst) hm)
    rw [if_neg this]
    exact rest j m (by rw [hf]; simp [hm])
  have hruns : ∀ (r : Res) (i : Nat), runsOf i (s.log ++ [.start e s.now] ++ [.fin e.id t r]) =
      (if i = e.id then n + 1 else s.inv i) := by
    intro r i
    rw [runsOf_snoc, runsOf_snoc, runs i]
    by_cases h : i = e.id
    · subst h; simp [hn]
    · have h' : ¬ e.id = i := fun h' => h h'.symm
      simp [h, h']
  have hout : ∀ r : Res, merged srcs (s.log ++ [.start e s.now] ++ [.fin e.id t r]) = f.out ++ (L[n]?).toList := by
    intro r
    rw [merged_snoc, merged_snoc, out]
    simp only [gives, runs, hn, hL, List.append_nil]
  by_cases hlt : n + 1 < L.length
  · rw [if_pos hlt]
    have hl2 : l = L[n] :: L[n + 1] :: L.drop (n + 2) := by
      rw [hl, List.drop_eq_getElem_cons (i := n) (by omega), List.drop_eq_getElem_cons (i := n + 1) (by omega)]
    have hstep : f.step = { queue := q ++ [(e.id, L[n + 1] :: L.drop (n + 2))], out := f.out ++ [L[n]] } := by
      simp only [Fifo.step, hf, hl2]
    rw [hstep]
    have hval : (L[n]?).toList = [L[n]] := by rw [List.getElem?_eq_getElem (by omega)]; rfl
    have hrest' : ∀ j m, (j, m) ∈ q ++ [(e.id, L[n + 1] :: L.drop (n + 2))] →
        m = (srcs.getD j []).drop (if j = e.id then n + 1 else s.inv j) := by
      intro j m hm
      rcases List.mem_append.1 hm with h | h
      · exact hinv' j m h
      · simp only [List.mem_singleton, Prod.mk.injEq] at h
        obtain ⟨rfl, rfl⟩ := h
        rw [if_pos rfl, hL, List.drop_eq_getElem_cons (i := n + 1) (by omega)]
    have hnodup' : ((q ++ [(e.id, L[n + 1] :: L.drop (n + 2))]).map Prod.fst).Nodup := by
      rw [List.map_append, List.nodup_append]
      refine ⟨hnq, by simp, ?_⟩
      intro a ha b hb
      simp only [List.map_cons, List.map_nil, List.mem_singleton] at hb
      subst hb
      rintro rfl
      exact hni ha
    simp only [afterCall]
    rw [not_disposed hc (by exact disp)]
    simp only [Bool.false_eq_true, if_false]
    by_cases hem : s.queue = []
    · have hq0 : q = [] := by simpa [hem] using hq.symm
      subst hq0
      simp only [hem, List.isEmpty_nil, if_true, hc.kind, sleepFor_zero]
      constructor
      · exact .inner top _ (L[n + 1] :: L.drop (n + 2)) rfl ho rfl (by rw [htop]; rfl)
      · simp [St.emit]
      · show s.last ≤ t; omega
      · exact disp
      · exact hnodup'
      · exact hrest'
      · intro i
        show runsOf i ((s.log ++ [.start e s.now] ++ [.fin e.id t _]) ++ [.sched _]) = _
        rw [runsOf_snoc, hruns]; rfl
      · show merged srcs ((s.log ++ [.start e s.now] ++ [.fin e.id t _]) ++ [.sched _]) = _
        rw [merged_snoc, hout, hval]; simp [gives]
    · have hne : s.queue.isEmpty = false := by cases h : s.queue <;> simp_all
      simp only [hne, Bool.false_eq_true, if_false, hc.kind, readNow, St.enqueue, St.emit]
      have hem2 : emplace s.queue ⟨t + 0, top.id⟩ = s.queue ++ [⟨t + 0, top.id⟩] :=
        emplace_last _ _ (fun g hg => by have := past g hg; simp; omega)
      rw [hem2]
      constructor
      · exact .drain rfl ho (by simp [hq, htop])
      · intro g hg
        rcases List.mem_append.1 hg with h | h
        · have := past g h; show g.tp ≤ t; omega
        · simp only [List.mem_singleton] at h; subst h; show t + 0 ≤ t; omega
      · exact Int.le_refl _
      · exact disp
      · exact hnodup'
      · exact hrest'
      · intro i
        show runsOf i ((s.log ++ [.start e s.now] ++ [.fin e.id t _]) ++ [.sched _]) = _
        rw [runsOf_snoc, hruns]; rfl
      · show merged srcs ((s.log ++ [.start e s.now] ++ [.fin e.id t _]) ++ [.sched _]) = _
        rw [merged_snoc, hout, hval]; simp [gives]
  · rw [if_neg hlt]
    have hstep : f.step = { queue := q, out := f.out ++ (L[n]?).toList } := by
      by_cases hn1 : n < L.length
      · have : l = [L[n]] := by
          rw [hl, List.drop_eq_getElem_cons hn1, List.drop_eq_nil_of_le (by omega)]
        simp [Fifo.step, hf, this, List.getElem?_eq_getElem hn1]
      · have : l = [] := by rw [hl, List.drop_eq_nil_of_le (by omega)]
        simp [Fifo.step, hf, this, List.getElem?_eq_none (Nat.le_of_not_lt hn1)]
    rw [hstep]
    simp only [afterCall]
    constructor
    · exact .drain rfl ho hq
    · intro g hg; have := past g hg; show g.tp ≤ t; omega
    · show s.last ≤ t; omega
    · exact disp
    · exact hnq
    · exact hinv'
    · exact hruns _
    · exact hout _

theorem sleepUntil_past {s : St} {tp : Int} (h : tp ≤ s.now) (hl : s.last ≤ s.now) :
    ∃ l, l ≤ s.now ∧ (sleepUntil c s tp).1 = { s with last := l } := by
  unfold sleepUntil
  split
  · exact ⟨s.last, hl, rfl⟩
  · refine ⟨max s.now tp, by omega, ?_⟩
    simp only [sleepFor]
    rw [if_neg (by omega)]

/-- A step of the scheduler is a step of the first-come-first-served queue. -/
theorem Sim.step (hc : Emits c srcs) {s : St} {f : Fifo α} (h : Sim srcs s f) :
    Sim srcs (CT.step c s .run) f.step := by
  obtain ⟨atq, past, last, disp, nodup, rest, runs, out⟩ := h
  cases atq with
  | done hm ho hs hq =>
    have : f.step = f := by simp [Fifo.step, hq]
    simp only [CT.step, hm, this]
    exact ⟨.done hm ho hs hq, past, last, disp, nodup, rest, runs, out⟩
  | inner top due l hm ho hs hq =>
    simp only [CT.step, hm, innerStep]
    exact Sim.serve hc ⟨due, top.id⟩ top hq rfl rfl ho (by simp [hs]) past last disp nodup rest runs out
  | drain hm ho hq =>
    have hstep : CT.step c s .run = drainStep c s := by simp only [CT.step, hm]
    rw [hstep]
    simp only [drainStep]
    cases hs : s.queue with
    | nil =>
      have hq0 : f.queue = [] := by simpa [hs] using hq.symm
      have : f.step = f := by simp [Fifo.step, hq0]
      simp only [this]
      exact ⟨.done rfl rfl rfl hq0, by simp, last, disp, nodup, rest, runs, out⟩
    | cons top queue =>
      simp only
      rw [not_disposed hc (by exact disp)]
      simp only [Bool.false_eq_true, if_false]
      obtain ⟨l, hl, he⟩ := sleepUntil_past (c := c) (s := { s with queue := queue }) (tp := top.tp)
        (past top (by simp [hs])) last
      rw [he]
      cases hfq : f.queue with
      | nil => simp [hs, hfq] at hq
      | cons x q =>
        obtain ⟨i, m⟩ := x
        rw [hs, hfq] at hq
        simp only [List.map_cons, List.cons.injEq] at hq
        exact Sim.serve hc top top hfq hq.1 hq.1 ho hq.2 (fun g hg => past g (by simp [hs, hg])) hl disp nodup rest
          runs out

/-- While subscribing: every source subscribed so far has a run queued. -/
structure Setup (s : St) (k : Nat) : Prop where
  mode : s.mode = .user
  owned : s.owned = true
  queue : s.queue.map Ent.id = List.range k
  past : ∀ e ∈ s.queue, e.tp ≤ s.now
  last : s.last ≤ s.now
  disp : s.disposed = []
  next : s.next = k
  inv : ∀ i, s.inv i = 0
  runs : ∀ i, runsOf i s.log = 0
  out : merged srcs s.log = []

theorem Setup.step (hc : Emits c srcs) {s : St} {k : Nat} (h : Setup (srcs := srcs) s k) (g : Nat) :
    Setup (srcs := srcs) (CT.step c (CT.step c s (.act (.elapse g))) (.act (.deferFor 0))) (k + 1) := by
  obtain ⟨h1, h2, h3, h4, h5, h6, h7, h8, h9, h10⟩ := h
  simp only [CT.step, h1, doAct, deferFor, St.emit]
  rw [not_disposed hc (by exact h6)]
  simp only [Bool.false_eq_true, if_false, h2, if_true, readNow, St.enqueue, St.emit]
  have he : emplace s.queue ⟨s.now + ↑g + 0, s.next⟩ = s.queue ++ [⟨s.now + ↑g + 0, s.next⟩] :=
    emplace_last _ _ (fun e he => by have := h4 e he; simp; omega)
  rw [he]
  constructor
  · rfl
  · rfl
  · simp [h3, h7, List.range_succ]
  · intro e hm
    rcases List.mem_append.1 hm with h | h
    · have := h4 e h; show e.tp ≤ s.now + g; omega
    · simp only [List.mem_singleton] at h; subst h; show s.now + g + 0 ≤ s.now + g; omega
  · exact Int.le_refl _
  · exact h6
  · simp [h7]
  · exact h8
  · intro i; rw [runsOf_snoc, runsOf_snoc, h9]; rfl
  · rw [merged_snoc, merged_snoc, h10]; rfl

theorem Setup.all (hc : Emits c srcs) (gaps : List Nat) :
    Setup (srcs := srcs) (exec c (.own :: gaps.flatMap (fun g => [.act (.elapse g), .act (.deferFor 0)]))) gaps.length := by
  refine Sched.snoc_ind (P := fun gaps => Setup (srcs := srcs)
    (exec c (.own :: gaps.flatMap (fun g => [.act (.elapse g), .act (.deferFor 0)]))) gaps.length) ?_ ?_ gaps
  · constructor <;> simp [exec, CT.step, runsOf, merged, mergedFrom]
  · intro gaps g ih
    have := ih.step hc g
    have e : exec c (.own :: (gaps ++ [g]).flatMap (fun g => [.act (.elapse g), .act (.deferFor 0)])) =
        CT.step c (CT.step c (exec c (.own :: gaps.flatMap (fun g => [.act (.elapse g), .act (.deferFor 0)])))
          (.act (.elapse g))) (.act (.deferFor 0)) := by
      simp [exec, List.flatMap_append]
    rw [e]
    simpa using this

/-- After subscribing to the sources everything is queued in order. -/
theorem Sim.init (hc : Emits c srcs) (gaps : List Nat) (hg : gaps.length = srcs.length) :
    Sim srcs (exec c (subscribe gaps)) { queue := srcs.mapIdx (fun i l => (i, l)), out := [] } := by
  have hs := Setup.all hc gaps
  have e : exec c (subscribe gaps) = CT.step c (exec c (.own :: gaps.flatMap
      (fun g => [.act (.elapse g), .act (.deferFor 0)]))) .release := by
    simp [exec, subscribe]
  rw [e]
  generalize exec c (.own :: gaps.flatMap (fun g => [.act (.elapse g), .act (.deferFor 0)])) = s at *
  obtain ⟨h1, h2, h3, h4, h5, h6, h7, h8, h9, h10⟩ := hs
  simp only [CT.step, h1, h2, if_true]
  have hids : (srcs.mapIdx (fun i l => (i, l))).map Prod.fst = List.range srcs.length := by
    apply List.ext_getElem <;> simp
  constructor
  · exact .drain rfl rfl (by rw [hids, ← hg]; exact h3)
  · exact h4
  · exact h5
  · exact h6
  · rw [hids]; exact List.nodup_range
  · intro i l hm
    obtain ⟨j, hj, he⟩ := List.mem_iff_getElem.1 hm
    simp only [List.getElem_mapIdx, Prod.mk.injEq] at he
    simp only [List.length_mapIdx] at hj
    obtain ⟨rfl, rfl⟩ := he
    show _ = List.drop (s.inv j) _
    rw [h8]
    simp [List.getElem?_eq_getElem hj]
  · intro i; show _ = s.inv i; rw [h8]; exact h9 i
  · exact h10

theorem Sim.run (hc : Emits c srcs) (gaps : List Nat) (hg : gaps.length = srcs.length) (k : Nat) :
    Sim srcs (exec c (subscribe gaps ++ List.replicate k .run))
      (Nat.rec { queue := srcs.mapIdx (fun i l => (i, l)), out := [] } (fun _ f => f.step) k) := by
  induction k with
  | zero => rw [List.replicate_zero, List.append_nil]; exact Sim.init hc gaps hg
  | succ k ih =>
    rw [List.replicate_succ', ← List.append_assoc]
    have e : exec c (subscribe gaps ++ List.replicate k .run ++ [.run]) =
        CT.step c (exec c (subscribe gaps ++ List.replicate k .run)) .run := by
      simp [exec]
    rw [e]
    exact ih.step hc

theorem fifo_ok (srcs : List (List α)) (k : Nat) :
    Fifo.Ok (roundRobin srcs)
      (Nat.rec { queue := srcs.mapIdx (fun i l => (i, l)), out := [] } (fun _ f => f.step) k : Fifo α) := by
  induction k with
  | zero =>
    have h := Fifo.Ok.init (srcs.mapIdx (fun i l => (i, l)))
    have e : (srcs.mapIdx (fun i l => (i, l))).map Prod.snd = srcs := by apply List.ext_getElem <;> simp
    rw [e] at h
    exact h
  | succ k ih => exact ih.step

theorem fifo_work (srcs : List (List α)) (k : Nat) :
    (Nat.rec { queue := srcs.mapIdx (fun i l => (i, l)), out := [] } (fun _ f => f.step) k : Fifo α).work =
      (srcs.map (fun l => max 1 l.length)).sum - k := by
  induction k with
  | zero =>
    show (((srcs.mapIdx (fun i l => (i, l))).map (fun e => max 1 e.2.length))).sum = _
    congr 1
    apply List.ext_getElem <;> simp
  | succ k ih =>
    have h := Fifo.work_step (Nat.rec { queue := srcs.mapIdx (fun i l => (i, l)), out := [] } (fun _ f => f.step) k : Fifo α)
    rw [ih] at h
    rw [show _ = _ from h]
    omega

/-- C70: values arrive in round-robin order, for any number and length of sources, however long the subscriber takes for
each value: after every number of steps of the scheduler what was delivered is the beginning of the round-robin
order, … -/
theorem C70_prefix (hc : Emits c srcs) (gaps : List Nat) (hg : gaps.length = srcs.length) (k : Nat) :
    merged srcs (exec c (subscribe gaps ++ List.replicate k .run)).log <+: roundRobin srcs := by
  rw [(Sim.run hc gaps hg k).out]
  exact (fifo_ok srcs k).prefix

/-- C70: … and everything has been delivered after as many steps as there are values (an empty source takes one step,
too); one step later `subscribe` returns and the queue is released. -/
theorem C70_complete (hc : Emits c srcs) (gaps : List Nat) (hg : gaps.length = srcs.length) (k : Nat)
    (hk : (srcs.map (fun l => max 1 l.length)).sum ≤ k) :
    merged srcs (exec c (subscribe gaps ++ List.replicate k .run)).log = roundRobin srcs ∧
    (exec c (subscribe gaps ++ List.replicate (k + 1) .run)).mode = .user ∧
    (exec c (subscribe gaps ++ List.replicate (k + 1) .run)).owned = false := by
  have hq := Fifo.work_zero (f := (Nat.rec { queue := srcs.mapIdx (fun i l => (i, l)), out := [] } (fun _ f => f.step) k :
    Fifo α)) (by rw [fifo_work]; omega)
  have hs := Sim.run hc gaps hg k
  refine ⟨?_, ?_⟩
  · rw [hs.out]
    exact (fifo_ok srcs k).final hq
  · have e : exec c (subscribe gaps ++ List.replicate (k + 1) .run) =
        CT.step c (exec c (subscribe gaps ++ List.replicate k .run)) .run := by
      rw [List.replicate_succ', ← List.append_assoc]
      simp [exec]
    rw [e]
    cases hs.atq with
    | done hm ho _ _ => simp [CT.step, hm, ho]
    | inner top due l _ _ _ h => rw [hq] at h; cases h
    | drain hm ho h =>
      rw [hq] at h
      have : (exec c (subscribe gaps ++ List.replicate k .run)).queue = [] := by simpa using h
      simp [CT.step, hm, drainStep, this]

/-! Non-vacuity: the example of current_thread.hpp 73-76, and sources of different lengths. -/

/-- `from_iterable`s over these containers; the subscriber takes `7` units for each value. -/
def exCfg (srcs : List (List Nat)) : Cfg where
  body i n := ([.elapse 7], if n + 1 < (srcs.getD i []).length then .again 0 else .stop)
  kind _ := .fromNow
  hnd i := i
  ext _ := none
  lag _ := 3

theorem exCfg_emits (srcs : List (List Nat)) : Emits (exCfg srcs) srcs where
  kind _ := rfl
  acts i n a ha := by simp only [exCfg, List.mem_singleton] at ha; exact ⟨7, ha⟩
  res _ _ := rfl
  alive _ := rfl

example : roundRobin [[1, 2, 3], [4, 5, 6]] = [1, 4, 2, 5, 3, 6] := by decide

example : roundRobin [[1, 2], [], [4], [5, 6, 7, 8]] = [1, 4, 5, 2, 6, 7, 8] := by decide

example : merged [[1, 2], [], [4], [5, 6, 7, 8]] (exec (exCfg [[1, 2], [], [4], [5, 6, 7, 8]])
    (subscribe [0, 2, 0, 1] ++ List.replicate 8 .run)).log = [1, 4, 5, 2, 6, 7, 8] := by decide

end Rpp.RoundRobin
