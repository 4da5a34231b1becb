import Verif.Core.Props

/-!
# `from_iterable`, `just`: the two implementations

Transcription of `/repo/src/rpp/rpp/sources/from.hpp`, over any observer (`Obs`) and with somebody else
disposing the subscription between any two steps.
-/

namespace Rpp.From

/-- A container as its iterators show it: dereferencing the `i`-th iterator gives the element or throws
(the `catch` clauses of from.hpp 74-77 and 117-120 exist for that).
Simplification: advancing and comparing iterators does not throw. -/
abbrev Cont (α ε : Type) := List (Except ε α)

/-- Steps of a subscription: the source moves on, or somebody disposes the subscription. -/
inductive Lbl where
  | run
  | kill
deriving DecidableEq, Repr

/-! ## The immediate implementation -/

/-- Where the loop of from.hpp 107-113 is: about to look at element `i`; past the `is_disposed()` test
with element `i` in hand; done. -/
inductive IPc (α : Type) where
  | look (i : Nat)
  | emit (i : Nat) (a : α)
  | done
deriving DecidableEq, Repr

/-- A subscription in progress. (sources/from.hpp 30-130) -/
structure ISt (α σ : Type) where
  obs : σ
  pc : IPc α

/-- One step of `from_iterable_strategy::subscribe` for the immediate scheduler (from.hpp 101-121):
`look` compares with `end()`, dereferences and tests `is_disposed()`; `emit` calls `on_next`. -/
def istep (O : Obs α ε σ) (kill : σ → σ) (c : Cont α ε) (s : ISt α σ) : Lbl → ISt α σ
  | .kill => { s with obs := kill s.obs }
  | .run => match s.pc with
    | .done => s
    | .look i => match c[i]? with
      | none => { obs := O.onCompleted s.obs, pc := .done }
      | some (.error e) => { obs := O.onError e s.obs, pc := .done }
      | some (.ok a) => if O.isDisposed s.obs then { s with pc := .done } else { s with pc := .emit i a }
    | .emit i a => { obs := O.onNext a s.obs, pc := .look (i + 1) }

/-- A run of the immediate implementation. -/
def iexec (O : Obs α ε σ) (kill : σ → σ) (c : Cont α ε) (s : σ) (ls : List Lbl) : ISt α σ :=
  ls.foldl (istep O kill c) { obs := s, pc := .look 0 }

/-! ## The scheduled implementation -/

/-- Where the scheduled task is: queued with `index = i`; past `on_next` of the last element; gone. (sources/from.hpp 30-130) -/
inductive SPc where
  | queued (i : Nat)
  | last
  | done
deriving DecidableEq, Repr

/-- A subscription in progress. (sources/from.hpp 30-130) -/
structure SSt (σ : Type) where
  obs : σ
  pc : SPc

/-- One step of `from_iterable_schedulable` (from.hpp 51-80) on a worker (from.hpp 124-125).  A queued task
whose handler is disposed is dropped by the scheduler without being called (schedulers/details/queue.hpp
`is_disposed`, see `Verif.Scheduler`, property C64); an `on_completed` after the last `on_next` is a step
of its own because the subscription may be disposed in between. -/
def sstep (O : Obs α ε σ) (kill : σ → σ) (c : Cont α ε) (s : SSt σ) : Lbl → SSt σ
  | .kill => { s with obs := kill s.obs }
  | .run => match s.pc with
    | .done => s
    | .last => { obs := O.onCompleted s.obs, pc := .done }
    | .queued i =>
      if O.isDisposed s.obs then { s with pc := .done }
      else match c[i]? with
        | none => { obs := O.onCompleted s.obs, pc := .done }
        | some (.error e) => { obs := O.onError e s.obs, pc := .done }
        | some (.ok a) => { obs := O.onNext a s.obs, pc := if c[i + 1]?.isSome then .queued (i + 1) else .last }

/-- A run of the scheduled implementation. -/
def sexec (O : Obs α ε σ) (kill : σ → σ) (c : Cont α ε) (s : σ) (ls : List Lbl) : SSt σ :=
  ls.foldl (sstep O kill c) { obs := s, pc := .queued 0 }

/-! ## Specification -/

/-- The sequence a container denotes: its elements in order and completion, or the elements before the
first one that cannot be read, and that error. -/
def contents : Cont α ε → Trace α ε
  | [] => ⟨[], some .completed⟩
  | .ok a :: c => ⟨a :: (contents c).vals, (contents c).fin⟩
  | .error e :: _ => ⟨[], some (.error e)⟩

/-! ## Proofs -/

/-- The calls still to be made for the rest of a container. -/
def calls : Cont α ε → List (Call α ε)
  | [] => [.completed]
  | .ok a :: c => .next a :: calls c
  | .error e :: _ => [.error e]

theorem traceOf_calls (c : Cont α ε) : traceOf (calls c) = contents c := by
  induction c with
  | nil => rfl
  | cons x c ih => cases x <;> simp [calls, contents, traceOf, ih]

theorem upsOf_calls (c : Cont α ε) : upsOf (calls c) = [] := by
  induction c with
  | nil => rfl
  | cons x c ih => cases x <;> simp [calls, upsOf, ih]

theorem run_calls_disposed {O : Obs α ε σ} (h : Lawful O) (c : Cont α ε) (s : σ)
    (hd : O.isDisposed s = true) : O.run s (calls c) = s := by
  rw [h.run_disposed _ _ hd, upsOf_calls]; rfl

theorem drop_none {c : Cont α ε} {i : Nat} (h : c[i]? = none) : c.drop i = [] := by
  have := List.getElem?_eq_none_iff.1 h
  exact List.drop_eq_nil_of_le this

theorem drop_some {c : Cont α ε} {i : Nat} {x} (h : c[i]? = some x) : c.drop i = x :: c.drop (i + 1) := by
  obtain ⟨hl, rfl⟩ := List.getElem?_eq_some_iff.1 h
  exact List.drop_eq_getElem_cons hl

/-- Calls still ahead. -/
def irest (c : Cont α ε) : IPc α → List (Call α ε)
  | .look i => calls (c.drop i)
  | .emit i a => .next a :: calls (c.drop (i + 1))
  | .done => []

/-- Read off the state or the log, for statements and proofs; no counterpart in /repo. -/
def srest (c : Cont α ε) : SPc → List (Call α ε)
  | .queued i => calls (c.drop i)
  | .last => [.completed]
  | .done => []

/-- Bound on the number of steps still ahead. -/
def imeas (c : Cont α ε) : IPc α → Nat
  | .look i => 2 * (c.length - i) + 1
  | .emit i _ => 2 * (c.length - (i + 1)) + 2
  | .done => 0

/-- Read off the state or the log, for statements and proofs; no counterpart in /repo. -/
def smeas (c : Cont α ε) : SPc → Nat
  | .queued i => (c.length - i) + 2
  | .last => 1
  | .done => 0

theorem istep_rest {O : Obs α ε σ} (h : Lawful O) (k : σ → σ) (c : Cont α ε) (s : ISt α σ) :
    O.run (istep O k c s .run).obs (irest c (istep O k c s .run).pc) = O.run s.obs (irest c s.pc) := by
  obtain ⟨o, pc⟩ := s
  cases pc with
  | done => rfl
  | emit i a => rfl
  | look i =>
    simp only [istep]
    cases hc : c[i]? with
    | none => simp [irest, drop_none hc, calls, Obs.run, Obs.call]
    | some x =>
      cases x with
      | error e => simp [irest, drop_some hc, calls, Obs.run, Obs.call]
      | ok a =>
        by_cases hd : O.isDisposed o = true
        · simp only [hd, if_true, irest]
          rw [run_calls_disposed h _ _ hd]; rfl
        · simp only [hd, Bool.false_eq_true, if_false, irest]
          rw [drop_some hc]; rfl

theorem sstep_rest {O : Obs α ε σ} (h : Lawful O) (k : σ → σ) (c : Cont α ε) (s : SSt σ) :
    O.run (sstep O k c s .run).obs (srest c (sstep O k c s .run).pc) = O.run s.obs (srest c s.pc) := by
  obtain ⟨o, pc⟩ := s
  cases pc with
  | done => rfl
  | last => rfl
  | queued i =>
    simp only [sstep]
    by_cases hd : O.isDisposed o = true
    · simp only [hd, if_true, srest]
      rw [run_calls_disposed h _ _ hd]; rfl
    · simp only [hd, Bool.false_eq_true, if_false]
      cases hc : c[i]? with
      | none => simp [srest, drop_none hc, calls, Obs.run, Obs.call]
      | some x =>
        cases x with
        | error e => simp [srest, drop_some hc, calls, Obs.run, Obs.call]
        | ok a =>
          cases hn : c[i + 1]? with
          | none => simp [srest, drop_some hc, drop_none hn, calls, Obs.run, Obs.call]
          | some y =>
            simp only [Option.isSome_some, if_true, srest]
            rw [drop_some hc]; rfl

theorem istep_meas (O : Obs α ε σ) (k : σ → σ) (c : Cont α ε) (s : ISt α σ) (h : imeas c s.pc ≠ 0) :
    imeas c (istep O k c s .run).pc < imeas c s.pc := by
  obtain ⟨o, pc⟩ := s
  cases pc with
  | done => exact absurd rfl h
  | emit i a => simp only [istep, imeas]; omega
  | look i =>
    simp only [istep]
    cases hc : c[i]? with
    | none => simp [imeas]
    | some x =>
      have hi : i < c.length := (List.getElem?_eq_some_iff.1 hc).1
      cases x with
      | error e => simp [imeas]
      | ok a => simp only; split <;> simp only [imeas] <;> omega

theorem sstep_meas (O : Obs α ε σ) (k : σ → σ) (c : Cont α ε) (s : SSt σ) (h : smeas c s.pc ≠ 0) :
    smeas c (sstep O k c s .run).pc < smeas c s.pc := by
  obtain ⟨o, pc⟩ := s
  cases pc with
  | done => exact absurd rfl h
  | last => simp [sstep, smeas]
  | queued i =>
    simp only [sstep]
    split
    · simp [smeas]
    · cases hc : c[i]? with
      | none => simp [smeas]
      | some x =>
        have hi : i < c.length := (List.getElem?_eq_some_iff.1 hc).1
        cases x with
        | error e => simp [smeas]
        | ok a => simp only; split <;> simp only [smeas] <;> omega

/-- Steps of either implementation are ignored once the observer is disposed. -/
theorem istep_disposed {O : Obs α ε σ} (h : Lawful O) (k : σ → σ) (c : Cont α ε) (s : ISt α σ)
    (hd : O.isDisposed s.obs = true) : (istep O k c s .run).obs = s.obs := by
  obtain ⟨o, pc⟩ := s
  have h1 := fun a => h.ignore o (.next a) hd rfl
  have h2 := fun e => h.ignore o (.error e) hd rfl
  have h3 := h.ignore o .completed hd rfl
  simp only [Obs.call] at h1 h2 h3
  cases pc with
  | done => rfl
  | emit i a => exact h1 a
  | look i =>
    simp only [istep]
    cases c[i]? with
    | none => exact h3
    | some x =>
      cases x with
      | error e => exact h2 e
      | ok a => simp only; split <;> rfl

theorem sstep_disposed {O : Obs α ε σ} (h : Lawful O) (k : σ → σ) (c : Cont α ε) (s : SSt σ)
    (hd : O.isDisposed s.obs = true) : (sstep O k c s .run).obs = s.obs := by
  obtain ⟨o, pc⟩ := s
  have h3 := h.ignore o .completed hd rfl
  simp only [Obs.call] at h3
  cases pc with
  | done => rfl
  | last => exact h3
  | queued i => simp only at hd; simp [sstep, hd]

/-- Disposals in a history. -/
def kills (k : σ → σ) (s : σ) (ls : List Lbl) : σ :=
  ls.foldl (fun s l => match l with | .kill => k s | .run => s) s

theorem ikilled {O : Obs α ε σ} (h : Lawful O) {k : σ → σ} (hk : ∀ s, O.isDisposed (k s) = true)
    (c : Cont α ε) (ls : List Lbl) : ∀ s : ISt α σ, O.isDisposed s.obs = true →
    (ls.foldl (istep O k c) s).obs = kills k s.obs ls := by
  induction ls with
  | nil => intro s _; rfl
  | cons l ls ih =>
    intro s hs
    cases l with
    | kill => exact ih _ (hk _)
    | run =>
      have e := istep_disposed h k c s hs
      rw [List.foldl_cons, ih _ (by rw [e]; exact hs), e]; rfl

theorem skilled {O : Obs α ε σ} (h : Lawful O) {k : σ → σ} (hk : ∀ s, O.isDisposed (k s) = true)
    (c : Cont α ε) (ls : List Lbl) : ∀ s : SSt σ, O.isDisposed s.obs = true →
    (ls.foldl (sstep O k c) s).obs = kills k s.obs ls := by
  induction ls with
  | nil => intro s _; rfl
  | cons l ls ih =>
    intro s hs
    cases l with
    | kill => exact ih _ (hk _)
    | run =>
      have e := sstep_disposed h k c s hs
      rw [List.foldl_cons, ih _ (by rw [e]; exact hs), e]; rfl

theorem iall {O : Obs α ε σ} (h : Lawful O) (k : σ → σ) (c : Cont α ε) (n : Nat) :
    ∀ s : ISt α σ, imeas c s.pc ≤ n →
    ((List.replicate n Lbl.run).foldl (istep O k c) s).obs = O.run s.obs (irest c s.pc) := by
  induction n with
  | zero =>
    intro s hs
    have : s.pc = .done := by
      cases hp : s.pc <;> simp [hp, imeas] at hs
      rfl
    rw [this]; rfl
  | succ n ih =>
    intro s hs
    rw [List.replicate_succ, List.foldl_cons, ih, istep_rest h]
    by_cases h0 : imeas c s.pc = 0
    · have : s.pc = .done := by
        cases hp : s.pc <;> simp [hp, imeas] at h0
        rfl
      simp [istep, this, imeas]
    · have := istep_meas O k c s h0; omega

theorem sall {O : Obs α ε σ} (h : Lawful O) (k : σ → σ) (c : Cont α ε) (n : Nat) :
    ∀ s : SSt σ, smeas c s.pc ≤ n →
    ((List.replicate n Lbl.run).foldl (sstep O k c) s).obs = O.run s.obs (srest c s.pc) := by
  induction n with
  | zero =>
    intro s hs
    have : s.pc = .done := by
      cases hp : s.pc <;> simp [hp, smeas] at hs
      rfl
    rw [this]; rfl
  | succ n ih =>
    intro s hs
    rw [List.replicate_succ, List.foldl_cons, ih, sstep_rest h]
    by_cases h0 : smeas c s.pc = 0
    · have : s.pc = .done := by
        cases hp : s.pc <;> simp [hp, smeas] at h0
        rfl
      simp [sstep, this, smeas]
    · have := sstep_meas O k c s h0; omega

/-- While nobody else disposes, an implementation has made the first few of the calls. -/
structure Pre (O : Obs α ε σ) (all : List (Call α ε)) (s0 s : σ) (rest : List (Call α ε)) : Prop where
  pre : ∃ p, p <+: all ∧ s = O.run s0 p ∧ (p ++ rest = all ∨ rest = [])

theorem Pre.one {O : Obs α ε σ} {all s0 s c rest} (h : Pre O all s0 s (c :: rest)) :
    Pre O all s0 (O.call c s) rest := by
  obtain ⟨p, _, rfl, hr⟩ := h.pre
  have hr : p ++ c :: rest = all := by simpa using hr
  refine ⟨p ++ [c], ⟨rest, by simpa using hr⟩, ?_, .inl (by simpa using hr)⟩
  rw [Obs.run_append]; rfl

theorem Pre.stop {O : Obs α ε σ} {all s0 s rest} (h : Pre O all s0 s rest) :
    Pre O all s0 s [] := by
  obtain ⟨p, hp, hs, _⟩ := h.pre
  exact ⟨p, hp, hs, .inr rfl⟩

theorem istep_pre {O : Obs α ε σ} {all s0} (k : σ → σ) (c : Cont α ε) (s : ISt α σ)
    (h : Pre O all s0 s.obs (irest c s.pc)) :
    Pre O all s0 (istep O k c s .run).obs (irest c (istep O k c s .run).pc) := by
  obtain ⟨o, pc⟩ := s
  cases pc with
  | done => exact h
  | emit i a => exact h.one
  | look i =>
    simp only [istep]
    simp only [irest] at h
    cases hc : c[i]? with
    | none => rw [drop_none hc] at h; exact h.one
    | some x =>
      rw [drop_some hc] at h
      cases x with
      | error e => exact h.one
      | ok a =>
        simp only
        split
        · exact h.stop
        · exact h

theorem sstep_pre {O : Obs α ε σ} {all s0} (k : σ → σ) (c : Cont α ε) (s : SSt σ)
    (h : Pre O all s0 s.obs (srest c s.pc)) :
    Pre O all s0 (sstep O k c s .run).obs (srest c (sstep O k c s .run).pc) := by
  obtain ⟨o, pc⟩ := s
  cases pc with
  | done => exact h
  | last => exact h.one
  | queued i =>
    simp only [sstep]
    simp only [srest] at h
    split
    · exact h.stop
    · cases hc : c[i]? with
      | none => rw [drop_none hc] at h; exact h.one
      | some x =>
        rw [drop_some hc] at h
        cases x with
        | error e => exact h.one
        | ok a =>
          simp only
          cases hn : c[i + 1]? with
          | none => rw [drop_none hn] at h; exact h.one
          | some y => exact h.one

theorem iexec_pre {O : Obs α ε σ} (k : σ → σ) (c : Cont α ε) (s0 : σ) (n : Nat) :
    ∃ p, p <+: calls c ∧ (iexec O k c s0 (List.replicate n .run)).obs = O.run s0 p := by
  suffices h : ∀ s : ISt α σ, Pre O (calls c) s0 s.obs (irest c s.pc) →
      ∃ p, p <+: calls c ∧ ((List.replicate n Lbl.run).foldl (istep O k c) s).obs = O.run s0 p from
    h { obs := s0, pc := .look 0 } ⟨[], List.nil_prefix, rfl, .inl rfl⟩
  induction n with
  | zero => intro s h; obtain ⟨p, hp, hs, _⟩ := h.pre; exact ⟨p, hp, hs⟩
  | succ n ih => intro s h; exact ih _ (istep_pre k c s h)

theorem sexec_pre {O : Obs α ε σ} (k : σ → σ) (c : Cont α ε) (s0 : σ) (n : Nat) :
    ∃ p, p <+: calls c ∧ (sexec O k c s0 (List.replicate n .run)).obs = O.run s0 p := by
  suffices h : ∀ s : SSt σ, Pre O (calls c) s0 s.obs (srest c s.pc) →
      ∃ p, p <+: calls c ∧ ((List.replicate n Lbl.run).foldl (sstep O k c) s).obs = O.run s0 p from
    h { obs := s0, pc := .queued 0 } ⟨[], List.nil_prefix, rfl, .inl rfl⟩
  induction n with
  | zero => intro s h; obtain ⟨p, hp, hs, _⟩ := h.pre; exact ⟨p, hp, hs⟩
  | succ n ih => intro s h; exact ih _ (sstep_pre k c s h)

end Rpp.From
