import Verif.Source.Endless

/-!
# C119: property theorems

The subscriber is the one of `Verif.Core.Props`: any chain of operators (`Pipe`) in front of callbacks that may dispose or throw
(`react`).  The container may have no end.  `Suffices react p v k` says that the first `k` values `v 0, v 1, …` are all the subscriber needs.
-/

namespace Rpp

open Endless
open From (Lbl)

variable {α γ ε : Type} [DecidableEq α] [DecidableEq γ] [DecidableEq ε]

namespace Endless

/-- A subscription to `from_iterable(c, immediate) | p`; put together from cited definitions. -/
def immediate (cap : Option Nat) (ov : ε) (react : List (Call γ ε) → Reaction ε) (p : Pipe ε α γ) (c : Cont α ε) (ls : List Lbl) : ISt α (p.State (UserSt γ ε)) :=
  iexec (p.lift (userObs cap ov react)) (p.mapFinal UserSt.dispose) c (p.start (userObs cap ov react) {}) ls

/-- A subscription to `from_iterable(c, scheduler) | p` for a scheduler that queues tasks; put together from cited definitions. -/
def scheduled (cap : Option Nat) (ov : ε) (react : List (Call γ ε) → Reaction ε) (p : Pipe ε α γ) (c : Cont α ε) (ls : List Lbl) : SSt (p.State (UserSt γ ε)) :=
  sexec (p.lift (userObs cap ov react)) (p.mapFinal UserSt.dispose) c (p.start (userObs cap ov react) {}) ls

end Endless

variable (cap : Option Nat) (ov : ε) (react : List (Call γ ε) → Reaction ε) (p : Pipe ε α γ)

/-- C119, immediate: if the first `m` values, and not fewer, are all the subscriber needs, the loop ends when it has passed on these, having made at most one element more; the subscriber sees what the chain
makes of these values. -/
theorem C119_immediate (hp : p.WF) (hfit : Fits cap p.finals.length) (c : Endless.Cont α ε) (v : Nat → α) (m : Nat) (hv : ∀ i < m, c i = some (.ok (v i)))
    (hm : Suffices react p v m) (hmin : ∀ k < m, ¬ Suffices react p v k) (n : Nat) (hn : 2 * m + 1 ≤ n) :
    let s := immediate cap ov react p c (List.replicate n .run)
    s.pc = .done ∧ s.made = List.range (if (c m).isSome then m + 1 else m) ∧
      evsOf (p.final s.obs).log = deliver react [] (p.spec ⟨first v m, none⟩).vals (p.spec ⟨first v m, none⟩).fin := by
  have hd := fun k => disposed_after (cap := cap) (ov := ov) react p hp hfit (first v k)
  have e := iprogress (O := p.lift (userObs cap ov react)) (kill := p.mapFinal UserSt.dispose) (s := p.start (userObs cap ov react) {}) m hv
    (fun i hi => by rw [hd]; exact Bool.eq_false_iff.2 (hmin i hi))
  have hdis := (hd m).trans hm
  have hl : Lawful (p.lift (userObs cap ov react)) := Pipe.lift_lawful p userObs_lawful
  have hsee := seen_after (cap := cap) (ov := ov) react p hp hfit (first v m)
  unfold subscriberSees subscriber at hsee
  obtain ⟨n', rfl⟩ : ∃ n', n = 2 * m + (n' + 1) := ⟨n - (2 * m + 1), by omega⟩
  intro s
  have hs : s = { obs := (p.lift (userObs cap ov react)).run (p.start (userObs cap ov react) {}) ((first v m).map .next), pc := .done, made := List.range (if (c m).isSome then m + 1 else m) } := by
    show iexec _ _ _ _ _ = _
    rw [replicate_add]
    unfold iexec at e ⊢
    rw [List.foldl_append, e, List.replicate_succ, List.foldl_cons]
    have h1 : istep (p.lift (userObs cap ov react)) (p.mapFinal UserSt.dispose) c { obs := (p.lift (userObs cap ov react)).run (p.start (userObs cap ov react) {}) ((first v m).map .next), pc := .look m, made := List.range m } .run
        = { obs := (p.lift (userObs cap ov react)).run (p.start (userObs cap ov react) {}) ((first v m).map .next), pc := .done, made := List.range (if (c m).isSome then m + 1 else m) } := by
      cases hc : c m with
      | none =>
        simp only [istep, hc, Option.isSome_none, Bool.false_eq_true, if_false]
        have := hl.run_disposed [.completed] _ hdis
        exact congrArg (fun o => ({ obs := o, pc := .done, made := List.range m } : ISt α _)) this
      | some x =>
        cases x with
        | error er =>
          simp only [istep, hc, Option.isSome_some, if_true, List.range_succ]
          have := hl.run_disposed [.error er] _ hdis
          exact congrArg (fun o => ({ obs := o, pc := .done, made := List.range m ++ [m] } : ISt α _)) this
        | ok a => simp only [istep, hc, Option.isSome_some, if_true, List.range_succ, hdis]
    rw [h1, idone n' rfl]
  rw [hs]
  exact ⟨rfl, rfl, hsee⟩

/-- C119, scheduled: and with a scheduler that queues tasks, the source ends when it has passed on these, and has made no other element. -/
theorem C119_scheduled (hp : p.WF) (hfit : Fits cap p.finals.length) (c : Endless.Cont α ε) (v : Nat → α) (m : Nat) (hv : ∀ i < m, c i = some (.ok (v i)))
    (hm : Suffices react p v m) (hmin : ∀ k < m, ¬ Suffices react p v k) (n : Nat) (hn : m + 1 ≤ n) :
    let s := scheduled cap ov react p c (List.replicate n .run)
    s.pc = .done ∧ s.made = List.range m ∧
      evsOf (p.final s.obs).log = deliver react [] (p.spec ⟨first v m, none⟩).vals (p.spec ⟨first v m, none⟩).fin := by
  have hd := fun k => disposed_after (cap := cap) (ov := ov) react p hp hfit (first v k)
  have e := sprogress (O := p.lift (userObs cap ov react)) (kill := p.mapFinal UserSt.dispose) (s := p.start (userObs cap ov react) {}) m hv
    (fun i hi => by rw [hd]; exact Bool.eq_false_iff.2 (hmin i hi))
  have hdis := (hd m).trans hm
  have hl : Lawful (p.lift (userObs cap ov react)) := Pipe.lift_lawful p userObs_lawful
  have hsee := seen_after (cap := cap) (ov := ov) react p hp hfit (first v m)
  unfold subscriberSees subscriber at hsee
  obtain ⟨n', rfl⟩ : ∃ n', n = m + (n' + 1) := ⟨n - (m + 1), by omega⟩
  intro s
  have hs : s = { obs := (p.lift (userObs cap ov react)).run (p.start (userObs cap ov react) {}) ((first v m).map .next), pc := .done, made := List.range m } := by
    show sexec _ _ _ _ _ = _
    rw [replicate_add]
    unfold sexec at e ⊢
    rw [List.foldl_append, e, List.replicate_succ, List.foldl_cons]
    have h1 : sstep (p.lift (userObs cap ov react)) (p.mapFinal UserSt.dispose) c { obs := (p.lift (userObs cap ov react)).run (p.start (userObs cap ov react) {}) ((first v m).map .next), pc := if m = 0 ∨ (c m).isSome then .queued m else .last, made := List.range m } .run
        = { obs := (p.lift (userObs cap ov react)).run (p.start (userObs cap ov react) {}) ((first v m).map .next), pc := .done, made := List.range m } := by
      by_cases h : m = 0 ∨ (c m).isSome
      · rw [if_pos h]; simp only [sstep, hdis, if_true]
      · rw [if_neg h]; simp only [sstep]
        have := hl.run_disposed [.completed] _ hdis
        exact congrArg (fun o => ({ obs := o, pc := .done, made := List.range m } : SSt _)) this
    rw [h1, sdone n' rfl]
  rw [hs]
  exact ⟨rfl, rfl, hsee⟩

/-- C119: a source without an end comes to an end if and only if some of its first values are all the subscriber needs. -/
theorem C119_endless_immediate (hp : p.WF) (hfit : Fits cap p.finals.length) (v : Nat → α) :
    (∃ n, (immediate cap ov react p (fun i => some (.ok (v i))) (List.replicate n .run)).pc = .done) ↔ ∃ m, Suffices react p v m := by
  classical
  constructor
  · rintro ⟨n, h⟩
    apply Classical.byContradiction
    intro hx
    have hd := fun k => disposed_after (cap := cap) (ov := ov) react p hp hfit (first v k)
    have e := iprogress (O := p.lift (userObs cap ov react)) (kill := p.mapFinal UserSt.dispose) (c := fun i => some (.ok (v i))) (s := p.start (userObs cap ov react) {}) n (fun _ _ => rfl)
      (fun i hi => by rw [hd]; exact Bool.eq_false_iff.2 (fun h => hx ⟨i, h⟩))
    rw [Nat.two_mul, replicate_add] at e
    unfold immediate iexec at h
    unfold iexec at e
    rw [List.foldl_append, idone n h] at e
    rw [e] at h
    cases h
  · rintro ⟨m, hm⟩
    have hex : ∃ m, Suffices react p v m ∧ ∀ k < m, ¬ Suffices react p v k := by
      induction m using Nat.strongRecOn with
      | _ m ih =>
        by_cases h : ∃ k, k < m ∧ Suffices react p v k
        · obtain ⟨k, hk, hs⟩ := h; exact ih k hk hs
        · exact ⟨m, hm, fun k hk hs => h ⟨k, hk, hs⟩⟩
    obtain ⟨m, h1, h2⟩ := hex
    exact ⟨_, (C119_immediate cap ov react p hp hfit _ v m (fun _ _ => rfl) h1 h2 _ (Nat.le_refl _)).1⟩

/-- C119: the same for the scheduled source: it stops queueing tasks. -/
theorem C119_endless_scheduled (hp : p.WF) (hfit : Fits cap p.finals.length) (v : Nat → α) :
    (∃ n, (scheduled cap ov react p (fun i => some (.ok (v i))) (List.replicate n .run)).pc = .done) ↔ ∃ m, Suffices react p v m := by
  classical
  constructor
  · rintro ⟨n, h⟩
    apply Classical.byContradiction
    intro hx
    have hd := fun k => disposed_after (cap := cap) (ov := ov) react p hp hfit (first v k)
    have e := sprogress (O := p.lift (userObs cap ov react)) (kill := p.mapFinal UserSt.dispose) (c := fun i => some (.ok (v i))) (s := p.start (userObs cap ov react) {}) n (fun _ _ => rfl)
      (fun i hi => by rw [hd]; exact Bool.eq_false_iff.2 (fun h => hx ⟨i, h⟩))
    unfold scheduled at h
    rw [e, if_pos (.inr rfl)] at h
    cases h
  · rintro ⟨m, hm⟩
    have hex : ∃ m, Suffices react p v m ∧ ∀ k < m, ¬ Suffices react p v k := by
      induction m using Nat.strongRecOn with
      | _ m ih =>
        by_cases h : ∃ k, k < m ∧ Suffices react p v k
        · obtain ⟨k, hk, hs⟩ := h; exact ih k hk hs
        · exact ⟨m, hm, fun k hk hs => h ⟨k, hk, hs⟩⟩
    obtain ⟨m, h1, h2⟩ := hex
    exact ⟨_, (C119_scheduled cap ov react p hp hfit _ v m (fun _ _ => rfl) h1 h2 _ (Nat.le_refl _)).1⟩

/-- C119: a chain with a `take(n)` in it stops the source as soon as `n` values (one value if `n = 0`) have come to that `take`. -/
theorem C119_take {β : Type} (react : List (Call γ ε) → Reaction ε) (n : Nat) (p : Pipe ε α β) (q : Pipe ε β γ) (v : Nat → α) (k : Nat)
    (h : max 1 n ≤ (p.spec ⟨first v k, none⟩).vals.length) : Suffices react (p.append (.cons (.take n) q)) v k := by
  unfold Suffices
  apply enough_fin
  rw [spec_app]
  refine pipe_fin q (Spec.take n (p.spec ⟨first v k, none⟩)) ?_
  simp [Spec.take, h]

/-- C119: and a source without an end never stops for a subscriber that does not leave if no operator ends the sequence by itself: not with `last`, `take_last`, `reduce`, `buffer`, … whose functions do not throw. -/
theorem C119_never (p : Pipe ε α γ) (h : Endless.Pipe.waits p) (v : Nat → α) (k : Nat) : ¬ Suffices (fun _ => {}) p v k := by
  unfold Suffices
  rw [enough_passive, pipe_waits p h _ rfl]
  exact Bool.false_ne_true

/-- C119: disposing of the subscription from outside, at any moment, stops the source: the loop makes at most one element more, the scheduled source none. -/
theorem C119_killed (c : Endless.Cont α ε) (ls ls' : List Lbl) :
    (immediate cap ov react p c (ls ++ .kill :: ls')).made.length ≤ (immediate cap ov react p c ls).made.length + 1 ∧
    (scheduled cap ov react p c (ls ++ .kill :: ls')).made = (scheduled cap ov react p c ls).made := by
  have hl : Lawful (p.lift (userObs cap ov react)) := Pipe.lift_lawful p userObs_lawful
  have hk := From.kill_disposes cap ov react p
  have hkeep : ∀ (cl : Call α ε) s, (p.lift (userObs cap ov react)).isDisposed s = true → (p.lift (userObs cap ov react)).isDisposed ((p.lift (userObs cap ov react)).call cl s) = true := fun cl s h => hl.stays s cl h
  constructor
  · have key : ∀ (ls' : List Lbl) (s : ISt α (p.State (UserSt γ ε))), (p.lift (userObs cap ov react)).isDisposed s.obs = true → ∀ N,
        s.made.length ≤ N + 1 → (s.made.length = N + 1 → s.pc = .done) →
        (ls'.foldl (istep (p.lift (userObs cap ov react)) (p.mapFinal UserSt.dispose) c) s).made.length ≤ N + 1 := by
      intro ls'
      induction ls' with
      | nil => intro s _ N h _; exact h
      | cons l ls' ih =>
        intro s hd N h1 h2
        rw [List.foldl_cons]
        cases l with
        | kill => exact ih _ (hk _) N h1 h2
        | run =>
          rcases s with ⟨o, pc, made⟩
          cases pc with
          | done => exact ih _ hd N h1 h2
          | emit i a => exact ih _ (hkeep (.next a) _ hd) N h1 (fun e => by cases h2 e)
          | look i =>
            have h3 : made.length ≤ N := by
              rcases Nat.lt_or_ge made.length (N + 1) with h | h
              · omega
              · cases h2 (by dsimp only at h1 ⊢; omega)
            cases hc : c i with
            | none => simp only [istep, hc]; exact ih _ (hkeep .completed _ hd) N h1 (fun _ => rfl)
            | some x =>
              cases x with
              | error e => simp only [istep, hc]; exact ih _ (hkeep (.error e) _ hd) N (by simp; omega) (fun _ => rfl)
              | ok a =>
                dsimp only at hd
                simp only [istep, hc, hd, if_true]; exact ih _ hd N (by simp; omega) (fun _ => rfl)
    unfold immediate iexec
    rw [List.foldl_append, List.foldl_cons]
    exact key ls' _ (hk _) _ (Nat.le_succ _) (fun e => by simp only [istep] at e; omega)
  · have key : ∀ (ls' : List Lbl) (s : SSt (p.State (UserSt γ ε))), (p.lift (userObs cap ov react)).isDisposed s.obs = true →
        (ls'.foldl (sstep (p.lift (userObs cap ov react)) (p.mapFinal UserSt.dispose) c) s).made = s.made := by
      intro ls'
      induction ls' with
      | nil => intro s _; rfl
      | cons l ls' ih =>
        intro s hd
        rw [List.foldl_cons]
        cases l with
        | kill => exact ih _ (hk _)
        | run =>
          rcases s with ⟨o, pc, made⟩
          cases pc with
          | done => exact ih _ hd
          | last => exact ih _ (hkeep .completed _ hd)
          | queued i =>
            dsimp only at hd
            simp only [sstep, hd, if_true]; exact ih _ hd
    unfold scheduled sexec
    rw [List.foldl_append, List.foldl_cons]
    exact key ls' _ (hk _)

/-- C119: of a container with an end the subscriber sees what C66 says. -/
theorem C119_finite (c : List (Except ε α)) (ls : List Lbl) :
    evsOf (p.final (immediate cap ov react p (fun i => c[i]?) ls).obs).log = From.immediateSees cap ov react p c ls ∧
    evsOf (p.final (scheduled cap ov react p (fun i => c[i]?) ls).obs).log = From.scheduledSees cap ov react p c ls := by
  constructor
  · have h := congrArg From.ISt.obs (isame (p.lift (userObs cap ov react)) (p.mapFinal UserSt.dispose) c ls { obs := p.start (userObs cap ov react) {} })
    exact congrArg (fun o => evsOf (p.final o).log) h
  · have h := congrArg From.SSt.obs (ssame (p.lift (userObs cap ov react)) (p.mapFinal UserSt.dispose) c ls { obs := p.start (userObs cap ov react) {} })
    exact congrArg (fun o => evsOf (p.final o).log) h

/-- C119, refuted for the immediate source: it makes an element that nobody needs, whenever the subscriber has had enough before the container ends. -/
theorem C119_one_more_refutes (hp : p.WF) (hfit : Fits cap p.finals.length) (v : Nat → α) (m : Nat) (hm : Suffices react p v m) (hmin : ∀ k < m, ¬ Suffices react p v k) :
    ∃ n, m ∈ (immediate cap ov react p (fun i => some (.ok (v i))) (List.replicate n .run)).made := by
  refine ⟨2 * m + 1, ?_⟩
  rw [(C119_immediate cap ov react p hp hfit _ v m (fun _ _ => rfl) hm hmin _ (Nat.le_refl _)).2.1]
  simp

/-- `take(2)` of all natural numbers needs two of them. -/
example : Suffices (ε := Unit) (fun _ => {}) (.cons (.take 2) .nil) (id : Nat → Nat) 2 ∧ ∀ k < 2, ¬ Suffices (ε := Unit) (fun _ => {}) (.cons (.take 2) .nil) (id : Nat → Nat) k := by
  refine ⟨rfl, fun k hk => ?_⟩
  match k, hk with
  | 0, _ => exact Bool.false_ne_true
  | 1, _ => exact Bool.false_ne_true

example : (immediate (ε := Unit) none () (fun _ => {}) (.cons (.take 2) .nil) (fun i => some (.ok i)) (List.replicate 9 .run)).made = [0, 1, 2] := by decide

example : (scheduled (ε := Unit) none () (fun _ => {}) (.cons (.take 2) .nil) (fun i => some (.ok i)) (List.replicate 9 .run)).made = [0, 1] := by decide

/-- The sum of all natural numbers never comes. -/
example : ∀ k, ¬ Suffices (ε := Unit) (fun _ => {}) (.cons (.filter (fun a => .ok (a % 2 == 0))) (.cons (.reduce 0 (fun s a => .ok (s + a))) .nil)) (id : Nat → Nat) k :=
  C119_never (.cons (.filter (fun a => .ok (a % 2 == 0))) (.cons (.reduce 0 (fun s a => .ok (s + a))) .nil)) (by simp [Endless.Pipe.waits, Endless.Op.waits]) id

/-- The first even number needs one value. -/
example : Suffices (ε := Unit) (fun _ => {}) (.cons (.filter (fun a => .ok (a % 2 == 0))) (.cons (.take 1) .nil)) (id : Nat → Nat) 1 :=
  C119_take _ 1 (.cons (.filter (fun a => .ok (a % 2 == 0))) .nil) .nil id 1 (by show 1 ≤ _; decide)

end Rpp
