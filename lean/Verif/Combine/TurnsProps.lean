import Verif.Combine.Turns

/-!
# C126: property theorems

`from_iterable(xs) | zip(from_iterable(ys)) | p` and the like with the default scheduler, over any chain of operators (`Pipe`) and callbacks (`react`): `xs` and `ys` take turns, the other observable first.
`c` is the world with the two sources' tasks on `current_thread`, in which each value takes any time; `gaps` is the time the two subscriptions take; `.user` means that the outermost `subscribe` has returned.
-/

namespace Rpp

open Turns
open Sched Sched.CT
open SyncPair (told)

variable {α β γ δ ε : Type} [DecidableEq δ] [DecidableEq γ] [DecidableEq ε]

namespace Turns

/-- The operator's state after `k` steps of the scheduler: what it makes of what the log says the sources handed over; put together from cited definitions. -/
def sub (kd : SyncPair.Kind) (c : Cfg) (cap : Option Nat) (ov : ε) (react : List (Call γ ε) → Reaction ε) (p : Pipe ε δ γ) (g : α → β → δ) (xs : List α) (ys : List β) (gaps : List Nat) (k : Nat) : SyncPair.St α β (p.State (UserSt γ ε)) :=
  (RoundRobin.merged (sources xs ys) (CT.exec c (RoundRobin.subscribe gaps ++ List.replicate k .run)).log).foldl (act kd (p.lift (userObs cap ov react)) g)
    { obs := (p.lift (userObs cap ov react)).call (.up 0) (p.start (userObs cap ov react) {}) }

/-- The same for take_until; put together from cited definitions. -/
def subUntil (c : Cfg) (cap : Option Nat) (ov : ε) (react : List (Call γ ε) → Reaction ε) (p : Pipe ε δ γ) (xs : List δ) (ys : List β) (gaps : List Nat) (k : Nat) : SyncUntil.St (p.State (UserSt γ ε)) :=
  (RoundRobin.merged (sources xs ys) (CT.exec c (RoundRobin.subscribe gaps ++ List.replicate k .run)).log).foldl (actUntil (p.lift (userObs cap ov react)))
    { obs := (p.lift (userObs cap ov react)).call (.up 0) (p.start (userObs cap ov react) {}) }

/-- As many steps as there are values; an empty container takes one, too.  Specification; models no code. -/
def steps (xs : List α) (ys : List β) : Nat := max 1 xs.length + max 1 ys.length

omit [DecidableEq δ] [DecidableEq γ] [DecidableEq ε] in
theorem runs_length {τ : Type} : ∀ l : List τ, (runs l).length = max 1 l.length
  | [] => rfl
  | [_] => rfl
  | a :: b :: l => by
    show (runs (b :: l)).length + 1 = _
    rw [runs_length (b :: l)]
    simp only [List.length_cons]
    omega

theorem arrives {c : Cfg} {xs : List α} {ys : List β} (hc : RoundRobin.Emits c (sources xs ys)) {gaps : List Nat} (hg : gaps.length = 2) {k : Nat} (hk : steps xs ys ≤ k) :
    RoundRobin.merged (sources xs ys) (CT.exec c (RoundRobin.subscribe gaps ++ List.replicate k .run)).log = weave ((runs ys).map .inl) ((runs xs).map .inr) ∧
    (CT.exec c (RoundRobin.subscribe gaps ++ List.replicate (k + 1) .run)).mode = .user := by
  have h := RoundRobin.C70_complete hc gaps hg k (by
    simp only [sources, List.map_cons, List.map_nil, List.length_map, runs_length, List.sum_cons, List.sum_nil]
    unfold steps at hk
    omega)
  exact ⟨h.1.trans (rr_two _ _), h.2.1⟩

end Turns

variable (c : Cfg) (cap : Option Nat) (ov : ε) (react : List (Call γ ε) → Reaction ε) (p : Pipe ε δ γ)

/-- C126: all containers, any time per value: the subscriber sees what the chain makes of the pairs in the order of turns, and then the completion; one step of the scheduler later `subscribe` returns. -/
theorem C126_turns (kd : SyncPair.Kind) (hp : p.WF) (hfit : Fits cap (p.finals.length + 1)) (g : α → β → δ) (xs : List α) (ys : List β) (hc : RoundRobin.Emits c (sources xs ys)) (gaps : List Nat) (hg : gaps.length = 2)
    (k : Nat) (hk : Turns.steps xs ys ≤ k) :
    evsOf (p.final (Turns.sub kd c cap ov react p g xs ys gaps k).obs).log = told react p ⟨results kd g xs ys, some .completed⟩ ∧
    (CT.exec c (RoundRobin.subscribe gaps ++ List.replicate (k + 1) .run)).mode = .user := by
  obtain ⟨h1, h2⟩ := Turns.arrives hc hg hk
  refine ⟨?_, h2⟩
  unfold Turns.sub
  rw [h1, all_runs]
  exact SyncPair.sees_told (cap := cap) (ov := ov) react p hp hfit ⟨results kd g xs ys, some .completed⟩

/-- C126: with take_until the trigger comes first: the subscriber sees a completion only, whatever the containers. -/
theorem C126_until (hp : p.WF) (hfit : Fits cap (p.finals.length + 1)) (xs : List δ) (ys : List β) (hc : RoundRobin.Emits c (sources xs ys)) (gaps : List Nat) (hg : gaps.length = 2)
    (k : Nat) (hk : Turns.steps xs ys ≤ k) :
    evsOf (p.final (Turns.subUntil c cap ov react p xs ys gaps k).obs).log = told react p ⟨[], some .completed⟩ ∧
    (CT.exec c (RoundRobin.subscribe gaps ++ List.replicate (k + 1) .run)).mode = .user := by
  obtain ⟨h1, h2⟩ := Turns.arrives hc hg hk
  refine ⟨?_, h2⟩
  unfold Turns.subUntil
  rw [h1, until_runs]
  exact SyncPair.sees_told (cap := cap) (ov := ov) react p hp hfit ⟨[], some .completed⟩

/-! ## Cases -/

/-- `1, 2, 3` and `10, 20`: what the operators show. -/
example : results .zip Prod.mk [1, 2, 3] [10, 20] = [(1, 10), (2, 20)] ∧
    results .latest Prod.mk [1, 2, 3] [10, 20] = [(1, 10), (1, 20), (2, 20), (3, 20)] ∧
    results .withLatest Prod.mk [1, 2, 3] [10, 20] = [(1, 10), (2, 20), (3, 20)] ∧
    results .latest Prod.mk ([] : List Nat) [10, 20] = [] := by decide

/-- A world with these containers, in which each value takes `7` units; models no code. -/
def Turns.exCfg (xs ys : List Nat) : Cfg where
  body i n := ([.elapse 7], if n + 1 < ((sources xs ys).getD i []).length then .again 0 else .stop)
  kind _ := .fromNow
  hnd i := i
  ext _ := none
  lag _ := 3

theorem Turns.exCfg_emits (xs ys : List Nat) : RoundRobin.Emits (Turns.exCfg xs ys) (sources xs ys) where
  kind _ := rfl
  acts i n a ha := by simp only [Turns.exCfg, List.mem_singleton] at ha; exact ⟨7, ha⟩
  res _ _ := rfl
  alive _ := rfl

/-- The theorem in it. -/
example : evsOf ((Pipe.nil : Pipe Unit (Nat × Nat) (Nat × Nat)).final (Turns.sub .latest (Turns.exCfg [1, 2, 3] [10, 20]) none () (fun _ => {}) (.nil : Pipe Unit (Nat × Nat) (Nat × Nat)) Prod.mk [1, 2, 3] [10, 20] [0, 2] 5).obs).log
    = told (fun _ => {}) (.nil : Pipe Unit (Nat × Nat) (Nat × Nat)) ⟨[(1, 10), (1, 20), (2, 20), (3, 20)], some .completed⟩ :=
  (C126_turns (Turns.exCfg [1, 2, 3] [10, 20]) none () (fun _ => {}) (.nil : Pipe Unit (Nat × Nat) (Nat × Nat)) .latest trivial (fun _ h => nomatch h) Prod.mk [1, 2, 3] [10, 20] (Turns.exCfg_emits _ _) [0, 2] rfl 5 (by decide)).1

end Rpp
