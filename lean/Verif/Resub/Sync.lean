import Verif.Source.EndlessProps

/-!
# `concat`, `repeat` and `retry` on one thread

`/repo/src/rpp/rpp/sources/concat.hpp` and `/repo/src/rpp/rpp/operators/retry.hpp` over observables that hand over all their values inside
`subscribe`: whether and when the loop `drain` ends.  `Verif.Resub.Machine` models the same loops for all threads and all moments, but says nothing about ending.
-/

namespace Rpp.SyncResub

open From (Lbl)

/-- Which loop: `drain` of sources/concat.hpp 88-114 (also behind `repeat`, operators/repeat.hpp 21-42) or of operators/retry.hpp 89-112. -/
inductive Kind where
  | concat
  | retry
  deriving DecidableEq

/-- Where the thread is: at the test of the `while` loop; past it; inside the observable's `subscribe`, with these values and this end still to hand over; back from `subscribe`; returned.
(sources/concat.hpp 88-114, operators/retry.hpp 89-112) -/
inductive Pc (α ε : Type) where
  | test
  | open
  | item (rest : List α) (fin : Option (Term ε))
  | back
  | done

/-- `left`: how often the loop may still subscribe, `none` without a limit: for concat what is left between `itr` and `cend(container)` (concat.hpp 45), for retry `count` (retry.hpp 32).  Simplification: the
counter does not wrap (see C31).  `opened`: how often it has subscribed; `inside`: `is_inside_drain` (concat.hpp 46, retry.hpp 33). -/
structure St (α ε σ : Type) where
  obs : σ
  pc : Pc α ε := .test
  left : Option Nat
  opened : Nat := 0
  inside : Bool := false

/-- One step.  `src k` is what the observable hands over at the `k`-th subscription, as from.hpp 101-121 does: it tests `is_disposed()` before every value.
Simplifications: `subscribe` does not throw; `state->disposable`, which the observer was given as its upstream (concat.hpp 31, retry.hpp 29), is disposed exactly if the observer is (C03).
`kill` is the user disposing of the subscription.  (sources/concat.hpp 60-114, operators/retry.hpp 46-112) -/
def step (kd : Kind) (O : Obs α ε σ) (kill : σ → σ) (src : Nat → Trace α ε) (s : St α ε σ) : Lbl → St α ε σ
  | .kill => { s with obs := kill s.obs }
  | .run => match s.pc with
    | .done => s
    | .test =>
      if O.isDisposed s.obs then { s with pc := .done }
      else if kd = .concat ∧ s.left = some 0 then { s with obs := O.onCompleted s.obs, pc := .done }
      else { s with pc := .open }
    | .open => { s with pc := .item (src s.opened).vals (src s.opened).fin, left := s.left.map (· - 1), opened := s.opened + 1, inside := true }
    | .item (a :: as) fin => if O.isDisposed s.obs then { s with pc := .back } else { s with obs := O.onNext a s.obs, pc := .item as fin }
    | .item [] fin =>
      if O.isDisposed s.obs then { s with pc := .back }
      else match kd, fin with
        | _, none => { s with pc := .back }
        | .concat, some .completed => { s with pc := .back, inside := false }
        | .concat, some (.error e) => { s with obs := O.onError e s.obs, pc := .back }
        | .retry, some .completed => { s with obs := O.onCompleted s.obs, pc := .back }
        | .retry, some (.error e) => if s.left = some 0 then { s with obs := O.onError e s.obs, pc := .back } else { s with pc := .back, inside := false }
    | .back => if s.inside then { s with pc := .done, inside := false } else { s with pc := .test }

/-- The state in which `drain` is called first: the observer has been given the operator's disposable (call it 0).  `n` is the number of observables of concat, the `count` of retry. (sources/concat.hpp 27-41, 130-134,
operators/retry.hpp 23-30, 127-131) -/
def init (kd : Kind) (O : Obs α ε σ) (n : Option Nat) (s : σ) : St α ε σ :=
  { obs := O.call (.up 0) s, left := match kd with | .concat => n | .retry => n.map (· + 1) }

/-- A run. (sources/concat.hpp 60-114, operators/retry.hpp 46-112) -/
def exec (kd : Kind) (O : Obs α ε σ) (kill : σ → σ) (n : Option Nat) (src : Nat → Trace α ε) (s : σ) (ls : List Lbl) : St α ε σ :=
  ls.foldl (step kd O kill src) (init kd O n s)

/-! ## Specification -/

/-- The ends after which the operator subscribes again.  Specification; models no code. -/
def Again : Kind → Option (Term ε) → Prop
  | .concat, f => f = some .completed
  | .retry, f => ∃ e, f = some (.error e)

/-- How often the operator subscribes at most.  Specification; models no code. -/
def limit : Kind → Option Nat → Option Nat
  | .concat, n => n
  | .retry, n => n.map (· + 1)

/-- There are at least `m` observables to subscribe to.  Specification; models no code. -/
def Room (kd : Kind) (n : Option Nat) (m : Nat) : Prop := ∀ k, limit kd n = some k → m ≤ k

/-- The values of the first `m` subscriptions, one after the other.  Specification; models no code. -/
def upTo (src : Nat → Trace α ε) (m : Nat) : List α := (List.range m).flatMap (fun i => (src i).vals)

/-- These values are all the subscriber of the chain `p` needs.  Specification; models no code. -/
def Enough (react : List (Call γ ε) → Reaction ε) (p : Pipe ε α γ) (l : List α) : Prop :=
  Endless.enough react [] (p.spec ⟨l, none⟩).vals (p.spec ⟨l, none⟩).fin = true

/-- The call that tells of this end.  Specification; models no code. -/
def finCalls : Option (Term ε) → List (Call α ε)
  | none => []
  | some (.error e) => [.error e]
  | some .completed => [.completed]

/-! ## Proofs -/

theorem upTo_succ (src : Nat → Trace α ε) (m : Nat) : upTo src (m + 1) = upTo src m ++ (src m).vals := by
  simp [upTo, List.range_succ, List.flatMap_append]

section
variable {kd : Kind} {O : Obs α ε σ} {kill : σ → σ} {src : Nat → Trace α ε}

theorem done_stays (n : Nat) {t : St α ε σ} (h : t.pc = .done) : (List.replicate n Lbl.run).foldl (step kd O kill src) t = t := by
  induction n with
  | zero => rfl
  | succ n ih =>
    rw [List.replicate_succ, List.foldl_cons]
    have : step kd O kill src t .run = t := by simp only [step, h]
    rw [this, ih]

/-- From `t` the thread comes to `t'`, in `n` steps. -/
def Gets (kd : Kind) (O : Obs α ε σ) (kill : σ → σ) (src : Nat → Trace α ε) (n : Nat) (t t' : St α ε σ) : Prop :=
  (List.replicate n Lbl.run).foldl (step kd O kill src) t = t'

theorem Gets.trans {n m : Nat} {t t' t'' : St α ε σ} (h : Gets kd O kill src n t t') (h' : Gets kd O kill src m t' t'') : Gets kd O kill src (n + m) t t'' := by
  unfold Gets at *
  rw [← List.replicate_append_replicate, List.foldl_append, h, h']

theorem Gets.one {t t' : St α ε σ} (h : step kd O kill src t .run = t') : Gets kd O kill src 1 t t' := h

theorem nexts_gone (hl : Lawful O) {o : σ} (h : O.isDisposed o = true) : ∀ l : List α, O.run o (l.map .next) = o := by
  intro l
  induction l with
  | nil => rfl
  | cons a l ih =>
    rw [List.map_cons, Obs.run_cons]
    have h1 : O.call (.next a) o = o := hl.run_disposed [.next a] o h
    rw [h1, ih]

/-- All values are handed over while the observer is not disposed. -/
theorem items_pass (hl : Lawful O) (fin : Option (Term ε)) : ∀ (l : List α) (t : St α ε σ), t.pc = .item l fin → O.isDisposed (O.run t.obs (l.map .next)) = false →
    Gets kd O kill src l.length t { t with obs := O.run t.obs (l.map .next), pc := .item [] fin } := by
  intro l
  induction l with
  | nil => intro t hp _; rcases t with ⟨o, pc, lf, op, ins⟩; dsimp only at hp; subst hp; exact rfl
  | cons a l ih =>
    intro t hp hd
    have h0 : O.isDisposed t.obs = false := by
      cases h : O.isDisposed t.obs with
      | false => rfl
      | true => rw [nexts_gone hl h, h] at hd; cases hd
    have h1 : step kd O kill src t .run = { t with obs := O.onNext a t.obs, pc := .item l fin } := by simp only [step, hp, h0, Bool.false_eq_true, if_false]
    have h2 := ih { t with obs := O.onNext a t.obs, pc := .item l fin } rfl hd
    rw [List.length_cons, Nat.add_comm]
    exact (Gets.one h1).trans h2

/-- If they are too many for the observer, `drain` returns. -/
theorem items_stop (hl : Lawful O) (fin : Option (Term ε)) : ∀ (l : List α) (t : St α ε σ), t.pc = .item l fin → t.inside = true → O.isDisposed (O.run t.obs (l.map .next)) = true →
    ∃ n, Gets kd O kill src n t { t with obs := O.run t.obs (l.map .next), pc := .done, inside := false } := by
  intro l
  induction l with
  | nil =>
    intro t hp hi hd
    refine ⟨2, ?_⟩
    rcases t with ⟨o, pc, lf, op, ins⟩
    dsimp only at hp hi hd; subst hp; subst hi
    have hd' : O.isDisposed o = true := hd
    show step kd O kill src (step kd O kill src _ .run) .run = _
    simp only [step, hd', if_true]
    rfl
  | cons a l ih =>
    intro t hp hi hd
    cases h0 : O.isDisposed t.obs with
    | true =>
      refine ⟨2, ?_⟩
      rw [nexts_gone hl h0]
      rcases t with ⟨o, pc, lf, op, ins⟩
      dsimp only at hp hi h0; subst hp; subst hi
      show step kd O kill src (step kd O kill src _ .run) .run = _
      simp only [step, h0, if_true]
    | false =>
      have h1 : step kd O kill src t .run = { t with obs := O.onNext a t.obs, pc := .item l fin } := by simp only [step, hp, h0, Bool.false_eq_true, if_false]
      obtain ⟨n, h2⟩ := ih { t with obs := O.onNext a t.obs, pc := .item l fin } rfl hi hd
      exact ⟨1 + n, (Gets.one h1).trans h2⟩

/-- The loop before subscription `m`, having handed over the values `l`. -/
def before (O : Obs α ε σ) (lim : Option Nat) (o : σ) (l : List α) (m : Nat) : St α ε σ :=
  { obs := O.run o (l.map .next), left := lim.map (· - m), opened := m }

/-- The loop returned after subscription `m`. -/
def after (O : Obs α ε σ) (lim : Option Nat) (o : σ) (cs : List (Call α ε)) (m : Nat) : St α ε σ :=
  { obs := O.run o cs, pc := .done, left := lim.map (· - m), opened := m }

theorem run_nexts (o : σ) (l l' : List α) : O.run (O.run o (l.map .next)) (l'.map .next) = O.run o ((l ++ l').map .next) := by
  rw [List.map_append, Obs.run_append]

/-- The thread inside subscription `m`. -/
def within (O : Obs α ε σ) (lim : Option Nat) (o : σ) (l : List α) (m : Nat) (rest : List α) (fin : Option (Term ε)) : St α ε σ :=
  { obs := O.run o (l.map .next), pc := .item rest fin, left := lim.map (· - m), opened := m, inside := true }

theorem not_gone (hl : Lawful O) {o : σ} {l l' : List α} (hd : O.isDisposed (O.run o ((l ++ l').map .next)) = false) : O.isDisposed (O.run o (l.map .next)) = false := by
  cases h : O.isDisposed (O.run o (l.map .next)) with
  | false => rfl
  | true => rw [← run_nexts, nexts_gone hl h, h] at hd; cases hd

theorem opens {lim : Option Nat} {o : σ} {l : List α} {m : Nat} (hd : O.isDisposed (O.run o (l.map .next)) = false) (hr : ∀ k, lim = some k → m < k) :
    Gets kd O kill src 2 (before O lim o l m) (within O lim o l (m + 1) (src m).vals (src m).fin) := by
  show step kd O kill src (step kd O kill src _ .run) .run = _
  have h : ¬ (kd = .concat ∧ lim.map (· - m) = some 0) := by
    rintro ⟨_, h⟩
    cases lim with
    | none => cases h
    | some k => simp at h; have := hr k rfl; omega
  simp only [before, within, step, hd, h, Bool.false_eq_true, if_false]
  simp only [Option.map_map]
  congr 1

/-- The loop subscribes, and the observable hands over all its values. -/
theorem arrives (hl : Lawful O) {lim : Option Nat} {o : σ} {l : List α} {m : Nat} (hd : O.isDisposed (O.run o ((l ++ (src m).vals).map .next)) = false) (hr : ∀ k, lim = some k → m < k) :
    Gets kd O kill src (2 + (src m).vals.length) (before O lim o l m) (within O lim o (l ++ (src m).vals) (m + 1) [] (src m).fin) := by
  have h1 := opens (kd := kd) (kill := kill) (src := src) (not_gone hl hd) hr
  have h2 := items_pass (kd := kd) (kill := kill) (src := src) hl (src m).fin (src m).vals (within O lim o l (m + 1) (src m).vals (src m).fin) rfl
    (by show O.isDisposed (O.run (O.run o (l.map .next)) _) = false
        rw [run_nexts]; exact hd)
  have h3 := h1.trans h2
  unfold Gets at h3 ⊢
  rw [h3]
  simp only [within, run_nexts]

/-- The loop subscribes, and the observable hands over enough. -/
theorem stops (hl : Lawful O) {lim : Option Nat} {o : σ} {l : List α} {m : Nat} (h0 : O.isDisposed (O.run o (l.map .next)) = false)
    (hd : O.isDisposed (O.run o ((l ++ (src m).vals).map .next)) = true) (hr : ∀ k, lim = some k → m < k) :
    ∃ n, Gets kd O kill src n (before O lim o l m) (after O lim o ((l ++ (src m).vals).map .next) (m + 1)) := by
  have h1 := opens (kd := kd) (kill := kill) (src := src) h0 hr
  obtain ⟨n, h2⟩ := items_stop (kd := kd) (kill := kill) (src := src) hl (src m).fin (src m).vals (within O lim o l (m + 1) (src m).vals (src m).fin) rfl rfl
    (by show O.isDisposed (O.run (O.run o (l.map .next)) _) = true
        rw [run_nexts]; exact hd)
  refine ⟨2 + n, ?_⟩
  have h3 := h1.trans h2
  unfold Gets at h3 ⊢
  rw [h3]
  simp only [within, after, run_nexts]

/-- An observable after which the loop goes on. -/
theorem one_round (hl : Lawful O) {lim : Option Nat} {o : σ} {l : List α} {m : Nat} (hd : O.isDisposed (O.run o ((l ++ (src m).vals).map .next)) = false) (hr : ∀ k, lim = some k → m < k)
    (ha : Again kd (src m).fin) (hlast : kd = .retry → lim ≠ some (m + 1)) :
    ∃ n, 0 < n ∧ Gets kd O kill src n (before O lim o l m) (before O lim o (l ++ (src m).vals) (m + 1)) := by
  refine ⟨_, ?_, (arrives hl hd hr).trans (m := 2) ?_⟩
  · omega
  · show step kd O kill src (step kd O kill src _ .run) .run = _
    generalize (src m).fin = fin at ha
    cases kd with
    | concat =>
      simp only [Again] at ha
      subst ha
      simp only [step, within, before, hd, Bool.false_eq_true, if_false]
    | retry =>
      obtain ⟨e, rfl⟩ := ha
      have hz : ¬ lim.map (· - (m + 1)) = some 0 := by
        intro hz
        cases lim with
        | none => cases hz
        | some k => simp at hz; have := hr k rfl; exact hlast rfl (by congr; omega)
      simp only [step, within, before, hd, hz, Bool.false_eq_true, if_false]

/-- An observable after which it does not: its end is passed on. -/
theorem last_round (hl : Lawful O) {lim : Option Nat} {o : σ} {l : List α} {m : Nat} (hd : O.isDisposed (O.run o ((l ++ (src m).vals).map .next)) = false) (hr : ∀ k, lim = some k → m < k)
    (ha : ¬ Again kd (src m).fin ∨ kd = .retry ∧ lim = some (m + 1)) :
    ∃ n, Gets kd O kill src n (before O lim o l m) (after O lim o ((l ++ (src m).vals).map .next ++ finCalls (src m).fin) (m + 1)) := by
  refine ⟨_, (arrives hl hd hr).trans (m := 2) ?_⟩
  show step kd O kill src (step kd O kill src _ .run) .run = _
  unfold after
  rw [Obs.run_append]
  generalize (src m).fin = fin at ha
  generalize hx : O.run o ((l ++ (src m).vals).map .next) = x at hd
  have hw : ∀ f, within O lim o (l ++ (src m).vals) (m + 1) [] f = { obs := x, pc := .item [] f, left := lim.map (· - (m + 1)), opened := m + 1, inside := true } := fun f => by rw [← hx]; rfl
  rw [hw]
  rcases fin with _ | e | _ <;> cases kd
  case none.concat => simp [step, hd, finCalls]
  case none.retry => simp [step, hd, finCalls]
  case some.error.concat => simp [step, hd, finCalls]; rfl
  case some.completed.retry => simp [step, hd, finCalls]; rfl
  case some.completed.concat => exfalso; rcases ha with h | h; exact h rfl; cases h.1
  case some.error.retry =>
    rcases ha with h | h
    · exact absurd ⟨e, rfl⟩ h
    · simp [step, hd, finCalls, h.2]; rfl

/-- concat has no observable left. -/
theorem runs_out {lim : Option Nat} {o : σ} {l : List α} {m : Nat} (hd : O.isDisposed (O.run o (l.map .next)) = false) (hm : lim = some m) :
    Gets .concat O kill src 1 (before O lim o l m) (after O lim o (l.map .next ++ [.completed]) m) := by
  subst hm
  apply Gets.one
  unfold after
  rw [Obs.run_append]
  simp [step, before, hd]
  rfl

/-- Subscription `m` is reached. -/
theorem reaches (hl : Lawful O) {lim : Option Nat} {o : σ} (m : Nat) (hd : O.isDisposed (O.run o ((upTo src m).map .next)) = false) (hr : ∀ k, lim = some k → m ≤ k)
    (ha : ∀ i < m, Again kd (src i).fin) (hlast : kd = .retry → lim ≠ some m) :
    ∃ n, m ≤ n ∧ Gets kd O kill src n (before O lim o [] 0) (before O lim o (upTo src m) m) := by
  induction m with
  | zero => exact ⟨0, Nat.le_refl _, rfl⟩
  | succ m ih =>
    rw [upTo_succ] at hd ⊢
    obtain ⟨n, hn, h1⟩ := ih (not_gone hl hd) (fun k hk => by have := hr k hk; omega) (fun i hi => ha i (by omega)) (fun _ hk => by have := hr m hk; omega)
    obtain ⟨n', hn', h2⟩ := one_round (kd := kd) (kill := kill) hl hd (fun k hk => by have := hr k hk; omega) (ha m (by omega)) hlast
    exact ⟨n + n', by omega, h1.trans h2⟩

end

theorem exec_gets {kd : Kind} {O : Obs α ε σ} {kill : σ → σ} {src : Nat → Trace α ε} {n : Option Nat} {s : σ} {k : Nat} {t : St α ε σ} :
    Gets kd O kill src k (before O (limit kd n) (O.call (.up 0) s) [] 0) t ↔ exec kd O kill n src s (List.replicate k .run) = t := by
  have : init kd O n s = before O (limit kd n) (O.call (.up 0) s) [] 0 := by
    cases kd <;> cases n <;> simp [init, before, limit] <;> rfl
  unfold Gets exec
  rw [this]

theorem exec_done {kd : Kind} {O : Obs α ε σ} {kill : σ → σ} {src : Nat → Trace α ε} {n : Option Nat} {s : σ} {k k' : Nat} (hk : k ≤ k')
    (h : (exec kd O kill n src s (List.replicate k .run)).pc = .done) : exec kd O kill n src s (List.replicate k' .run) = exec kd O kill n src s (List.replicate k .run) := by
  obtain ⟨d, rfl⟩ : ∃ d, k' = k + d := ⟨k' - k, by omega⟩
  rw [Endless.replicate_add]
  unfold exec at h ⊢
  rw [List.foldl_append, done_stays d h]

end Rpp.SyncResub
