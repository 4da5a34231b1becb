import Verif.Resub.SyncProps

/-!
# `merge`, `concat` and `switch_on_next` of observables on one thread

`/repo/src/rpp/rpp/operators/merge.hpp`, `concat.hpp` and `switch_on_next.hpp` (behind `flat_map`, flat_map.hpp 15-45) if an immediate `from_iterable`, with or without an end, hands over the inner observables and each of these
hands over all it has inside `subscribe`: what is seen, and whether the loop of the outer source ends.
-/

namespace Rpp.SyncFlat

open From (Lbl)
open SyncResub (upTo upTo_succ Enough finCalls)

/-- Which operator. (operators/merge.hpp, concat.hpp, switch_on_next.hpp) -/
inductive Kind where
  | merge
  | concat
  | switch
  deriving DecidableEq

/-- Where the thread is: at the test of the outer source's loop (from.hpp 107-113); past it, about to hand over an inner observable; inside an inner observable's `subscribe`, with these values and this end still to come; returned. -/
inductive Pc (α ε : Type) where
  | look
  | give
  | item (rest : List α) (fin : Option (Term ε))
  | done

/-- `next`: the inner observables handed over; `opened`: those subscribed to; `queued`: those in `m_queue` (concat.hpp 107).  `live`: the inner observables that have not ended: for merge `m_on_completed_needed` without
the outer one (merge.hpp 48), for concat 1 if the stage is `Processing` (concat.hpp 108), for switch_on_next 1 if `m_last_refcount` is not disposed (switch_on_next.hpp 133). -/
structure St (α ε σ : Type) where
  obs : σ
  pc : Pc α ε := .look
  next : Nat := 0
  opened : Nat := 0
  queued : Nat := 0
  live : Nat := 0

/-- The call `on_completed` of the outer observer: passed on if nothing is live. (merge.hpp 80-93, concat.hpp 184-189, switch_on_next.hpp 111-116) -/
def outerEnd (O : Obs α ε σ) (s : St α ε σ) : σ := if s.live = 0 then O.onCompleted s.obs else s.obs

/-- The call `on_next` of the outer observer with inner observable number `s.next`, up to its subscription. (merge.hpp 121-126, concat.hpp 174-182, switch_on_next.hpp 98-104) -/
def give (kd : Kind) (src : Nat → Trace α ε) (s : St α ε σ) : St α ε σ :=
  match kd with
  | .merge => { s with pc := .item (src s.next).vals (src s.next).fin, next := s.next + 1, opened := s.opened + 1, live := s.live + 1 }
  | .switch => { s with pc := .item (src s.next).vals (src s.next).fin, next := s.next + 1, opened := s.opened + 1, live := 1 }
  | .concat =>
    if s.live = 0 then { s with pc := .item (src s.next).vals (src s.next).fin, next := s.next + 1, opened := s.opened + 1, live := 1 }
    else { s with pc := .look, next := s.next + 1, queued := s.queued + 1 }

/-- One step.  `src k` is what inner observable `k` hands over, testing `is_disposed()` before every value (from.hpp 107-113); `n` is the number of inner observables, `none` without an end.
Simplifications: `subscribe` does not throw; the operators' disposables are disposed exactly if the observer is (C03); the tests of `is_disposed()` between the
outer loop's and the subscription are left out.  An inner observable that completes inside `subscribe` leaves nothing live; concat's queue is then empty, since
inner observables are queued only while one is live, and on one thread only one that does not end inside `subscribe` stays live.
(sources/from.hpp 101-121, operators/merge.hpp 51-127, concat.hpp 54-189, switch_on_next.hpp 46-116) -/
def step (kd : Kind) (O : Obs α ε σ) (kill : σ → σ) (n : Option Nat) (src : Nat → Trace α ε) (s : St α ε σ) : Lbl → St α ε σ
  | .kill => { s with obs := kill s.obs }
  | .run => match s.pc with
    | .done => s
    | .look =>
      if n = some s.next then { s with obs := outerEnd O s, pc := .done }
      else if O.isDisposed s.obs then { s with pc := .done }
      else { s with pc := .give }
    | .give => give kd src s
    | .item (a :: as) fin => if O.isDisposed s.obs then { s with pc := .look } else { s with obs := O.onNext a s.obs, pc := .item as fin }
    | .item [] fin =>
      if O.isDisposed s.obs then { s with pc := .look }
      else match fin with
        | none => { s with pc := .look }
        | some (.error e) => { s with obs := O.onError e s.obs, pc := .look }
        | some .completed => { s with pc := .look, live := s.live - 1 }

/-- A run; the observer has been given the operator's disposable first. (merge.hpp 29-33, concat.hpp 40-46, switch_on_next.hpp 122-128) -/
def exec (kd : Kind) (O : Obs α ε σ) (kill : σ → σ) (n : Option Nat) (src : Nat → Trace α ε) (s : σ) (ls : List Lbl) : St α ε σ :=
  ls.foldl (step kd O kill n src) { obs := O.call (.up 0) s }

/-! ## Specification -/

/-- After an inner observable with this end the operator shows the values of the next one: merge and switch_on_next unless it failed, concat if it completed.  Specification; models no code. -/
def Passes : Kind → Option (Term ε) → Prop
  | .concat, f => f = some .completed
  | _, f => ∀ e, f ≠ some (.error e)

/-- The operator completes after these `n` inner observables: if all of them completed; switch_on_next asks only the last one.  Specification; models no code. -/
def AllEnd (kd : Kind) (src : Nat → Trace α ε) (n : Nat) : Prop :=
  match kd with
  | .switch => ∀ i, i + 1 = n → (src i).fin = some .completed
  | _ => ∀ i < n, (src i).fin = some .completed

/-- There are at least `m` inner observables.  Specification; models no code. -/
def Room (n : Option Nat) (m : Nat) : Prop := ∀ k, n = some k → m ≤ k

/-! ## Proofs -/

/-- What is live after `m` inner observables. -/
def liveAfter (kd : Kind) (src : Nat → Trace α ε) : Nat → Nat
  | 0 => 0
  | m + 1 => match kd with
    | .merge => liveAfter kd src m + if (src m).fin = none then 1 else 0
    | .switch => if (src m).fin = none then 1 else 0
    | .concat => 0

theorem none_iff {f : Option (Term ε)} (h : ∀ e, f ≠ some (.error e)) : f = none ∨ f = some .completed := by
  rcases f with _ | e | _
  · exact .inl rfl
  · exact absurd rfl (h e)
  · exact .inr rfl

theorem passes_cases {kd : Kind} {f : Option (Term ε)} (h : Passes kd f) : kd ≠ .concat ∧ f = none ∨ f = some .completed := by
  cases kd
  · rcases none_iff h with h | h
    · exact .inl ⟨by decide, h⟩
    · exact .inr h
  · exact .inr h
  · rcases none_iff h with h | h
    · exact .inl ⟨by decide, h⟩
    · exact .inr h

theorem liveAfter_zero {kd : Kind} {src : Nat → Trace α ε} : ∀ m, (∀ i < m, Passes kd (src i).fin) → (liveAfter kd src m = 0 ↔ AllEnd kd src m) := by
  intro m
  cases kd with
  | merge =>
    induction m with
    | zero => intro _; exact ⟨fun _ i hi => by omega, fun _ => rfl⟩
    | succ m ih =>
      intro h
      have := ih (fun i hi => h i (by omega))
      simp only [liveAfter, AllEnd] at this ⊢
      rcases passes_cases (h m (by omega)) with ⟨_, hm⟩ | hm
      · simp only [hm, if_true]
        refine ⟨fun h => by omega, fun h => ?_⟩
        have := h m (by omega)
        rw [hm] at this
        cases this
      · simp only [hm]
        rw [if_neg (by intro h; cases h), Nat.add_zero, this]
        refine ⟨fun h i hi => ?_, fun h i hi => h i (by omega)⟩
        rcases Nat.lt_or_ge i m with h' | h'
        · exact h i h'
        · have : i = m := by omega
          rw [this]; exact hm
  | concat =>
    intro h
    cases m with
    | zero => exact ⟨fun _ i hi => by omega, fun _ => rfl⟩
    | succ m => exact ⟨fun _ => h, fun _ => rfl⟩
  | switch =>
    intro h
    cases m with
    | zero => exact ⟨fun _ i hi => by omega, fun _ => rfl⟩
    | succ m =>
      simp only [liveAfter, AllEnd]
      rcases passes_cases (h m (by omega)) with ⟨_, hm⟩ | hm
      · simp only [hm, if_true]
        refine ⟨fun h => by omega, fun h => ?_⟩
        have := h m rfl
        rw [hm] at this
        cases this
      · simp only [hm]
        rw [if_neg (by intro h; cases h)]
        refine ⟨fun _ i hi => ?_, fun _ => rfl⟩
        have : i = m := by omega
        rw [this]; exact hm

section
variable {kd : Kind} {O : Obs α ε σ} {kill : σ → σ} {n : Option Nat} {src : Nat → Trace α ε}

open SyncResub (nexts_gone run_nexts not_gone)

theorem done_stays (k : Nat) {t : St α ε σ} (h : t.pc = .done) : (List.replicate k Lbl.run).foldl (step kd O kill n src) t = t := by
  induction k with
  | zero => rfl
  | succ k ih =>
    rw [List.replicate_succ, List.foldl_cons]
    have : step kd O kill n src t .run = t := by simp only [step, h]
    rw [this, ih]

/-- From `t` the thread comes to `t'`, in `k` steps. -/
def Gets (kd : Kind) (O : Obs α ε σ) (kill : σ → σ) (n : Option Nat) (src : Nat → Trace α ε) (k : Nat) (t t' : St α ε σ) : Prop :=
  (List.replicate k Lbl.run).foldl (step kd O kill n src) t = t'

theorem Gets.trans {k m : Nat} {t t' t'' : St α ε σ} (h : Gets kd O kill n src k t t') (h' : Gets kd O kill n src m t' t'') : Gets kd O kill n src (k + m) t t'' := by
  unfold Gets at *
  rw [← List.replicate_append_replicate, List.foldl_append, h, h']

theorem Gets.one {t t' : St α ε σ} (h : step kd O kill n src t .run = t') : Gets kd O kill n src 1 t t' := h

theorem items_pass (hl : Lawful O) (fin : Option (Term ε)) : ∀ (l : List α) (t : St α ε σ), t.pc = .item l fin → O.isDisposed (O.run t.obs (l.map .next)) = false →
    Gets kd O kill n src l.length t { t with obs := O.run t.obs (l.map .next), pc := .item [] fin } := by
  intro l
  induction l with
  | nil => intro t hp _; rcases t with ⟨o, pc, nx, op, q, lv⟩; dsimp only at hp; subst hp; exact rfl
  | cons a l ih =>
    intro t hp hd
    have h0 : O.isDisposed t.obs = false := by
      cases h : O.isDisposed t.obs with
      | false => rfl
      | true => rw [nexts_gone hl h, h] at hd; cases hd
    have h1 : step kd O kill n src t .run = { t with obs := O.onNext a t.obs, pc := .item l fin } := by simp only [step, hp, h0, Bool.false_eq_true, if_false]
    have h2 := ih { t with obs := O.onNext a t.obs, pc := .item l fin } rfl hd
    rw [List.length_cons, Nat.add_comm]
    exact (Gets.one h1).trans h2

theorem items_stop (hl : Lawful O) (fin : Option (Term ε)) : ∀ (l : List α) (t : St α ε σ), t.pc = .item l fin → O.isDisposed (O.run t.obs (l.map .next)) = true →
    ∃ k, Gets kd O kill n src k t { t with obs := O.run t.obs (l.map .next), pc := .look } := by
  intro l
  induction l with
  | nil =>
    intro t hp hd
    have hd' : O.isDisposed t.obs = true := hd
    exact ⟨1, Gets.one (by simp only [step, hp, hd', if_true]; rfl)⟩
  | cons a l ih =>
    intro t hp hd
    cases h0 : O.isDisposed t.obs with
    | true =>
      rw [nexts_gone hl h0]
      exact ⟨1, Gets.one (by simp only [step, hp, h0, if_true])⟩
    | false =>
      have h1 : step kd O kill n src t .run = { t with obs := O.onNext a t.obs, pc := .item l fin } := by simp only [step, hp, h0, Bool.false_eq_true, if_false]
      obtain ⟨k, h2⟩ := ih { t with obs := O.onNext a t.obs, pc := .item l fin } rfl hd
      exact ⟨1 + k, (Gets.one h1).trans h2⟩

/-- The outer loop before inner observable `m`, having shown the values `l`. -/
def before (O : Obs α ε σ) (o : σ) (l : List α) (m lv : Nat) : St α ε σ :=
  { obs := O.run o (l.map .next), next := m, opened := m, live := lv }

/-- What is live inside inner observable `m`. -/
def lives : Kind → Nat → Nat
  | .merge, lv => lv + 1
  | _, _ => 1

/-- The thread inside inner observable `m - 1`. -/
def within (O : Obs α ε σ) (o : σ) (l : List α) (m lv : Nat) (rest : List α) (fin : Option (Term ε)) : St α ε σ :=
  { obs := O.run o (l.map .next), pc := .item rest fin, next := m, opened := m, live := lv }

/-- The loop has returned. -/
def Over (O : Obs α ε σ) (x : σ) (m : Nat) (t : St α ε σ) : Prop := t.pc = .done ∧ t.opened = m ∧ t.obs = x

theorem opens {o : σ} {l : List α} {m lv : Nat} (hd : O.isDisposed (O.run o (l.map .next)) = false) (hr : Room n (m + 1)) (hc : kd = .concat → lv = 0) :
    Gets kd O kill n src 2 (before O o l m lv) (within O o l (m + 1) (lives kd lv) (src m).vals (src m).fin) := by
  show step kd O kill n src (step kd O kill n src _ .run) .run = _
  have h : ¬ n = some m := fun h => by have := hr m h; omega
  simp only [before, within, step, hd, h, Bool.false_eq_true, if_false]
  cases kd with
  | merge => rfl
  | switch => rfl
  | concat => simp only [give, hc rfl, if_true]; rfl

theorem arrives (hl : Lawful O) {o : σ} {l : List α} {m lv : Nat} (hd : O.isDisposed (O.run o ((l ++ (src m).vals).map .next)) = false) (hr : Room n (m + 1)) (hc : kd = .concat → lv = 0) :
    Gets kd O kill n src (2 + (src m).vals.length) (before O o l m lv) (within O o (l ++ (src m).vals) (m + 1) (lives kd lv) [] (src m).fin) := by
  have h1 := opens (kd := kd) (kill := kill) (src := src) (not_gone hl hd) hr hc
  have h2 := items_pass (kd := kd) (kill := kill) (n := n) (src := src) hl (src m).fin (src m).vals (within O o l (m + 1) (lives kd lv) (src m).vals (src m).fin) rfl
    (by show O.isDisposed (O.run (O.run o (l.map .next)) _) = false
        rw [run_nexts]; exact hd)
  have h3 := h1.trans h2
  unfold Gets at h3 ⊢
  rw [h3]
  simp only [within, run_nexts]

/-- An observer that is disposed of when the thread is back in the outer loop. -/
theorem looks_gone (hl : Lawful O) {t : St α ε σ} (hp : t.pc = .look) (hd : O.isDisposed t.obs = true) : ∃ k, Over O t.obs t.opened ((List.replicate k Lbl.run).foldl (step kd O kill n src) t) := by
  refine ⟨1, ?_⟩
  show Over O t.obs t.opened (step kd O kill n src t .run)
  by_cases h : n = some t.next
  · have he : outerEnd O t = t.obs := by
      unfold outerEnd
      split
      · exact hl.run_disposed [.completed] _ hd
      · rfl
    simp only [step, hp, if_pos h, he]
    exact ⟨rfl, rfl, rfl⟩
  · simp only [step, hp, if_neg h, hd, if_true]
    exact ⟨rfl, rfl, rfl⟩

theorem stops (hl : Lawful O) {o : σ} {l : List α} {m lv : Nat} (h0 : O.isDisposed (O.run o (l.map .next)) = false)
    (hd : O.isDisposed (O.run o ((l ++ (src m).vals).map .next)) = true) (hr : Room n (m + 1)) (hc : kd = .concat → lv = 0) :
    ∃ k, Over O (O.run o ((l ++ (src m).vals).map .next)) (m + 1) ((List.replicate k Lbl.run).foldl (step kd O kill n src) (before O o l m lv)) := by
  have h1 := opens (kd := kd) (kill := kill) (src := src) h0 hr hc
  obtain ⟨k, h2⟩ := items_stop (kd := kd) (kill := kill) (n := n) (src := src) hl (src m).fin (src m).vals (within O o l (m + 1) (lives kd lv) (src m).vals (src m).fin) rfl
    (by show O.isDisposed (O.run (O.run o (l.map .next)) _) = true
        rw [run_nexts]; exact hd)
  have h3 := h1.trans h2
  obtain ⟨k', h4⟩ := looks_gone (kd := kd) (kill := kill) (n := n) (src := src) hl
    (t := { within O o l (m + 1) (lives kd lv) (src m).vals (src m).fin with obs := O.run (within O o l (m + 1) (lives kd lv) (src m).vals (src m).fin).obs ((src m).vals.map .next), pc := .look }) rfl
    (by show O.isDisposed (O.run (O.run o (l.map .next)) _) = true
        rw [run_nexts]; exact hd)
  refine ⟨2 + k + k', ?_⟩
  unfold Gets at h3
  rw [← List.replicate_append_replicate, List.foldl_append, h3]
  have e : O.run o ((l ++ (src m).vals).map .next) = O.run (within O o l (m + 1) (lives kd lv) (src m).vals (src m).fin).obs ((src m).vals.map .next) := (run_nexts o l _).symm
  rw [e]
  exact h4

theorem one_round (hl : Lawful O) {o : σ} {l : List α} {m : Nat} (hd : O.isDisposed (O.run o ((l ++ (src m).vals).map .next)) = false) (hr : Room n (m + 1)) (ha : Passes kd (src m).fin) :
    ∃ k, 0 < k ∧ Gets kd O kill n src k (before O o l m (liveAfter kd src m)) (before O o (l ++ (src m).vals) (m + 1) (liveAfter kd src (m + 1))) := by
  refine ⟨_, ?_, (arrives hl hd hr ?_).trans (m := 1) (Gets.one ?_)⟩
  · omega
  · intro hk
    subst hk
    cases m <;> rfl
  · simp only [within, before, step, hd, Bool.false_eq_true, if_false, liveAfter]
    rcases passes_cases ha with ⟨hk, hf⟩ | hf
    · rw [hf]
      cases kd
      · simp [lives]
      · exact absurd rfl hk
      · simp [lives]
    · rw [hf]
      cases kd <;> simp [lives]

theorem fails (hl : Lawful O) {o : σ} {l : List α} {m lv : Nat} {e : ε} (hd : O.isDisposed (O.run o ((l ++ (src m).vals).map .next)) = false) (hr : Room n (m + 1)) (hc : kd = .concat → lv = 0)
    (he : (src m).fin = some (.error e)) :
    ∃ k, Over O (O.run o ((l ++ (src m).vals).map .next ++ [.error e])) (m + 1) ((List.replicate k Lbl.run).foldl (step kd O kill n src) (before O o l m lv)) := by
  have h1 := arrives (kd := kd) (kill := kill) (n := n) (src := src) hl hd hr hc
  rw [he] at h1
  have h2 : step kd O kill n src (within O o (l ++ (src m).vals) (m + 1) (lives kd lv) [] (some (.error e))) .run
      = { within O o (l ++ (src m).vals) (m + 1) (lives kd lv) [] (some (.error e)) with obs := O.run o ((l ++ (src m).vals).map .next ++ [.error e]), pc := .look } := by
    rw [Obs.run_append]
    simp only [within, step, hd, Bool.false_eq_true, if_false]
    rfl
  have h3 := h1.trans (Gets.one h2)
  have hg : O.isDisposed (O.run o ((l ++ (src m).vals).map .next ++ [.error e])) = true := by
    rw [Obs.run_append]
    exact hl.term _ (.error e) rfl
  obtain ⟨k', h4⟩ := looks_gone (kd := kd) (kill := kill) (n := n) (src := src) hl
    (t := { within O o (l ++ (src m).vals) (m + 1) (lives kd lv) [] (some (.error e)) with obs := O.run o ((l ++ (src m).vals).map .next ++ [.error e]), pc := .look }) rfl hg
  refine ⟨2 + (src m).vals.length + 1 + k', ?_⟩
  unfold Gets at h3
  rw [← List.replicate_append_replicate, List.foldl_append, h3]
  exact h4

theorem reaches (hl : Lawful O) {o : σ} (m : Nat) (hd : O.isDisposed (O.run o ((upTo src m).map .next)) = false) (hr : Room n m) (ha : ∀ i < m, Passes kd (src i).fin) :
    ∃ k, m ≤ k ∧ Gets kd O kill n src k (before O o [] 0 0) (before O o (upTo src m) m (liveAfter kd src m)) := by
  induction m with
  | zero => exact ⟨0, Nat.le_refl _, rfl⟩
  | succ m ih =>
    rw [upTo_succ] at hd ⊢
    obtain ⟨k, hk, h1⟩ := ih (not_gone hl hd) (fun k hk => by have := hr k hk; omega) (fun i hi => ha i (by omega))
    obtain ⟨k', hk', h2⟩ := one_round (kd := kd) (kill := kill) (n := n) hl hd hr (ha m (by omega))
    exact ⟨k + k', by omega, h1.trans h2⟩

/-- concat with an inner observable live: everything is queued. -/
theorem queues {t : St α ε σ} (hp : t.pc = .look) (hlv : t.live ≠ 0) (hd : O.isDisposed t.obs = false) : ∀ k, Gets .concat O kill none src (2 * k) t { t with next := t.next + k, queued := t.queued + k } := by
  intro k
  induction k with
  | zero => exact rfl
  | succ k ih =>
    refine ih.trans (m := 2) ?_
    show step .concat O kill none src (step .concat O kill none src _ .run) .run = _
    simp only [step, hp, hd, give, if_neg hlv, Bool.false_eq_true, if_false, reduceCtorEq]
    simp only [Nat.add_assoc]

end

theorem exec_done {kd : Kind} {O : Obs α ε σ} {kill : σ → σ} {src : Nat → Trace α ε} {n : Option Nat} {s : σ} {k k' : Nat} (hk : k ≤ k')
    (h : (exec kd O kill n src s (List.replicate k .run)).pc = .done) : exec kd O kill n src s (List.replicate k' .run) = exec kd O kill n src s (List.replicate k .run) := by
  obtain ⟨d, rfl⟩ : ∃ d, k' = k + d := ⟨k' - k, by omega⟩
  rw [Endless.replicate_add]
  unfold exec at h ⊢
  rw [List.foldl_append, done_stays d h]

end Rpp.SyncFlat
