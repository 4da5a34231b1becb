import Verif.Combine.SyncPairProps

/-!
# `retry_when` and `on_error_resume_next` on one thread

`/repo/src/rpp/rpp/operators/retry_when.hpp` and `on_error_resume_next.hpp`, if the source, the notifiers and the other observables hand over everything inside `subscribe`.
-/

namespace Rpp.SyncHandle

open SyncResub (finCalls upTo)

/-- What the notifier's observable does first, or that the notifier throws. (operators/retry_when.hpp 58-80, 102-112) -/
inductive Note (ε : Type) where
  | value
  | fails (e : ε)
  | completes
  | nothing
  | throws (e : ε)

/-- Which operator: with its notifier or with its selector, which may throw. (operators/retry_when.hpp 146-149, on_error_resume_next.hpp 49-61) -/
inductive Kind (α ε : Type) where
  | retryWhen (nt : ε → Note ε)
  | resume (sel : ε → Except ε (Trace α ε))

/-- Where the thread is: at the `while` of `drain` (retry_when.hpp 127) or at the first `subscribe`; in the loop of a source that has these values and this end left, `first` unless it is the observable on_error_resume_next goes on with;
inside the operator's `on_error`; behind a `subscribe` (retry_when.hpp 135); returned. -/
inductive Pc (α ε : Type) where
  | drain
  | item (first : Bool) (r : List α) (fin : Option (Term ε))
  | handle (e : ε)
  | after
  | done

/-- `inside`: `is_inside_drain` (retry_when.hpp 36); `opened`: how often the source was subscribed to, `asked`: how often the notifier or the selector was called, which the code does not count. -/
structure St (α ε σ : Type) where
  obs : σ
  pc : Pc α ε := .drain
  inside : Bool := false
  opened : Nat := 0
  asked : Nat := 0

/-- The operator's `on_error`. (retry_when.hpp 58-80, 102-112, on_error_resume_next.hpp 69-79)
The notifier's first value clears `is_inside_drain`; if it had been cleared, `drain` would run again (64-67).  Further values find the inner observer disposed (61, 84). -/
def handle (kd : Kind α ε) (O : Obs α ε σ) (s : St α ε σ) (e : ε) : St α ε σ :=
  let s := { s with asked := s.asked + 1, pc := .after }
  match kd with
  | .retryWhen nt => match nt e with
    | .value => if s.inside then { s with inside := false } else { s with pc := .drain }
    | .fails e' => { s with obs := O.onError e' s.obs }
    | .completes => { s with obs := O.onCompleted s.obs }
    | .nothing => s
    | .throws e' => { s with obs := O.onError e' s.obs }
  | .resume sel => match sel e with
    | .ok t => { s with pc := .item false t.vals t.fin }
    | .error e' => { s with obs := O.onError e' s.obs }

/-- One step.  Simplifications: `subscribe` does not throw; the operators' disposables are disposed exactly if the observer is (C03); `src k` is what the `k`-th subscription to the source hands over.
(retry_when.hpp 124-144, on_error_resume_next.hpp 63-84, 25-46, sources/from.hpp 107-115) -/
def step (kd : Kind α ε) (O : Obs α ε σ) (src : Nat → Trace α ε) (s : St α ε σ) : St α ε σ :=
  match s.pc with
  | .done => s
  | .drain => match kd with
    | .retryWhen _ => if O.isDisposed s.obs then { s with pc := .done } else { s with inside := true, opened := s.opened + 1, pc := .item true (src s.opened).vals (src s.opened).fin }
    | .resume _ => { s with opened := s.opened + 1, pc := .item true (src s.opened).vals (src s.opened).fin }
  | .item b (a :: r) fin => if O.isDisposed s.obs then { s with pc := .after } else { s with obs := O.onNext a s.obs, pc := .item b r fin }
  | .item b [] fin => if O.isDisposed s.obs then { s with pc := .after } else match fin with
    | none => { s with pc := .after }
    | some .completed => { s with obs := O.onCompleted s.obs, pc := .after }
    | some (.error e) => if b then { s with pc := .handle e } else { s with obs := O.onError e s.obs, pc := .after }
  | .handle e => handle kd O s e
  | .after => match kd with
    | .retryWhen _ => if s.inside then { s with inside := false, pc := .done } else { s with pc := .drain }
    | .resume _ => { s with pc := .done }

/-- After `k` steps; the observer has been given a disposable first, by retry_when its own (retry_when.hpp 33), by on_error_resume_next the source's (on_error_resume_next.hpp 86-89); the second observable gives it none (a simplification). -/
def exec (kd : Kind α ε) (O : Obs α ε σ) (src : Nat → Trace α ε) (s : σ) (k : Nat) : St α ε σ := Nat.repeat (step kd O src) k { obs := O.call (.up 0) s }

/-! ## Specification -/

/-- What becomes of the end of an attempt: `none`, there is another one; `some f`, this is how it ends.  Specification; models no code. -/
def verdict (nt : ε → Note ε) : Option (Term ε) → Option (Option (Term ε))
  | none => some none
  | some .completed => some (some .completed)
  | some (.error e) => match nt e with
    | .value => none
    | .fails e' => some (some (.error e'))
    | .throws e' => some (some (.error e'))
    | .completes => some (some .completed)
    | .nothing => some none

/-- What on_error_resume_next makes of a sequence.  Specification; models no code. -/
def resumed (sel : ε → Except ε (Trace α ε)) (t : Trace α ε) : Trace α ε :=
  match t.fin with
  | some (.error e) => match sel e with
    | .ok u => ⟨t.vals ++ u.vals, u.fin⟩
    | .error e' => ⟨t.vals, some (.error e')⟩
  | _ => t

/-! ## Proofs -/

section
variable {kd : Kind α ε} {O : Obs α ε σ} {src : Nat → Trace α ε}

/-- `k` steps lead from here to there. -/
def Gets (kd : Kind α ε) (O : Obs α ε σ) (src : Nat → Trace α ε) (k : Nat) (s t : St α ε σ) : Prop := Nat.repeat (step kd O src) k s = t

theorem Gets.one {s t : St α ε σ} (h : step kd O src s = t) : Gets kd O src 1 s t := h

theorem Gets.trans {k j : Nat} {s t u : St α ε σ} (h : Gets kd O src k s t) (h' : Gets kd O src j t u) : Gets kd O src (k + j) s u := by
  unfold Gets at *
  rw [SyncPair.repeat_add, h, h']

theorem done_stays (k : Nat) {t : St α ε σ} (h : t.pc = .done) : Nat.repeat (step kd O src) k t = t := by
  induction k with
  | zero => rfl
  | succ k ih => show step kd O src (Nat.repeat _ k t) = t; rw [ih]; simp only [step, h]

/-- The values of a source, if the observer is not disposed after them. -/
theorem items (hl : Lawful O) {b : Bool} {fin : Option (Term ε)} {i : Bool} {m a : Nat} : ∀ (l : List α) (o : σ), O.isDisposed (O.run o (l.map .next)) = false →
    Gets kd O src l.length ⟨o, .item b l fin, i, m, a⟩ ⟨O.run o (l.map .next), .item b [] fin, i, m, a⟩ := by
  intro l
  induction l with
  | nil => intro o _; rfl
  | cons v l ih =>
    intro o hd
    have hd' : O.isDisposed o = false := by
      cases h : O.isDisposed o with
      | false => rfl
      | true => rw [SyncResub.nexts_gone hl h] at hd; rw [h] at hd; exact hd
    have h1 : Gets kd O src 1 ⟨o, .item b (v :: l) fin, i, m, a⟩ ⟨O.onNext v o, .item b l fin, i, m, a⟩ := Gets.one (by simp only [step, hd', Bool.false_eq_true, if_false])
    have := h1.trans (ih (O.onNext v o) hd)
    rw [Nat.add_comm] at this
    exact this

/-- The values of a source, if the observer is disposed after them. -/
theorem items_stop (hl : Lawful O) {b : Bool} {fin : Option (Term ε)} {i : Bool} {m a : Nat} : ∀ (l : List α) (o : σ), O.isDisposed (O.run o (l.map .next)) = true →
    ∃ k, Gets kd O src k ⟨o, .item b l fin, i, m, a⟩ ⟨O.run o (l.map .next), .after, i, m, a⟩ := by
  intro l
  induction l with
  | nil => intro o hd; exact ⟨1, Gets.one (by simp only [step, List.map_nil, Obs.run_nil] at hd ⊢; rw [if_pos hd])⟩
  | cons v l ih =>
    intro o hd
    cases h : O.isDisposed o with
    | true => exact ⟨1, Gets.one (by rw [SyncResub.nexts_gone hl h]; simp only [step, h, if_true])⟩
    | false =>
      have h1 : Gets kd O src 1 ⟨o, .item b (v :: l) fin, i, m, a⟩ ⟨O.onNext v o, .item b l fin, i, m, a⟩ := Gets.one (by simp only [step, h, Bool.false_eq_true, if_false])
      obtain ⟨k, h2⟩ := ih (O.onNext v o) hd
      exact ⟨1 + k, h1.trans h2⟩

/-- At the `while` of `drain` after `m` attempts that were followed by another. -/
def before (O : Obs α ε σ) (src : Nat → Trace α ε) (o : σ) (m : Nat) : St α ε σ := ⟨O.run o ((upTo src m).map .next), .drain, false, m, m⟩

/-- Behind an attempt's values. -/
theorem attempt {nt : ε → Note ε} (hl : Lawful O) {o : σ} {m : Nat} (hd : O.isDisposed (O.run o ((upTo src (m + 1)).map .next)) = false) :
    Gets (.retryWhen nt) O src (1 + (src m).vals.length) (before O src o m) ⟨O.run o ((upTo src (m + 1)).map .next), .item true [] (src m).fin, true, m + 1, m⟩ := by
  rw [SyncResub.upTo_succ] at hd ⊢
  have h0 := SyncResub.not_gone hl hd
  rw [← SyncResub.run_nexts] at hd ⊢
  have h1 : Gets (.retryWhen nt) O src 1 (before O src o m) ⟨O.run o ((upTo src m).map .next), .item true (src m).vals (src m).fin, true, m + 1, m⟩ :=
    Gets.one (by simp only [before, step, h0, Bool.false_eq_true, if_false])
  exact h1.trans (items hl _ _ hd)

theorem again {nt : ε → Note ε} (hl : Lawful O) {o : σ} {m : Nat} (hd : O.isDisposed (O.run o ((upTo src (m + 1)).map .next)) = false) (hv : verdict nt (src m).fin = none) :
    ∃ k, m < m + k ∧ Gets (.retryWhen nt) O src k (before O src o m) (before O src o (m + 1)) := by
  have h1 := attempt (nt := nt) hl hd
  obtain ⟨e, he, hn⟩ : ∃ e, (src m).fin = some (.error e) ∧ nt e = .value := by
    cases hf : (src m).fin with
    | none => rw [hf] at hv; cases hv
    | some t => cases t with
      | completed => rw [hf] at hv; cases hv
      | error e =>
        rw [hf] at hv
        refine ⟨e, rfl, ?_⟩
        cases hn : nt e with
        | value => rfl
        | _ => simp only [verdict, hn] at hv; cases hv
  rw [he] at h1
  have h2 : Gets (.retryWhen nt) O src 1 ⟨O.run o ((upTo src (m + 1)).map .next), .item true [] (some (.error e)), true, m + 1, m⟩ ⟨O.run o ((upTo src (m + 1)).map .next), .handle e, true, m + 1, m⟩ :=
    Gets.one (by simp only [step, hd, Bool.false_eq_true, if_false, if_true])
  have h3 : Gets (.retryWhen nt) O src 1 ⟨O.run o ((upTo src (m + 1)).map .next), .handle e, true, m + 1, m⟩ ⟨O.run o ((upTo src (m + 1)).map .next), .after, false, m + 1, m + 1⟩ :=
    Gets.one (by simp only [step, handle, hn, if_true])
  have h4 : Gets (.retryWhen nt) O src 1 ⟨O.run o ((upTo src (m + 1)).map .next), .after, false, m + 1, m + 1⟩ (before O src o (m + 1)) :=
    Gets.one (by simp only [step, before, Bool.false_eq_true, if_false])
  exact ⟨_, by omega, ((h1.trans h2).trans h3).trans h4⟩

theorem reaches {nt : ε → Note ε} (hl : Lawful O) {o : σ} (m : Nat) (hd : O.isDisposed (O.run o ((upTo src m).map .next)) = false) (hv : ∀ i < m, verdict nt (src i).fin = none) :
    ∃ k, m ≤ k ∧ Gets (.retryWhen nt) O src k { obs := o } (before O src o m) := by
  induction m with
  | zero => exact ⟨0, Nat.le_refl _, rfl⟩
  | succ m ih =>
    have hd' := hd
    rw [SyncResub.upTo_succ] at hd'
    obtain ⟨k, hk, h⟩ := ih (SyncResub.not_gone hl hd') (fun i hi => hv i (by omega))
    obtain ⟨j, hj, h'⟩ := again (nt := nt) hl hd (hv m (by omega))
    exact ⟨k + j, by omega, h.trans h'⟩

/-- The last attempt. -/
theorem ends {nt : ε → Note ε} (hl : Lawful O) {o : σ} {m : Nat} {f : Option (Term ε)} (hd : O.isDisposed (O.run o ((upTo src (m + 1)).map .next)) = false) (hv : verdict nt (src m).fin = some f) :
    ∃ k a, Gets (.retryWhen nt) O src k (before O src o m) ⟨O.run o ((upTo src (m + 1)).map .next ++ finCalls f), .done, false, m + 1, a⟩ := by
  have h1 := attempt (nt := nt) hl hd
  rw [Obs.run_append]
  generalize O.run o ((upTo src (m + 1)).map .next) = q at hd h1 ⊢
  have hdone : ∀ (q' : σ) (a : Nat), Gets (.retryWhen nt) O src 1 ⟨q', .after, true, m + 1, a⟩ ⟨q', .done, false, m + 1, a⟩ := fun q' a => Gets.one (by simp only [step, if_true])
  cases hf : (src m).fin with
  | none =>
    rw [hf] at h1 hv
    cases hv
    exact ⟨_, m, (h1.trans (Gets.one (by simp only [step, hd, Bool.false_eq_true, if_false]; rfl))).trans (hdone _ _)⟩
  | some t => cases t with
    | completed =>
      rw [hf] at h1 hv
      cases hv
      exact ⟨_, m, (h1.trans (Gets.one (by simp only [step, hd, Bool.false_eq_true, if_false]; rfl))).trans (hdone _ _)⟩
    | error e =>
      rw [hf] at h1 hv
      have h2 : Gets (.retryWhen nt) O src 1 ⟨q, .item true [] (some (.error e)), true, m + 1, m⟩ ⟨q, .handle e, true, m + 1, m⟩ := Gets.one (by simp only [step, hd, Bool.false_eq_true, if_false, if_true])
      have h3 : Gets (.retryWhen nt) O src 1 ⟨q, .handle e, true, m + 1, m⟩ ⟨O.run q (finCalls f), .after, true, m + 1, m + 1⟩ := Gets.one (by
        cases hn : nt e <;> simp only [verdict, hn] at hv <;> cases hv <;> simp only [step, handle, hn] <;> rfl)
      exact ⟨_, m + 1, ((h1.trans h2).trans h3).trans (hdone _ _)⟩

/-- The subscriber has had enough within an attempt. -/
theorem stops {nt : ε → Note ε} (hl : Lawful O) {o : σ} {m : Nat} (h0 : O.isDisposed (O.run o ((upTo src m).map .next)) = false) (hd : O.isDisposed (O.run o ((upTo src (m + 1)).map .next)) = true) :
    ∃ k, Gets (.retryWhen nt) O src k (before O src o m) ⟨O.run o ((upTo src (m + 1)).map .next), .done, false, m + 1, m⟩ := by
  rw [SyncResub.upTo_succ] at hd ⊢
  rw [← SyncResub.run_nexts] at hd ⊢
  have h1 : Gets (.retryWhen nt) O src 1 (before O src o m) ⟨O.run o ((upTo src m).map .next), .item true (src m).vals (src m).fin, true, m + 1, m⟩ :=
    Gets.one (by simp only [before, step, h0, Bool.false_eq_true, if_false])
  obtain ⟨k, h2⟩ := items_stop (kd := .retryWhen nt) (src := src) (b := true) (fin := (src m).fin) (i := true) (m := m + 1) (a := m) hl _ _ hd
  exact ⟨_, (h1.trans h2).trans (Gets.one (by simp only [step, if_true]))⟩

/-- The observable on_error_resume_next goes on with. -/
theorem second (hl : Lawful O) {sel : ε → Except ε (Trace α ε)} {i : Bool} {m a : Nat} (t : Trace α ε) (o : σ) :
    ∃ k, Gets (.resume sel) O src k ⟨o, .item false t.vals t.fin, i, m, a⟩ ⟨O.run o (SyncPair.calls t), .done, i, m, a⟩ := by
  unfold SyncPair.calls
  rw [Obs.run_append]
  have hdone : ∀ (q' : σ), Gets (.resume sel) O src 1 ⟨q', .after, i, m, a⟩ ⟨q', .done, i, m, a⟩ := fun q' => Gets.one (by simp only [step])
  cases hd : O.isDisposed (O.run o (t.vals.map .next)) with
  | true =>
    obtain ⟨k, h⟩ := items_stop (kd := .resume sel) (src := src) (b := false) (fin := t.fin) (i := i) (m := m) (a := a) hl t.vals o hd
    have e : O.run (O.run o (t.vals.map .next)) (finCalls t.fin) = O.run o (t.vals.map .next) := by
      rcases t.fin with _ | ⟨e⟩ | _
      · rfl
      · exact hl.run_disposed [.error e] _ hd
      · exact hl.run_disposed [.completed] _ hd
    rw [e]
    exact ⟨_, h.trans (hdone _)⟩
  | false =>
    have h := items (kd := .resume sel) (src := src) (b := false) (fin := t.fin) (i := i) (m := m) (a := a) hl t.vals o hd
    generalize O.run o (t.vals.map .next) = q at hd h ⊢
    have h2 : Gets (.resume sel) O src 1 ⟨q, .item false [] t.fin, i, m, a⟩ ⟨O.run q (finCalls t.fin), .after, i, m, a⟩ := Gets.one (by
      rcases t.fin with _ | ⟨e⟩ | _ <;> simp only [step, hd, Bool.false_eq_true, if_false] <;> rfl)
    exact ⟨_, (h.trans h2).trans (hdone _)⟩

open Classical in
theorem resume_all (hl : Lawful O) {sel : ε → Except ε (Trace α ε)} (o : σ) : ∃ k a, Gets (.resume sel) O src k { obs := o } ⟨O.run o (SyncPair.calls (resumed sel (src 0))), .done, false, 1, a⟩ ∧
    a = if O.isDisposed (O.run o ((src 0).vals.map .next)) = false ∧ ∃ e, (src 0).fin = some (.error e) then 1 else 0 := by
  have hdone : ∀ (q' : σ) a, Gets (.resume sel) O src 1 ⟨q', .after, false, 1, a⟩ ⟨q', .done, false, 1, a⟩ := fun q' a => Gets.one (by simp only [step])
  have h0 : Gets (.resume sel) O src 1 { obs := o } ⟨o, .item true (src 0).vals (src 0).fin, false, 1, 0⟩ := Gets.one (by simp only [step])
  have hcalls : ∀ (u v : List α) (f : Option (Term ε)), SyncPair.calls (⟨u ++ v, f⟩ : Trace α ε) = u.map .next ++ SyncPair.calls ⟨v, f⟩ := by intro u v f; simp [SyncPair.calls]
  have hform : ∃ v f, resumed sel (src 0) = ⟨(src 0).vals ++ v, f⟩ := by
    unfold resumed
    split
    · split
      · exact ⟨_, _, rfl⟩
      · exact ⟨[], some (.error _), by rw [List.append_nil]⟩
    · exact ⟨[], (src 0).fin, by simp⟩
  cases hd : O.isDisposed (O.run o ((src 0).vals.map .next)) with
  | true =>
    obtain ⟨k, h⟩ := items_stop (kd := .resume sel) (src := src) (b := true) (fin := (src 0).fin) (i := false) (m := 1) (a := 0) hl _ o hd
    obtain ⟨v, f, hr⟩ := hform
    rw [hr, hcalls, Obs.run_append]
    have e : O.run (O.run o ((src 0).vals.map .next)) (SyncPair.calls ⟨v, f⟩) = O.run o ((src 0).vals.map .next) := by
      simp only [SyncPair.calls]
      rw [Obs.run_append, SyncResub.nexts_gone hl hd]
      rcases f with _ | ⟨e⟩ | _
      · rfl
      · exact hl.run_disposed [.error e] _ hd
      · exact hl.run_disposed [.completed] _ hd
    rw [e]
    exact ⟨_, 0, (h0.trans h).trans (hdone _ _), by simp⟩
  | false =>
    have h := h0.trans (items (kd := .resume sel) (src := src) (b := true) (fin := (src 0).fin) (i := false) (m := 1) (a := 0) hl _ o hd)
    cases hf : (src 0).fin with
    | none =>
      have e : resumed sel (src 0) = ⟨(src 0).vals ++ [], none⟩ := by simp only [resumed, hf, List.append_nil]; rw [← hf]
      rw [e, hcalls, Obs.run_append]
      generalize O.run o ((src 0).vals.map .next) = q at hd h ⊢
      rw [hf] at h
      exact ⟨_, 0, (h.trans (Gets.one (by simp only [step, hd, Bool.false_eq_true, if_false]; rfl))).trans (hdone _ _), by simp⟩
    | some t => cases t with
      | completed =>
        have e : resumed sel (src 0) = ⟨(src 0).vals ++ [], some .completed⟩ := by simp only [resumed, hf, List.append_nil]; rw [← hf]
        rw [e, hcalls, Obs.run_append]
        generalize O.run o ((src 0).vals.map .next) = q at hd h ⊢
        rw [hf] at h
        exact ⟨_, 0, (h.trans (Gets.one (by simp only [step, hd, Bool.false_eq_true, if_false]; rfl))).trans (hdone _ _), by simp⟩
      | error e =>
        have h2 : Gets (.resume sel) O src 1 ⟨O.run o ((src 0).vals.map .next), .item true [] (some (.error e)), false, 1, 0⟩ ⟨O.run o ((src 0).vals.map .next), .handle e, false, 1, 0⟩ :=
          Gets.one (by simp only [step, hd, Bool.false_eq_true, if_false, if_true])
        rw [hf] at h
        cases hs : sel e with
        | ok u =>
          have er : resumed sel (src 0) = ⟨(src 0).vals ++ u.vals, u.fin⟩ := by simp only [resumed, hf, hs]
          rw [er, hcalls, Obs.run_append]
          have h3 : Gets (.resume sel) O src 1 ⟨O.run o ((src 0).vals.map .next), .handle e, false, 1, 0⟩ ⟨O.run o ((src 0).vals.map .next), .item false u.vals u.fin, false, 1, 1⟩ :=
            Gets.one (by simp only [step, handle, hs])
          obtain ⟨k, h4⟩ := second (src := src) (sel := sel) (i := false) (m := 1) (a := 1) hl u (O.run o ((src 0).vals.map .next))
          exact ⟨_, 1, ((h.trans h2).trans h3).trans h4, (if_pos ⟨rfl, e, rfl⟩).symm⟩
        | error e' =>
          have er : resumed sel (src 0) = ⟨(src 0).vals ++ [], some (.error e')⟩ := by simp only [resumed, hf, hs, List.append_nil]
          rw [er, hcalls, Obs.run_append]
          have h3 : Gets (.resume sel) O src 1 ⟨O.run o ((src 0).vals.map .next), .handle e, false, 1, 0⟩ ⟨O.onError e' (O.run o ((src 0).vals.map .next)), .after, false, 1, 1⟩ :=
            Gets.one (by simp only [step, handle, hs])
          exact ⟨_, 1, ((h.trans h2).trans h3).trans (hdone _ _), (if_pos ⟨rfl, e, rfl⟩).symm⟩

end

end Rpp.SyncHandle
