import Verif.Core.UserProofs

/-!
# Properties C01-C04, C06-C18, C21, C22

Vocabulary used in the statements: `userRun` (a subscription's whole history), `evsOf` (the
notifications the subscriber's callbacks got), `subscriberSees` / `seen` below, and the specification
file `Verif.Core.Spec`.
-/

set_option linter.unusedSectionVars false

namespace Rpp

section
variable [DecidableEq α] [DecidableEq β] [DecidableEq γ] [DecidableEq ε]

/-- State of the subscriber of `source | p` after the source made the calls `cs`. -/
def subscriber (cap : Option Nat) (ov : ε) (react : List (Call γ ε) → Reaction ε) (p : Pipe ε α γ)
    (cs : List (Call α ε)) : UserSt γ ε :=
  p.final ((p.lift (userObs cap ov react)).run (p.start (userObs cap ov react) {}) cs)

/-- Notifications seen by the subscriber of `source | p`. -/
def subscriberSees (cap : Option Nat) (ov : ε) (react : List (Call γ ε) → Reaction ε) (p : Pipe ε α γ)
    (cs : List (Call α ε)) : List (Call γ ε) :=
  evsOf (subscriber cap ov react p cs).log

/-- The sequence seen by a passive subscriber (one that neither throws nor disposes). -/
def seen (ov : ε) (p : Pipe ε α γ) (cs : List (Call α ε)) : Trace γ ε :=
  traceOf (subscriberSees none ov (fun _ => {}) p cs)

/-! ## C01 -/

/-- C01: whatever the source and the user do, the callbacks follow the grammar. -/
theorem C01_grammar (cap : Option Nat) (ov : ε) (react : List (Call α ε) → Reaction ε)
    (acts : List (Act α ε)) : Grammar (evsOf (userRun cap ov react {} acts).log) :=
  (UInv.userRun acts UInv.init).gram

theorem userRun_append (cap : Option Nat) (ov : ε) (react : List (Call α ε) → Reaction ε)
    (s : UserSt α ε) (as bs : List (Act α ε)) :
    userRun cap ov react s (as ++ bs) = userRun cap ov react (userRun cap ov react s as) bs := by
  simp [userRun, List.foldl_append]

theorem userRun_disposed (cap : Option Nat) (ov : ε) (react : List (Call α ε) → Reaction ε)
    (acts : List (Act α ε)) : ∀ s : UserSt α ε, s.disposed = true →
    evsOf (userRun cap ov react s acts).log = evsOf s.log := by
  induction acts with
  | nil => intro s _; rfl
  | cons a acts ih =>
    intro s hs
    cases a with
    | call c =>
      have h := run_of_disposed (cap := cap) (ov := ov) (react := react) hs [c]
      exact (ih _ h.2.1).trans h.1
    | dispose =>
      have h := s.dispose_facts
      exact (ih _ h.2.1).trans h.1

/-- C01: after the user disposed the subscription no callback runs any more. -/
theorem C01_silent_after_dispose (cap : Option Nat) (ov : ε) (react : List (Call α ε) → Reaction ε)
    (before after : List (Act α ε)) :
    evsOf (userRun cap ov react {} (before ++ .dispose :: after)).log =
      evsOf (userRun cap ov react {} before).log := by
  rw [userRun_append]
  have h := (userRun cap ov react {} before).dispose_facts
  exact (userRun_disposed cap ov react after _ h.2.1).trans h.1

/-- C01: after a terminal notification no callback runs any more. -/
theorem C01_silent_after_terminal (cap : Option Nat) (ov : ε) (react : List (Call α ε) → Reaction ε)
    (before after : List (Act α ε))
    (h : ∃ c ∈ evsOf (userRun cap ov react {} before).log, c = .completed ∨ ∃ e, c = .error e) :
    evsOf (userRun cap ov react {} (before ++ after)).log =
      evsOf (userRun cap ov react {} before).log := by
  rw [userRun_append]
  apply userRun_disposed
  cases hd : (userRun cap ov react {} before).disposed with
  | true => rfl
  | false =>
    obtain ⟨_, vs, hv⟩ := (UInv.userRun (cap := cap) (ov := ov) (react := react) before UInv.init).live hd
    obtain ⟨c, hc, hcc⟩ := h
    rw [hv] at hc
    obtain ⟨a, _, rfl⟩ := List.mem_map.1 hc
    rcases hcc with hcc | ⟨e, hcc⟩ <;> cases hcc

/-- C01: and until then nothing is lost, duplicated or reordered: the subscriber sees exactly the
sequence the source denotes, up to the point where its own callback disposed or threw. -/
theorem C01_exact (cap : Option Nat) (ov : ε) (react : List (Call α ε) → Reaction ε)
    (cs : List (Call α ε)) (hfit : Fits cap (upsOf cs).length) :
    evsOf (userRun cap ov react {} (cs.map Act.call)).log =
      deliver react [] (traceOf cs).vals (traceOf cs).fin := by
  have : userRun cap ov react {} (cs.map Act.call) = (userObs cap ov react).run {} cs := by
    simp [userRun, Obs.run, List.foldl_map]
  rw [this]
  exact user_deliver cs {} rfl (by simpa using hfit)

-- Non-vacuity: a misbehaving source that calls on after completion, a user disposing late.
example : evsOf (userRun (α := Nat) (ε := Nat) none 0 (fun _ => {}) {}
    [.call (.up 7), .call (.next 1), .call .completed, .call (.next 2), .call (.error 3), .dispose]).log
    = [.next 1, .completed] := by decide
example : ∃ c ∈ evsOf (userRun (α := Nat) (ε := Nat) none 0 (fun _ => {}) {}
    [.call (.next 1), .call (.error 5)]).log, c = .completed ∨ ∃ e, c = .error e :=
  ⟨.error 5, by decide, Or.inr ⟨5, rfl⟩⟩

/-! ## C02 -/

/-- C02: if the `on_next` callback throws `e` on the value `a` (without disposing), the subscriber gets
`on_error e` right behind that value and then nothing, whatever the source does afterwards. -/
theorem C02_throw_becomes_error (cap : Option Nat) (ov : ε) (react : List (Call α ε) → Reaction ε)
    (before after : List (Act α ε)) (a : α) (e : ε)
    (halive : (userRun cap ov react {} before).disposed = false)
    (hthrow : react (evsOf (userRun cap ov react {} before).log ++ [.next a]) =
      { dispose := false, throws := some e }) :
    evsOf (userRun cap ov react {} (before ++ .call (.next a) :: after)).log =
      evsOf (userRun cap ov react {} before).log ++ [.next a, .error e] := by
  rw [userRun_append]
  show evsOf (userRun cap ov react ((userObs cap ov react).call (.next a) _) after).log = _
  generalize userRun cap ov react {} before = s at *
  have hev : evsOf (s.log ++ [.ev (.next a)]) = evsOf s.log ++ [.next a] := by
    simp [evsOf_append, evsOf]
  rw [call_next halive, hev, hthrow]
  simp only [Bool.false_eq_true, if_false]
  obtain ⟨h1, h2⟩ := evs_onError (cap := cap) (ov := ov) (react := react)
    (s := { s with log := s.log ++ [.ev (.next a)] }) halive e
  rw [userRun_disposed _ _ _ _ _ h2, h1, hev]
  simp

/-- C02: a callback that disposes and then throws: the exception is swallowed. -/
theorem C02_throw_after_dispose_swallowed (cap : Option Nat) (ov : ε)
    (react : List (Call α ε) → Reaction ε) (before after : List (Act α ε)) (a : α) (e : ε)
    (halive : (userRun cap ov react {} before).disposed = false)
    (hthrow : react (evsOf (userRun cap ov react {} before).log ++ [.next a]) =
      { dispose := true, throws := some e }) :
    evsOf (userRun cap ov react {} (before ++ .call (.next a) :: after)).log =
      evsOf (userRun cap ov react {} before).log ++ [.next a] := by
  rw [userRun_append]
  show evsOf (userRun cap ov react ((userObs cap ov react).call (.next a) _) after).log = _
  generalize userRun cap ov react {} before = s at *
  have hev : evsOf (s.log ++ [.ev (.next a)]) = evsOf s.log ++ [.next a] := by
    simp [evsOf_append, evsOf]
  rw [call_next halive, hev, hthrow]
  simp only [if_true]
  generalize hs1 : ({ s with log := s.log ++ [.ev (.next a)] } : UserSt α ε) = s1
  have hE : evsOf s1.log = evsOf s.log ++ [.next a] := by rw [← hs1, hev]
  rw [implOnError_user, s1.dispose_facts.2.1, if_pos rfl, userRun_disposed _ _ _ _ _ s1.dispose_facts.2.1,
    s1.dispose_facts.1, hE]

example : evsOf (userRun (α := Nat) (ε := Nat) none 0
    (fun h => if h.getLast? = some (.next 2) then { throws := some 9 } else {}) {}
    [.call (.next 1), .call (.next 2), .call (.next 3), .call .completed]).log
    = [.next 1, .next 2, .error 9] := by decide

/-! ## C03 -/

/-- C03 (part: the container does not overflow): every disposable handed to the subscriber of a pipeline
- by the source or by a `finally` stage - has been disposed exactly once when the subscription has ended,
and none before. Full statement fails only when a fixed-capacity container overflows, see
`C03_overflow_refutes`. -/
theorem C03_released_partial (cap : Option Nat) (ov : ε) (react : List (Call γ ε) → Reaction ε)
    (p : Pipe ε α γ) (cs : List (Call α ε))
    (hfit : Fits cap (p.finals.length + (upsOf cs).length)) :
    let s := subscriber cap ov react p cs
    (s.disposed = true → ∀ d ∈ p.finals ++ upsOf cs, s.log.count (.released d) = 1) ∧
    (s.disposed = false → ∀ d, Out.released d ∉ s.log) ∧
    (∀ c ∈ evsOf s.log, (c = .completed ∨ ∃ e, c = .error e) → s.disposed = true) := by
  intro s
  have hs : s = (userObs cap ov react).run {} (p.trans cs) :=
    Pipe.final_run userObs_lawful {} p cs
  have hinv : UInv s := by rw [hs]; exact UInv.run _ UInv.init
  refine ⟨?_, ?_, ?_⟩
  · intro hd d hdm
    rw [← Pipe.upsOf_trans] at hdm
    have := (user_ups (cap := cap) (ov := ov) (react := react) (p.trans cs) {} (by
      rw [Pipe.upsOf_trans]; simpa using hfit)).1 d hdm
    rw [← hs] at this
    have hmem : Out.released d ∈ s.log := this.elim (fun h => hinv.rel hd d h) id
    have hcount : s.log.count (.released d) = (relsOf s.log).count d := by
      generalize s.log = l
      induction l with
      | nil => rfl
      | cons x l ih => cases x <;> simp [relsOf, List.count_cons, ih]
    rw [hcount]
    exact Nat.le_antisymm (List.nodup_iff_count.1 hinv.shape.nodup d) (List.count_pos_iff.2 ((mem_relsOf _ _).2 hmem))
  · intro hd d hm
    have := (hinv.live hd).1
    rw [← mem_relsOf, this] at hm
    simp at hm
  · intro c hc hterm
    cases hd : s.disposed with
    | true => rfl
    | false =>
      obtain ⟨_, vs, hv⟩ := hinv.live hd
      rw [hv] at hc
      obtain ⟨a, _, rfl⟩ := List.mem_map.1 hc
      rcases hterm with h | ⟨e, h⟩ <;> cases h

/-- C03 is false when the fixed-capacity container of the subscriber is full: the subscription ends with
`on_error`, but the disposable that did not fit is never disposed (observer.hpp 57-65). -/
theorem C03_overflow_refutes :
    let s := subscriber (α := Nat) (γ := Nat) (ε := Nat) (some 0) 99 (fun _ => {}) .nil [.up 7]
    s.disposed = true ∧ evsOf s.log = [.error 99] ∧ Out.released 7 ∉ s.log := by decide

example : (subscriber (α := Nat) (γ := Nat) (ε := Nat) none 0 (fun _ => {})
    (.cons (.finallyOp 5) (.cons (.take 1) .nil)) [.up 7, .next 1, .up 8]).log
    = [.ev (.next 1), .ev .completed, .released 5, .released 7, .released 8] := by decide

/-! ## C04 -/

/-- C04: the subscriber of any pipeline sees the composition of the operators' meanings, applied to the
sequence the source denotes (and cut where its own callback disposes or throws). -/
theorem C04_pipeline (cap : Option Nat) (ov : ε) (react : List (Call γ ε) → Reaction ε)
    (p : Pipe ε α γ) (hp : p.WF) (cs : List (Call α ε))
    (hfit : Fits cap (p.finals.length + (upsOf cs).length)) :
    subscriberSees cap ov react p cs =
      deliver react [] (p.spec (traceOf cs)).vals (p.spec (traceOf cs)).fin := by
  unfold subscriberSees subscriber
  rw [Pipe.final_run userObs_lawful {} p cs,
    user_deliver (p.trans cs) {} rfl (by rw [Pipe.upsOf_trans]; simpa using hfit),
    Pipe.trans_spec p hp cs]
  rfl

/-- C04: and what it sees obeys the observer grammar (for any capacity and any parameters). -/
theorem C04_pipeline_grammar (cap : Option Nat) (ov : ε) (react : List (Call γ ε) → Reaction ε)
    (p : Pipe ε α γ) (cs : List (Call α ε)) : Grammar (subscriberSees cap ov react p cs) := by
  unfold subscriberSees subscriber
  rw [Pipe.final_run userObs_lawful {} p cs]
  exact (UInv.run _ UInv.init).gram

theorem Pipe.final_mapFinal {τ : Type} (f : τ → τ) : {α γ : Type} → (p : Pipe ε α γ) → (s : p.State τ) →
    p.final (p.mapFinal f s) = f (p.final s)
  | _, _, .nil, _ => rfl
  | _, _, .cons _ p, s => p.final_mapFinal f s.2

theorem Pipe.isDisposed_final {τ : Type} : {α γ : Type} → {O : Obs γ ε τ} → (p : Pipe ε α γ) →
    (s : p.State τ) → (p.lift O).isDisposed s = O.isDisposed (p.final s)
  | _, _, _, .nil, _ => rfl
  | _, _, O, .cons o p, s => (OpStrategy.lift_isDisposed o.strategy (p.lift O) s).trans
      (p.isDisposed_final s.2)

theorem Pipe.release_final {τ : Type} : {α γ : Type} → {O : Obs γ ε τ} → (p : Pipe ε α γ) →
    (s : p.State τ) → (d : Nat) → p.final ((p.lift O).release d s) = O.release d (p.final s)
  | _, _, _, .nil, _, _ => rfl
  | _, _, _, .cons _ p, s, d => p.release_final s.2 d

/-- C04: once the user disposed the subscription of a pipeline (at any moment, between any two calls),
no callback runs any more, whatever state the operators are in. -/
theorem C04_pipeline_dispose (cap : Option Nat) (ov : ε) (react : List (Call γ ε) → Reaction ε)
    (p : Pipe ε α γ) (before after : List (Call α ε)) :
    let O := userObs cap ov react
    let s1 := (p.lift O).run (p.start O {}) before
    evsOf (p.final ((p.lift O).run (p.mapFinal UserSt.dispose s1) after)).log =
      subscriberSees cap ov react p before := by
  intro O s1
  have hl : Lawful (p.lift O) := Pipe.lift_lawful p userObs_lawful
  have hd : (p.lift O).isDisposed (p.mapFinal UserSt.dispose s1) = true := by
    rw [Pipe.isDisposed_final, Pipe.final_mapFinal]
    show (userObs cap ov react).isDisposed _ = true
    rw [userObs_isDisposed]; exact (UserSt.dispose_facts _).2.1
  rw [hl.run_disposed after _ hd]
  have key : ∀ (ds : List Nat) (s : p.State (UserSt γ ε)),
      evsOf (p.final (ds.foldl (fun s d => (p.lift O).release d s) s)).log = evsOf (p.final s).log := by
    intro ds
    induction ds with
    | nil => intro s; rfl
    | cons d ds ih =>
      intro s
      rw [List.foldl_cons, ih, Pipe.release_final]
      exact UserSt.evs_release _ _
  rw [key, Pipe.final_mapFinal, (UserSt.dispose_facts _).1]
  rfl

-- Non-vacuity: a three-operator pipeline with a throwing map and a misbehaving source.
example : subscriberSees (α := Nat) (γ := List Nat) (ε := Nat) none 0 (fun _ => {})
    (.cons (.filter (fun a => .ok (a % 2 == 1)))
      (.cons (.map (fun a => if a = 7 then .error 42 else .ok (a + 1)))
        (.cons (.buffer 2) .nil)))
    [.next 1, .next 2, .next 3, .next 5, .next 7, .next 9, .completed]
    = [.next [2, 4], .error 42] := by decide

theorem traceOf_deliver_passive (vs : List γ) (fin : Option (Term ε)) : ∀ hist : List γ,
    traceOf (deliver (fun _ => ({} : Reaction ε)) (hist.map Call.next) vs fin) = ⟨hist ++ vs, fin⟩ := by
  induction vs with
  | nil =>
    intro hist
    simp only [deliver]
    induction hist with
    | nil => cases fin with
      | none => rfl
      | some t => cases t <;> rfl
    | cons h hs ih => simp only [List.map_cons, List.cons_append, traceOf_next, ih]
  | cons v vs ih =>
    intro hist
    simp only [deliver, Bool.false_eq_true, if_false]
    have := ih (hist ++ [v])
    simpa using this

/-- C04 for a passive subscriber. -/
theorem C04_seen (ov : ε) (p : Pipe ε α γ) (hp : p.WF) (cs : List (Call α ε)) :
    seen ov p cs = p.spec (traceOf cs) := by
  unfold seen
  rw [C04_pipeline none ov _ p hp cs (fun n hn => by cases hn)]
  have := traceOf_deliver_passive (ε := ε) (p.spec (traceOf cs)).vals (p.spec (traceOf cs)).fin []
  simpa using this

end

/-! ## Individual operators

Each theorem is about `seen`: what a passive subscriber of `source | op` sees, for every list of calls
the source may make. (By `C04_pipeline` the same holds for every other subscriber up to the point where
its callback disposes or throws, and inside every pipeline.) -/

/-- `source | op` -/
abbrev single (o : Op ε α β) : Pipe ε α β := .cons o .nil

section
variable [DecidableEq α] [DecidableEq β] [DecidableEq ε] (ov : ε)

theorem seen_single (o : Op ε α β) (ho : o.WF) (cs : List (Call α ε)) :
    seen ov (single o) cs = o.spec (traceOf cs) :=
  C04_seen ov (single o) ⟨ho, trivial⟩ cs

/-- Rewrite `seen` of a single operator to its specification. -/
macro "seen_op" : tactic =>
  `(tactic| (rewrite [seen_single]; rotate_left 1; first | trivial | assumption))

theorem mapUntil_ok (g : α → β) (l : List α) :
    Spec.mapUntil (ε := ε) (fun a => .ok (g a)) l = (l.map g, none) := by
  induction l with
  | nil => rfl
  | cons a l ih => simp [Spec.mapUntil, ih]

theorem mapUntil_throw (f : α → Except ε β) (g : α → β) (pre : List α) (a : α) (post : List α) (e : ε)
    (hpre : ∀ x ∈ pre, f x = .ok (g x)) (ha : f a = .error e) :
    Spec.mapUntil f (pre ++ a :: post) = (pre.map g, some e) := by
  induction pre with
  | nil => simp [Spec.mapUntil, ha]
  | cons x pre ih =>
    have hx := hpre x (by simp)
    have := ih (fun y hy => hpre y (by simp [hy]))
    simp [Spec.mapUntil, hx, this]

/-- C06: a non-throwing `map`. -/
theorem C06_map (g : α → β) (cs : List (Call α ε)) :
    seen ov (single (.map (fun a => .ok (g a)))) cs =
      ⟨(traceOf cs).vals.map g, (traceOf cs).fin⟩ := by
  seen_op
  simp [Op.spec, Spec.map, mapUntil_ok, Spec.endWith]

/-- C06: a `map` whose function throws `e` on `a`, after mapping `pre`. -/
theorem C06_map_throw (f : α → Except ε β) (g : α → β) (pre : List α) (a : α) (post : List α)
    (e : ε) (cs : List (Call α ε)) (hcs : (traceOf cs).vals = pre ++ a :: post)
    (hpre : ∀ x ∈ pre, f x = .ok (g x)) (ha : f a = .error e) :
    seen ov (single (.map f)) cs = ⟨pre.map g, some (.error e)⟩ := by
  seen_op
  simp [Op.spec, Spec.map, hcs, mapUntil_throw f g pre a post e hpre ha, Spec.endWith]

theorem filterUntil_ok (q : α → Bool) (l : List α) :
    Spec.filterUntil (ε := ε) (fun a => .ok (q a)) l = (l.filter q, none) := by
  induction l with
  | nil => rfl
  | cons a l ih => cases h : q a <;> simp [Spec.filterUntil, ih, h]

/-- C07: a non-throwing `filter`. -/
theorem C07_filter (q : α → Bool) (cs : List (Call α ε)) :
    seen ov (single (.filter (fun a => .ok (q a)))) cs =
      ⟨(traceOf cs).vals.filter q, (traceOf cs).fin⟩ := by
  seen_op
  simp [Op.spec, Spec.filter, filterUntil_ok, Spec.endWith]

theorem filterUntil_throw (f : α → Except ε Bool) (g : α → Bool) (pre : List α) (a : α) (post : List α)
    (e : ε) (hpre : ∀ x ∈ pre, f x = .ok (g x)) (ha : f a = .error e) :
    Spec.filterUntil f (pre ++ a :: post) = (pre.filter g, some e) := by
  induction pre with
  | nil => simp [Spec.filterUntil, ha]
  | cons x pre ih =>
    have hx := hpre x (by simp)
    have := ih (fun y hy => hpre y (by simp [hy]))
    cases h : g x <;> simp [Spec.filterUntil, hx, this, h]

/-- C07: a `filter` whose predicate throws. -/
theorem C07_filter_throw (f : α → Except ε Bool) (g : α → Bool) (pre : List α) (a : α) (post : List α)
    (e : ε) (cs : List (Call α ε)) (hcs : (traceOf cs).vals = pre ++ a :: post)
    (hpre : ∀ x ∈ pre, f x = .ok (g x)) (ha : f a = .error e) :
    seen ov (single (.filter f)) cs = ⟨pre.filter g, some (.error e)⟩ := by
  seen_op
  simp [Op.spec, Spec.filter, hcs, filterUntil_throw f g pre a post e hpre ha, Spec.endWith]

/-- C08: `take n` mirrors a source with fewer than `n` values, and otherwise shows the first `n` values
and completes with the `n`-th (`n ≥ 1`), even if the source has not ended. -/
theorem C08_take (n : Nat) (hn : 0 < n) (cs : List (Call α ε)) :
    seen ov (single (.take n)) cs =
      if (traceOf cs).vals.length < n then traceOf cs
      else ⟨(traceOf cs).vals.take n, some .completed⟩ := by
  seen_op
  have hmax : max 1 n = n := by omega
  simp only [Op.spec, Spec.take, hmax]
  by_cases h : (traceOf cs).vals.length < n
  · rw [List.take_of_length_le (by omega), if_neg (by omega), if_pos h]
  · rw [if_pos (by omega), if_neg h]

/-- C08: `take 0` never shows a value (it completes when the source produces its first value or
ends). -/
theorem C08_take_zero (cs : List (Call α ε)) :
    (seen ov (single (.take 0)) cs).vals = [] ∧
    (seen ov (single (.take 0)) cs).fin =
      if (traceOf cs).vals = [] then (traceOf cs).fin else some .completed := by
  seen_op
  simp only [Op.spec, Spec.take, List.take_zero, true_and]
  cases (traceOf cs).vals <;> simp

/-- C09 -/
theorem C09_skip (n : Nat) (cs : List (Call α ε)) :
    seen ov (single (.skip n)) cs = ⟨(traceOf cs).vals.drop n, (traceOf cs).fin⟩ := by
  seen_op; rfl

theorem takeWhile_all (q : α → Bool) (l : List α) (fin : Option (Term ε)) :
    Spec.takeWhile (fun a => .ok (q a)) l fin =
      ⟨l.takeWhile q, if l.all q then fin else some .completed⟩ := by
  induction l with
  | nil => rfl
  | cons a l ih => cases h : q a <;> simp [Spec.takeWhile, ih, h]

/-- C10 -/
theorem C10_take_while (q : α → Bool) (cs : List (Call α ε)) :
    seen ov (single (.takeWhile (fun a => .ok (q a)))) cs =
      ⟨(traceOf cs).vals.takeWhile q,
        if (traceOf cs).vals.all q then (traceOf cs).fin else some .completed⟩ := by
  seen_op
  simp [Op.spec, takeWhile_all]

/-- C10: a throwing predicate. -/
theorem C10_take_while_throw (f : α → Except ε Bool) (pre : List α) (a : α) (post : List α)
    (e : ε) (cs : List (Call α ε)) (hcs : (traceOf cs).vals = pre ++ a :: post)
    (hpre : ∀ x ∈ pre, f x = .ok true) (ha : f a = .error e) :
    seen ov (single (.takeWhile f)) cs = ⟨pre, some (.error e)⟩ := by
  seen_op
  simp only [Op.spec, hcs]
  clear hcs
  induction pre with
  | nil => simp [Spec.takeWhile, ha]
  | cons x pre ih =>
    have hx := hpre x (by simp)
    have := ih (fun y hy => hpre y (by simp [hy]))
    simp [Spec.takeWhile, hx, this]

/-- C11: the last `min n length` values at completion. -/
theorem C11_take_last (n : Nat) (cs : List (Call α ε)) (h : (traceOf cs).fin = some .completed) :
    seen ov (single (.takeLast n)) cs =
      ⟨(traceOf cs).vals.drop ((traceOf cs).vals.length - n), some .completed⟩ := by
  seen_op
  simp [Op.spec, Spec.takeLast, h]

/-- C11: nothing but the error (or nothing at all so far) otherwise. -/
theorem C11_take_last_otherwise (n : Nat) (cs : List (Call α ε))
    (h : (traceOf cs).fin ≠ some .completed) :
    seen ov (single (.takeLast n)) cs = ⟨[], (traceOf cs).fin⟩ := by
  seen_op
  simp only [Op.spec, Spec.takeLast]

/-- C12: `first` shows the first value and completes ... -/
theorem C12_first (notEnough : ε) (cs : List (Call α ε)) (a : α) (rest : List α)
    (h : (traceOf cs).vals = a :: rest) :
    seen ov (single (.first notEnough)) cs = ⟨[a], some .completed⟩ := by
  seen_op
  simp [Op.spec, Spec.first, h]

/-- C12: ... or fails if there is none when the source completes (a source error is passed on). -/
theorem C12_first_empty (notEnough : ε) (cs : List (Call α ε)) (h : (traceOf cs).vals = []) :
    seen ov (single (.first notEnough)) cs =
      ⟨[], if (traceOf cs).fin = some .completed then some (.error notEnough) else (traceOf cs).fin⟩ := by
  seen_op
  simp only [Op.spec, Spec.first, h]
  rcases (traceOf cs).fin with _ | _ | _ <;> simp

/-- C12: `last`. -/
theorem C12_last (notEnough : ε) (cs : List (Call α ε)) (h : (traceOf cs).fin = some .completed) :
    seen ov (single (.last notEnough)) cs =
      match (traceOf cs).vals.getLast? with
      | some a => ⟨[a], some .completed⟩
      | none => ⟨[], some (.error notEnough)⟩ := by
  seen_op
  simp only [Op.spec, Spec.last, h]
  cases (traceOf cs).vals.getLast? <;> rfl

theorem C12_last_otherwise (notEnough : ε) (cs : List (Call α ε))
    (h : (traceOf cs).fin ≠ some .completed) :
    seen ov (single (.last notEnough)) cs = ⟨[], (traceOf cs).fin⟩ := by
  seen_op
  simp only [Op.spec, Spec.last]

/-- C13 (part: every index except the largest `size_t`): `element_at i` shows exactly the value with
index `i` and completes; if the source completes earlier it fails with `out_of_range`. Missing: the
index `2^64 - 1`, for which the claim is false, see `C13_element_at_max_refutes`. -/
theorem C13_element_at_partial (i : Nat) (hi : i + 1 < 2 ^ 64) (outOfRange : ε) (cs : List (Call α ε)) :
    (∀ a, (traceOf cs).vals[i]? = some a →
      seen ov (single (.elementAt i outOfRange)) cs = ⟨[a], some .completed⟩) ∧
    ((traceOf cs).vals[i]? = none →
      seen ov (single (.elementAt i outOfRange)) cs =
        ⟨[], if (traceOf cs).fin = some .completed then some (.error outOfRange)
             else (traceOf cs).fin⟩) := by
  seen_op
  simp only [Op.spec, Spec.elementAt]
  refine ⟨fun a h => by rw [h], fun h => ?_⟩
  rw [h]
  rcases (traceOf cs).fin with _ | _ | _ <;> simp

/-- C13 is false for the largest `size_t`: `index + 1` wraps to 0 and the *first* value is shown, although
the source has no value with that index. -/
theorem C13_element_at_max_refutes :
    seen (α := Nat) (γ := Nat) (ε := Nat) 0 (single (.elementAt (2 ^ 64 - 1) 99)) [.next 7] =
      ⟨[7], some .completed⟩ ∧
    (traceOf ([.next 7] : List (Call Nat Nat))).vals[2 ^ 64 - 1]? = none := by
  decide

theorem nub_facts {δ : Type} [BEq δ] [LawfulBEq δ] (l : List δ) :
    (Spec.nub l).Nodup ∧ (∀ a, a ∈ Spec.nub l ↔ a ∈ l) ∧ (Spec.nub l).Sublist l := by
  induction l with
  | nil => simp [Spec.nub]
  | cons a l ih =>
    obtain ⟨h1, h2, h3⟩ := ih
    refine ⟨?_, ?_, ?_⟩
    · simp only [Spec.nub, List.nodup_cons]
      exact ⟨by simp, h1.filter _⟩
    · intro x
      simp only [Spec.nub, List.mem_cons, List.mem_filter, h2]
      by_cases hx : x = a <;> simp [hx]
    · exact List.Sublist.cons_cons a (List.filter_sublist.trans h3)

/-- C14: `distinct` shows first occurrences, each value once. -/
theorem C14_distinct (cs : List (Call α ε)) :
    (seen ov (single .distinct) cs).vals = Spec.nub (traceOf cs).vals ∧
    (seen ov (single .distinct) cs).fin = (traceOf cs).fin ∧
    (seen ov (single .distinct) cs).vals.Nodup ∧
    (∀ a, a ∈ (seen ov (single .distinct) cs).vals ↔ a ∈ (traceOf cs).vals) ∧
    (seen ov (single .distinct) cs).vals.Sublist (traceOf cs).vals := by
  have : seen ov (single .distinct) cs = ⟨Spec.nub (traceOf cs).vals, (traceOf cs).fin⟩ :=
    seen_single ov .distinct (by exact (inferInstance : LawfulBEq α)) cs
  rw [this]
  exact ⟨rfl, rfl, nub_facts _⟩

/-- The run-collapsed list: a value is kept iff it differs from its immediate predecessor. -/
def runs (q : α → α → Bool) (l : List α) : List α :=
  l.take 1 ++ ((l.zip l.tail).filter (fun p => !q p.1 p.2)).map Prod.snd

theorem collapse_ok_snd (q : α → α → Bool) (l : List α) : ∀ prev,
    (Spec.collapse (ε := ε) (fun a b => .ok (q a b)) prev l).2 = none := by
  induction l with
  | nil => intro prev; rfl
  | cons a l ih =>
    intro prev
    cases prev with
    | none => simp [Spec.collapse, ih]
    | some b => cases h : q b a <;> simp [Spec.collapse, h, ih]

theorem collapse_runs (q : α → α → Bool) (hq : Equivalence (fun a b => q a b = true)) (l : List α) :
    ∀ prev last, q prev last = true →
    (Spec.collapse (ε := ε) (fun a b => .ok (q a b)) (some prev) l).1 =
      (((last :: l).zip l).filter (fun p => !q p.1 p.2)).map Prod.snd := by
  induction l with
  | nil => intro prev last _; rfl
  | cons a l ih =>
    intro prev last hpl
    have hqa : q last a = q prev a := by
      cases h : q prev a with
      | true => exact hq.trans (hq.symm hpl) h
      | false =>
        cases h' : q last a with
        | false => rfl
        | true => rw [hq.trans hpl h'] at h; cases h
    cases h : q prev a with
    | true =>
      rw [h] at hqa
      simp [Spec.collapse, h, hqa, ih prev a h]
    | false =>
      rw [h] at hqa
      simp [Spec.collapse, h, hqa, ih a a (hq.refl a)]

theorem collapse_chain (q : α → α → Bool) (l : List α) : ∀ prev : Option α,
    let out := prev.toList ++ (Spec.collapse (ε := ε) (fun a b => .ok (q a b)) prev l).1
    ∀ p ∈ out.zip out.tail, q p.1 p.2 = false := by
  induction l with
  | nil => intro prev; cases prev <;> simp [Spec.collapse]
  | cons a l ih =>
    intro prev
    cases prev with
    | none => simpa [Spec.collapse] using ih (some a)
    | some b =>
      cases h : q b a with
      | true => simpa [Spec.collapse, h] using ih (some b)
      | false =>
        have := ih (some a)
        simp only [Option.toList_some, List.cons_append, List.nil_append, List.tail_cons] at this
        simp only [Spec.collapse, h, Option.elim, Option.toList_some, List.cons_append, List.nil_append,
          List.tail_cons, List.zip_cons_cons, List.mem_cons]
        rintro p (rfl | hp)
        · exact h
        · exact this p hp

/-- C15: for an arbitrary (non-throwing) comparison exactly the values equal to the previously emitted one
are dropped, so no two neighbours of the output are equal. -/
theorem C15_distinct_until_changed (q : α → α → Bool) (cs : List (Call α ε)) :
    let out := seen ov (single (.distinctUntilChanged (fun a b => .ok (q a b)))) cs
    out.vals = (Spec.collapse (ε := ε) (fun a b => .ok (q a b)) none (traceOf cs).vals).1 ∧
    out.fin = (traceOf cs).fin ∧
    ∀ p ∈ out.vals.zip out.vals.tail, q p.1 p.2 = false := by
  intro out
  have : out = ⟨_, _⟩ := seen_single ov (.distinctUntilChanged (fun a b => .ok (q a b))) (by trivial) cs
  rw [this]
  refine ⟨rfl, ?_, ?_⟩
  · simp [collapse_ok_snd, Spec.endWith]
  · simpa using collapse_chain (ε := ε) q (traceOf cs).vals none

/-- C15: for an equivalence a value is dropped iff it equals its immediate predecessor in the *source*. -/
theorem C15_runs (q : α → α → Bool) (hq : Equivalence (fun a b => q a b = true))
    (cs : List (Call α ε)) :
    seen ov (single (.distinctUntilChanged (fun a b => .ok (q a b)))) cs =
      ⟨runs q (traceOf cs).vals, (traceOf cs).fin⟩ := by
  seen_op
  simp only [Op.spec, Spec.distinctUntilChanged, collapse_ok_snd, Spec.endWith]
  cases (traceOf cs).vals with
  | nil => rfl
  | cons a l => simp [Spec.collapse, runs, collapse_runs q hq l a a (hq.refl a)]

theorem scanUntil_ok (g : β → α → β) (l : List α) : ∀ s,
    Spec.scanUntil (ε := ε) (fun b a => .ok (g b a)) s l =
      ((List.range l.length).map (fun k => (l.take (k + 1)).foldl g s), none) := by
  induction l with
  | nil => intro s; rfl
  | cons a l ih =>
    intro s
    simp [Spec.scanUntil, ih, List.range_succ_eq_map, Function.comp_def]

theorem scanUntil_throw (f : β → α → Except ε β) (g : β → α → β) (pre : List α) (a : α)
    (post : List α) (e : ε) : ∀ s, (∀ b x, x ∈ pre → f b x = .ok (g b x)) →
    f (pre.foldl g s) a = .error e →
    Spec.scanUntil f s (pre ++ a :: post) =
      ((List.range pre.length).map (fun k => (pre.take (k + 1)).foldl g s), some e) := by
  induction pre with
  | nil => intro s _ ha; simp at ha; simp [Spec.scanUntil, ha]
  | cons x pre ih =>
    intro s hpre ha
    have hx := hpre s x (by simp)
    have := ih (g s x) (fun b y hy => hpre b y (by simp [hy])) (by simpa using ha)
    simp [Spec.scanUntil, hx, this, List.range_succ_eq_map, Function.comp_def]

/-- C16: `scan(seed, g)`: the `k`-th emission is the fold of the first `k` values (so the first one is the
seed). -/
theorem C16_scan (seed : β) (g : β → α → β) (cs : List (Call α ε)) :
    seen ov (single (.scan seed (fun b a => .ok (g b a)))) cs =
      ⟨(List.range ((traceOf cs).vals.length + 1)).map (fun k => ((traceOf cs).vals.take k).foldl g seed),
        (traceOf cs).fin⟩ := by
  seen_op
  simp [Op.spec, Spec.scan, scanUntil_ok, Spec.endWith, List.range_succ_eq_map, Function.comp_def]

/-- C16: `scan(g)` without seed: nothing for an empty source, else the first value is the seed. -/
theorem C16_scan_no_seed (g : α → α → α) (cs : List (Call α ε)) :
    seen ov (single (.scanNoSeed (fun b a => .ok (g b a)))) cs =
      match (traceOf cs).vals with
      | [] => ⟨[], (traceOf cs).fin⟩
      | a :: rest => ⟨(List.range (rest.length + 1)).map (fun k => (rest.take k).foldl g a),
          (traceOf cs).fin⟩ := by
  seen_op
  simp only [Op.spec, Spec.scanNoSeed]
  cases (traceOf cs).vals with
  | nil => rfl
  | cons a l =>
    simp [Spec.scan, scanUntil_ok, Spec.endWith, List.range_succ_eq_map, Function.comp_def]

/-- C16: a throwing accumulator. -/
theorem C16_scan_throw (seed : β) (f : β → α → Except ε β) (g : β → α → β) (pre : List α) (a : α)
    (post : List α) (e : ε) (cs : List (Call α ε)) (hcs : (traceOf cs).vals = pre ++ a :: post)
    (hpre : ∀ b x, x ∈ pre → f b x = .ok (g b x)) (ha : f (pre.foldl g seed) a = .error e) :
    seen ov (single (.scan seed f)) cs =
      ⟨(List.range (pre.length + 1)).map (fun k => (pre.take k).foldl g seed), some (.error e)⟩ := by
  seen_op
  simp [Op.spec, Spec.scan, hcs, scanUntil_throw f g pre a post e seed hpre ha, Spec.endWith,
    List.range_succ_eq_map, Function.comp_def]

theorem foldlM_ok (g : β → α → β) (l : List α) : ∀ s,
    l.foldlM (m := Except ε) (fun b a => .ok (g b a)) s = .ok (l.foldl g s) := by
  induction l with
  | nil => intro s; rfl
  | cons a l ih => intro s; exact ih (g s a)

/-- C17: `reduce(seed, g)` at completion. -/
theorem C17_reduce (seed : β) (g : β → α → β) (cs : List (Call α ε))
    (h : (traceOf cs).fin = some .completed) :
    seen ov (single (.reduce seed (fun b a => .ok (g b a)))) cs =
      ⟨[(traceOf cs).vals.foldl g seed], some .completed⟩ := by
  seen_op
  simp [Op.spec, Spec.reduce, foldlM_ok, h]

/-- C17: before completion, and when the source fails, nothing but the error. -/
theorem C17_reduce_otherwise (seed : β) (g : β → α → β) (cs : List (Call α ε))
    (h : (traceOf cs).fin ≠ some .completed) :
    seen ov (single (.reduce seed (fun b a => .ok (g b a)))) cs = ⟨[], (traceOf cs).fin⟩ := by
  seen_op
  simp only [Op.spec, Spec.reduce, foldlM_ok]

/-- C17: `reduce(g)` without seed. -/
theorem C17_reduce_no_seed (g : α → α → α) (cs : List (Call α ε))
    (h : (traceOf cs).fin = some .completed) :
    seen ov (single (.reduceNoSeed (fun b a => .ok (g b a)))) cs =
      match (traceOf cs).vals with
      | [] => ⟨[], some .completed⟩
      | a :: rest => ⟨[rest.foldl g a], some .completed⟩ := by
  seen_op
  simp only [Op.spec, Spec.reduceNoSeed, h]
  cases (traceOf cs).vals with
  | nil => rfl
  | cons a l => simp [Spec.reduce, foldlM_ok]

theorem C17_reduce_no_seed_otherwise (g : α → α → α) (cs : List (Call α ε))
    (h : (traceOf cs).fin ≠ some .completed) :
    seen ov (single (.reduceNoSeed (fun b a => .ok (g b a)))) cs = ⟨[], (traceOf cs).fin⟩ := by
  seen_op
  simp only [Op.spec, Spec.reduceNoSeed]
  cases (traceOf cs).vals with
  | nil => rfl
  | cons a l => simp only [Spec.reduce, foldlM_ok]

/-- C17: a throwing accumulator: only the error, at the position where it happens. -/
theorem C17_reduce_throw (seed : β) (f : β → α → Except ε β) (g : β → α → β) (pre : List α) (a : α)
    (post : List α) (e : ε) (cs : List (Call α ε)) (hcs : (traceOf cs).vals = pre ++ a :: post)
    (hpre : ∀ b x, x ∈ pre → f b x = .ok (g b x)) (ha : f (pre.foldl g seed) a = .error e) :
    seen ov (single (.reduce seed f)) cs = ⟨[], some (.error e)⟩ := by
  seen_op
  have : (traceOf cs).vals.foldlM f seed = .error e := by
    rw [hcs]
    clear hcs
    induction pre generalizing seed with
    | nil => simp at ha; simp [List.foldlM_cons, ha, bind, Except.bind]
    | cons x pre ih =>
      have hx := hpre seed x (by simp)
      simp only [List.cons_append, List.foldlM_cons, hx]
      exact ih _ (fun b y hy => hpre b y (by simp [hy])) (by simpa using ha)
  simp [Op.spec, Spec.reduce, this]

theorem flatten_fullChunks (k : Nat) (l : List α) :
    (Spec.fullChunks k l).flatten = l.take (l.length / k * k) := by
  have : ∀ m, m * k ≤ l.length →
      ((List.range m).map (Spec.chunk k l)).flatten = l.take (m * k) := by
    intro m
    induction m with
    | zero => intro _; simp
    | succ m ih =>
      intro hm
      have hm' : m * k ≤ l.length := by
        rw [Nat.succ_mul] at hm; omega
      rw [List.range_succ, List.map_append, List.flatten_append, ih hm', Nat.succ_mul, List.take_add]
      simp [Spec.chunk]
  exact this _ (Nat.div_mul_le_self _ _)

/-- C18: every chunk but the final remainder has exactly `max 1 n` values ... -/
theorem C18_chunk_size (n : Nat) (l : List α) : ∀ c ∈ Spec.fullChunks (max 1 n) l, c.length = max 1 n := by
  intro c hc
  simp only [Spec.fullChunks, List.mem_map, List.mem_range] at hc
  obtain ⟨i, hi, rfl⟩ := hc
  have h1 : (i + 1) * max 1 n ≤ l.length :=
    Nat.le_trans (Nat.mul_le_mul_right _ hi) (Nat.div_mul_le_self _ _)
  rw [Nat.succ_mul] at h1
  simp only [Spec.chunk, List.length_take, List.length_drop]
  omega

/-- C18: `buffer(n)` before completion (and when the source fails): the complete chunks, which hold all
values except fewer than `max 1 n` trailing ones. -/
theorem C18_buffer_otherwise (n : Nat) (cs : List (Call α ε)) (h : (traceOf cs).fin ≠ some .completed) :
    let out := seen ov (single (.buffer n)) cs
    let k := max 1 n
    out.fin = (traceOf cs).fin ∧
    (∀ c ∈ out.vals, c.length = k) ∧
    ∃ rest, rest.length < k ∧ out.vals.flatten ++ rest = (traceOf cs).vals := by
  intro out k
  have hout : out = ⟨Spec.fullChunks k (traceOf cs).vals, (traceOf cs).fin⟩ := by
    refine (seen_single ov (.buffer n) (by trivial) cs).trans ?_
    simp only [Op.spec, Spec.buffer, k]
  rw [hout]
  refine ⟨rfl, C18_chunk_size n _, Spec.remainder k (traceOf cs).vals, ?_, ?_⟩
  · simp only [Spec.remainder, List.length_drop]
    have hk : 0 < k := by omega
    have := Nat.div_add_mod (traceOf cs).vals.length k
    have h2 := Nat.mod_lt (traceOf cs).vals.length hk
    rw [Nat.mul_comm] at this
    omega
  · rw [flatten_fullChunks]; exact List.take_append_drop _ _

/-- C18: `buffer(n)` at completion: the chunks concatenate to the source, all are non-empty and at most
`max 1 n` long, all but possibly the last exactly so. -/
theorem C18_buffer (n : Nat) (cs : List (Call α ε)) (h : (traceOf cs).fin = some .completed) :
    let out := seen ov (single (.buffer n)) cs
    let k := max 1 n
    out.fin = some .completed ∧
    out.vals.flatten = (traceOf cs).vals ∧
    (∀ c ∈ out.vals, c ≠ [] ∧ c.length ≤ k) ∧
    (∀ c ∈ out.vals.dropLast, c.length = k) := by
  intro out k
  have hk : 0 < k := by omega
  have hout : out = ⟨Spec.fullChunks k (traceOf cs).vals ++
      (if (Spec.remainder k (traceOf cs).vals).isEmpty then [] else [Spec.remainder k (traceOf cs).vals]),
      some .completed⟩ := by
    refine (seen_single ov (.buffer n) (by trivial) cs).trans ?_
    simp only [Op.spec, Spec.buffer, k, h]
  have hrem : (Spec.remainder k (traceOf cs).vals).length < k := by
    simp only [Spec.remainder, List.length_drop]
    have := Nat.div_add_mod (traceOf cs).vals.length k
    have h2 := Nat.mod_lt (traceOf cs).vals.length hk
    rw [Nat.mul_comm] at this
    omega
  have hsize := C18_chunk_size n (traceOf cs).vals
  have hcat : (Spec.fullChunks k (traceOf cs).vals).flatten ++ Spec.remainder k (traceOf cs).vals =
      (traceOf cs).vals := by rw [flatten_fullChunks]; exact List.take_append_drop _ _
  have hpos : ∀ c ∈ Spec.fullChunks k (traceOf cs).vals, c ≠ [] ∧ c.length ≤ k := by
    intro c hc
    have hc' := hsize c hc
    refine ⟨?_, by omega⟩
    rintro rfl
    simp at hc'
    omega
  rw [hout]
  cases hr : Spec.remainder k (traceOf cs).vals with
  | nil =>
    rw [hr] at hcat
    refine ⟨rfl, by simpa using hcat, by simpa using hpos, ?_⟩
    intro c hc
    simp at hc
    exact hsize c (List.dropLast_sublist _ |>.subset hc)
  | cons x xs =>
    rw [hr] at hcat hrem
    refine ⟨rfl, by simpa using hcat, ?_, ?_⟩
    · intro c hc
      simp only [List.isEmpty_cons, Bool.false_eq_true, if_false, List.mem_append, List.mem_singleton] at hc
      rcases hc with hc | rfl
      · exact hpos c hc
      · exact ⟨by simp, by omega⟩
    · intro c hc
      simp at hc
      exact hsize c hc

/-! ## C21 -/

/-- Effect of one call on a live subscription, seen through the callbacks only. -/
theorem user_call_evs {cap : Option Nat} {ov : ε} {react : List (Call α ε) → Reaction ε}
    {s : UserSt α ε} (hd : s.disposed = false) (c : Call α ε) :
    let s' := (userObs cap ov react).call c s
    let own := if c.isEvent then [c] else []
    evsOf s'.log = evsOf s.log ++ own ∨
      (s'.disposed = true ∧ ∃ e, evsOf s'.log = evsOf s.log ++ own ++ [.error e]) := by
  have hend : ∀ (s1 : UserSt α ε) (e : ε),
      evsOf (implOnError (lambdaStrategy react) (localDisp cap ov) e s1).log = evsOf s1.log ∨
      ((implOnError (lambdaStrategy react) (localDisp cap ov) e s1).disposed = true ∧
        evsOf (implOnError (lambdaStrategy react) (localDisp cap ov) e s1).log = evsOf s1.log ++ [.error e]) := by
    intro s1 e
    cases h1 : s1.disposed with
    | true => rw [implOnError_user, h1]; exact Or.inl rfl
    | false => have := evs_onError (cap := cap) (ov := ov) (react := react) h1 e
               exact Or.inr ⟨this.2, this.1⟩
  cases c with
  | next a =>
    simp only [Call.isEvent, if_true]
    have hev : ∀ b : Bool, evsOf (if b then UserSt.dispose { s with log := s.log ++ [.ev (.next a)] }
        else { s with log := s.log ++ [.ev (.next a)] }).log = evsOf s.log ++ [.next a] := by
      intro b
      cases b
      · simp [evsOf_append, evsOf]
      · simp only [if_true]; rw [(UserSt.dispose_facts _).1]; simp [evsOf_append, evsOf]
    rw [call_next hd]
    cases hth : (react (evsOf (s.log ++ [.ev (.next a)]))).throws with
    | none => exact Or.inl (hev _)
    | some e =>
      rcases hend (if (react (evsOf (s.log ++ [.ev (.next a)]))).dispose then
          UserSt.dispose { s with log := s.log ++ [.ev (.next a)] }
          else { s with log := s.log ++ [.ev (.next a)] }) e with h | ⟨h1, h2⟩
      · left; exact h.trans (hev _)
      · right; exact ⟨h1, e, h2.trans (by rw [hev])⟩
  | error e =>
    left
    simp only [Call.isEvent, if_true]
    exact (evs_onError (cap := cap) (ov := ov) (react := react) hd e).1
  | completed =>
    left
    simp only [Call.isEvent, if_true]
    simp only [Obs.call, userObs, observerImpl, localDisp, lambdaStrategy, hd, Bool.or_self,
      Bool.false_eq_true, if_false]
    rw [(UserSt.dispose_facts _).1]
    split
    · rw [(UserSt.dispose_facts _).1]; simp [evsOf_append, evsOf]
    · simp [evsOf_append, evsOf]
  | up d =>
    simp only [Call.isEvent, Bool.false_eq_true, if_false, List.append_nil]
    simp only [Obs.call, userObs, observerImpl, hd, Bool.false_or, Bool.false_eq_true, if_false]
    by_cases hfull : ∃ n, cap = some n ∧ s.ups.length ≥ n
    · obtain ⟨n, rfl, hn⟩ := hfull
      simp only [localDisp, if_pos hn]
      rcases hend s ov with h | ⟨h1, h2⟩
      · left; simpa [localDisp, lambdaStrategy, hd] using h
      · right
        refine ⟨by simpa [localDisp, lambdaStrategy, hd] using h1, ov, ?_⟩
        simpa [localDisp, lambdaStrategy, hd] using h2
    · left
      have hf : Fits cap (s.ups.length + 1) := by
        intro n hn
        have : ¬ s.ups.length ≥ n := fun h => hfull ⟨n, hn, h⟩
        omega
      have := call_up_fits (cap := cap) (ov := ov) (react := react) hd d hf
      simp only [Obs.call, userObs, observerImpl, hd, Bool.false_or, Bool.false_eq_true, if_false] at this
      rw [this]

/-- What `tap` lets through of what its callbacks saw: everything except the value on which the callback
threw. -/
def tapPassed (cb : α → Option ε) (l : List (Call α ε)) : List (Call α ε) :=
  l.filter (fun | .next a => (cb a).isNone | _ => true)

/-- C21: at every moment (after any calls of the source) the subscriber behind `tap` has seen exactly what
the tap callbacks saw before it, minus a value on which the tap callback threw, plus possibly one error
raised by the subscriber's own callback. -/
theorem C21_tap (cap : Option Nat) (react : List (Call α ε) → Reaction ε) (cb : α → Option ε)
    (cs : List (Call α ε)) :
    let O := userObs cap ov react
    let p : Pipe ε α α := single (.tap cb)
    let s : List (Call α ε) × UserSt α ε := (p.lift O).run (p.start O {}) cs
    evsOf s.2.log = tapPassed cb s.1 ∨ ∃ e, evsOf s.2.log = tapPassed cb s.1 ++ [.error e] := by
  intro O p
  have key : ∀ (cs : List (Call α ε)) (s : List (Call α ε) × UserSt α ε),
      (evsOf s.2.log = tapPassed cb s.1 ∨
        (s.2.disposed = true ∧ ∃ e, evsOf s.2.log = tapPassed cb s.1 ++ [.error e])) →
      let s' := ((Ops.tap cb).lift O).run s cs
      (evsOf s'.2.log = tapPassed cb s'.1 ∨
        (s'.2.disposed = true ∧ ∃ e, evsOf s'.2.log = tapPassed cb s'.1 ++ [.error e])) := by
    intro cs
    induction cs with
    | nil => intro s h; exact h
    | cons c cs ih =>
      intro s h
      apply ih
      clear ih
      show (evsOf (((Ops.tap cb).lift O).call c s).2.log = tapPassed cb (((Ops.tap cb).lift O).call c s).1 ∨
        ((((Ops.tap cb).lift O).call c s).2.disposed = true ∧
          ∃ e, evsOf (((Ops.tap cb).lift O).call c s).2.log =
            tapPassed cb (((Ops.tap cb).lift O).call c s).1 ++ [.error e]))
      have hlaw : Lawful ((Ops.tap cb).lift O) := OpStrategy.lift_lawful (Op.ok (.tap cb)) userObs_lawful
      cases hd : s.2.disposed with
      | true =>
        have hd' : ((Ops.tap cb).lift O).isDisposed s = true := by
          rw [OpStrategy.lift_isDisposed]; simp [O, hd]
        cases c with
        | up d =>
          have : ((Ops.tap cb).lift O).call (.up d) s = (s.1, s.2.release d) := hlaw.up_disposed s d hd'
          rw [this]
          rcases h with h | ⟨_, h⟩
          · left; exact (UserSt.evs_release _ _).trans h
          · right
            refine ⟨by rw [UserSt.release_disposed]; exact hd, ?_⟩
            obtain ⟨e, h⟩ := h
            exact ⟨e, (UserSt.evs_release _ _).trans h⟩
        | next a => rw [hlaw.ignore s _ hd' rfl]; exact h
        | error a => rw [hlaw.ignore s _ hd' rfl]; exact h
        | completed => rw [hlaw.ignore s _ hd' rfl]; exact h
      | false =>
        rw [hd] at h
        simp only [Bool.false_eq_true, false_and, or_false] at h
        have hdO : O.isDisposed s.2 = false := by simp [O, hd]
        -- a call passed on unchanged
        have pass : ∀ c : Call α ε, (c.isEvent = true → tapPassed cb [c] = [c]) →
            ∀ s', s' = (s.1 ++ (if c.isEvent then [c] else []), O.call c s.2) →
            (evsOf s'.2.log = tapPassed cb s'.1 ∨
              (s'.2.disposed = true ∧ ∃ e, evsOf s'.2.log = tapPassed cb s'.1 ++ [.error e])) := by
          rintro c hc s' rfl
          have hp : tapPassed cb (s.1 ++ (if c.isEvent then [c] else [])) =
              tapPassed cb s.1 ++ (if c.isEvent then [c] else []) := by
            cases he : c.isEvent with
            | true =>
              have := hc he
              simp only [tapPassed] at this
              simp only [tapPassed, List.filter_append, if_true, this]
            | false => simp
          have := user_call_evs (cap := cap) (ov := ov) (react := react) hd c
          simp only at this ⊢
          rw [hp, ← h]
          exact this
        cases c with
        | up d => exact pass (.up d) (by simp [Call.isEvent]) _ (by
            simp [Obs.call, OpStrategy.lift, observerImpl, noneDisp, OpStrategy.strategy, hdO, Call.isEvent])
        | error e => exact pass (.error e) (by intro _; rfl) _ (by
            simp [Obs.call, OpStrategy.lift, observerImpl, noneDisp, OpStrategy.strategy, hdO, Call.isEvent,
              implOnError, Ops.tap])
        | completed => exact pass .completed (by intro _; rfl) _ (by
            simp [Obs.call, OpStrategy.lift, observerImpl, noneDisp, OpStrategy.strategy, hdO, Call.isEvent,
              Ops.tap])
        | next a =>
          cases hcb : cb a with
          | none => exact pass (.next a) (by intro _; simp [tapPassed, hcb]) _ (by
              simp [Obs.call, OpStrategy.lift, observerImpl, noneDisp, OpStrategy.strategy, hdO, Call.isEvent,
                Ops.tap, hcb])
          | some e =>
            have hst : ((Ops.tap cb).lift O).call (.next a) s =
                (s.1 ++ [.next a] ++ [.error e], O.call (.error e) s.2) := by
              simp [Obs.call, OpStrategy.lift, observerImpl, noneDisp, OpStrategy.strategy, hdO,
                Ops.tap, hcb, implOnError]
            rw [hst]
            have := user_call_evs (cap := cap) (ov := ov) (react := react) hd (.error e)
            have hp : tapPassed cb (s.1 ++ [.next a] ++ [.error e]) = tapPassed cb s.1 ++ [.error e] := by
              simp [tapPassed, List.filter_append, hcb]
            simp only at this ⊢
            rw [hp, ← h]
            exact this
  intro s
  rcases key cs ([], {}) (Or.inl rfl) with h | ⟨_, h⟩
  · exact Or.inl h
  · exact Or.inr h

/-- C21: `tap` with non-throwing callbacks does not change the sequence. -/
theorem C21_tap_transparent (cs : List (Call α ε)) :
    seen ov (single (.tap (fun _ => none))) cs = traceOf cs := by
  seen_op
  simp [Op.spec, Spec.tap, Spec.map, mapUntil_ok (fun a : α => a), Spec.endWith]

/-- C21: a `finally` callback anywhere in a pipeline: it runs at most once, only after every notification
the subscriber got, and it has run as soon as the subscription has ended. (Not covered: overflow of a
fixed-capacity container, see `C03_overflow_refutes`.) -/
theorem C21_finally (cap : Option Nat) (react : List (Call β ε) → Reaction ε) (p : Pipe ε α β) (d : Nat)
    (hd : d ∈ p.finals) (cs : List (Call α ε)) (hfit : Fits cap (p.finals.length + (upsOf cs).length)) :
    let s := subscriber cap ov react p cs
    (s.disposed = true → s.log.count (.released d) = 1) ∧
    (s.disposed = false → s.log.count (.released d) = 0) ∧
    (∃ pre post, s.log = pre ++ post ∧ (∀ o ∈ pre, ∃ c, o = .ev c) ∧ (∀ o ∈ post, ∃ x, o = .released x)) := by
  intro s
  obtain ⟨h1, h2, _⟩ := C03_released_partial cap ov react p cs hfit
  have hs : s = (userObs cap ov react).run {} (p.trans cs) := Pipe.final_run userObs_lawful {} p cs
  have hinv : UInv s := by rw [hs]; exact UInv.run _ UInv.init
  refine ⟨fun h => h1 h d (by simp [hd]), fun h => List.count_eq_zero.2 (h2 h d), ?_⟩
  refine ⟨_, _, hinv.shape.split, ?_, ?_⟩
  · intro o ho; obtain ⟨c, _, rfl⟩ := List.mem_map.1 ho; exact ⟨c, rfl⟩
  · intro o ho; obtain ⟨c, _, rfl⟩ := List.mem_map.1 ho; exact ⟨c, rfl⟩

/-! ## C22 -/

/-- C22: `throttle d`: what is kept. -/
theorem C22_throttle (d : Int) (cs : List (Call (Int × α) ε)) :
    seen ov (single (.throttle d)) cs =
      ⟨(Spec.throttle d none (traceOf cs).vals).map Prod.snd, (traceOf cs).fin⟩ := by
  seen_op; rfl

theorem throttle_ge (d : Int) (hd : 0 ≤ d) (l : List (Int × α)) : ∀ last x,
    x ∈ Spec.throttle d (some last) l → last + d ≤ x.1 := by
  induction l with
  | nil => intro last x h; simp [Spec.throttle] at h
  | cons y l ih =>
    intro last x h
    simp only [Spec.throttle, decide_eq_true_eq] at h
    split at h
    · rename_i hy
      rcases List.mem_cons.1 h with rfl | h
      · exact hy
      · have := ih _ _ h; omega
    · exact ih _ _ h

/-- C22: any two kept values are at least `d` apart (for `d ≥ 0`), the first value is kept, kept values are
source values in source order. -/
theorem C22_throttle_spacing (d : Int) (hd : 0 ≤ d) (l : List (Int × α)) : 
    (Spec.throttle d none l).Pairwise (fun x y => x.1 + d ≤ y.1) ∧
    (Spec.throttle d none l).head? = l.head? ∧
    (Spec.throttle d none l).Sublist l := by
  have h1 : ∀ (l : List (Int × α)) last, (Spec.throttle d last l).Pairwise (fun x y => x.1 + d ≤ y.1) ∧
      (Spec.throttle d last l).Sublist l := by
    intro l
    induction l with
    | nil => intro last; simp [Spec.throttle]
    | cons y l ih =>
      intro last
      have hkeep : ((y :: Spec.throttle d (some y.1) l).Pairwise (fun x y => x.1 + d ≤ y.1)) ∧
          (y :: Spec.throttle d (some y.1) l).Sublist (y :: l) :=
        ⟨List.pairwise_cons.2 ⟨fun x hx => throttle_ge d hd l _ x hx, (ih _).1⟩, (ih _).2.cons_cons _⟩
      cases last with
      | none => exact hkeep
      | some t =>
        simp only [Spec.throttle]
        split
        · exact hkeep
        · exact ⟨(ih _).1, (ih _).2.cons _⟩
  refine ⟨(h1 l none).1, ?_, (h1 l none).2⟩
  cases l with
  | nil => rfl
  | cons y l => simp [Spec.throttle]

end

/-! ## Concrete runs (non-vacuity of the hypotheses above) -/

example : seen (γ := Nat) (ε := Nat) 0 (single (.map (fun a : Nat => if a = 3 then .error 8 else .ok (a * 2))))
    [.next 1, .next 2, .next 3, .next 4, .completed] = ⟨[2, 4], some (.error 8)⟩ := by decide
example : seen (γ := Nat) (ε := Nat) 0 (single (.filter (fun a : Nat => .ok (a % 2 == 0))))
    [.next 1, .next 2, .next 3, .next 4, .completed] = ⟨[2, 4], some .completed⟩ := by decide
example : seen (γ := Nat) (ε := Nat) 0 (single (.take 2))
    [.next 1, .next 2, .next 3, .error 4] = ⟨[1, 2], some .completed⟩ := by decide
example : seen (γ := Nat) (ε := Nat) 0 (single (.skip 2))
    [.next 1, .next 2, .next 3, .error 4] = ⟨[3], some (.error 4)⟩ := by decide
example : seen (γ := Nat) (ε := Nat) 0 (single (.takeWhile (fun a => .ok (a < 3))))
    [.next 1, .next 2, .next 3, .next 1] = ⟨[1, 2], some .completed⟩ := by decide
example : (traceOf ([.next 1, .next 2, .next 3, .completed] : List (Call Nat Nat))).fin = some .completed ∧
    seen (γ := Nat) (ε := Nat) 0 (single (.takeLast 2))
    [.next 1, .next 2, .next 3, .completed] = ⟨[2, 3], some .completed⟩ := by decide
example : seen (γ := Nat) (ε := Nat) 0 (single (.first 9)) [.next 1, .next 2] = ⟨[1], some .completed⟩ := by decide
example : seen (γ := Nat) (ε := Nat) 0 (single (.last 9)) [.next 1, .next 2, .completed]
    = ⟨[2], some .completed⟩ := by decide
example : seen (γ := Nat) (ε := Nat) 0 (single (.elementAt 1 9)) [.next 1, .next 2, .next 3]
    = ⟨[2], some .completed⟩ := by decide
example : seen (γ := Nat) (ε := Nat) 0 (single .distinct) [.next 1, .next 2, .next 1, .next 3, .completed]
    = ⟨[1, 2, 3], some .completed⟩ := by decide
example : seen (γ := Nat) (ε := Nat) 0 (single (.distinctUntilChanged (fun a b => .ok (a == b))))
    [.next 1, .next 1, .next 2, .next 1, .completed] = ⟨[1, 2, 1], some .completed⟩ := by decide
example : Equivalence (fun a b : Nat => (a % 3 == b % 3) = true) :=
  ⟨by simp, by simp; omega, by simp; omega⟩
example : seen (γ := Nat) (ε := Nat) 0 (single (.scan 10 (fun b (a : Nat) => .ok (b + a))))
    [.next 1, .next 2, .completed] = ⟨[10, 11, 13], some .completed⟩ := by decide
example : seen (γ := Nat) (ε := Nat) 0 (single (.reduce 10 (fun b (a : Nat) => .ok (b + a))))
    [.next 1, .next 2, .completed] = ⟨[13], some .completed⟩ := by decide
example : seen (γ := List Nat) (ε := Nat) 0 (single (.buffer 2))
    [.next 1, .next 2, .next 3, .completed] = ⟨[[1, 2], [3]], some .completed⟩ := by decide
example : 5 ∈ (Pipe.cons (.finallyOp 5) (single (.take 1)) : Pipe Nat Nat Nat).finals := by decide
example : seen (γ := Nat) (ε := Nat) 0 (single (.throttle 10))
    [.next (0, 1), .next (5, 2), .next (10, 3), .next (12, 4), .next (30, 5)] = ⟨[1, 3, 5], none⟩ := by decide

end Rpp
