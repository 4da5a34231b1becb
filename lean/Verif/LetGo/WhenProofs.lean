import Verif.LetGo.Props
import Verif.Core.Props

/-!
# Helper lemmas for C109: retry_when above chains that are silent after an error
-/

namespace Rpp.LetGo

variable {α β ε : Type} [DecidableEq β] [DecidableEq ε]

/-- The calls of attempt `i`'s source.  Specification; models no code. -/
def callsOf (i : Nat) (l : List (Nat × Call α ε)) : List (Call α ε) := l.filterMap fun x => if x.1 = i then some x.2 else none

/-- The calls that retry_when passes on as they are.  Helper of the proofs; models no code. -/
def plain (l : List (Call β ε)) : List (Call β ε) := l.filter fun c => c.isEvent && !isErr c

omit [DecidableEq β] [DecidableEq ε] in
theorem plain_append (l m : List (Call β ε)) : plain (l ++ m) = plain l ++ plain m := List.filter_append ..

omit [DecidableEq β] [DecidableEq ε] in
theorem plain_noErr : ∀ (l : List (Call β ε)), ∀ c ∈ plain l, isErr c = false := by
  intro l c hc
  have := (List.mem_filter.1 hc).2
  simp only [Bool.and_eq_true, Bool.not_eq_true'] at this
  exact this.2

omit [DecidableEq β] [DecidableEq ε] in
theorem trace_ne_err : ∀ (l : List (Call β ε)), (∀ c ∈ l, isErr c = false) → ∀ e, (traceOf l).fin ≠ some (.error e)
  | [], _, e, he => by cases he
  | .next a :: l, h, e, he => trace_ne_err l (fun x hx => h x (List.mem_cons_of_mem _ hx)) e he
  | .up d :: l, h, e, he => trace_ne_err l (fun x hx => h x (List.mem_cons_of_mem _ hx)) e he
  | .completed :: l, _, e, he => by cases he
  | .error e' :: l, h, e, he => by cases h (.error e') List.mem_cons_self

omit [DecidableEq β] [DecidableEq ε] in
theorem trace_plain : ∀ (l : List (Call β ε)), (∀ c ∈ l, isErr c = false) → traceOf (plain l) = traceOf l
  | [], _ => rfl
  | .next a :: l, h => by
    have ih := trace_plain l (fun x hx => h x (List.mem_cons_of_mem _ hx))
    show traceOf (.next a :: plain l) = _
    simp only [traceOf, ih]
  | .up d :: l, h => trace_plain l (fun x hx => h x (List.mem_cons_of_mem _ hx))
  | .completed :: l, _ => rfl
  | .error e' :: l, h => by cases h (.error e') List.mem_cons_self

omit [DecidableEq β] [DecidableEq ε] in
theorem trace_term : ∀ {l : List (Call β ε)}, (traceOf l).fin.isSome = true → l.any Call.isTerm = true
  | [], h => by cases h
  | .next a :: l, h => by rw [List.any_cons, trace_term (l := l) h, Bool.or_true]
  | .up d :: l, h => by rw [List.any_cons, trace_term (l := l) h, Bool.or_true]
  | .error e :: l, _ => rfl
  | .completed :: l, _ => rfl

/-- An error is not passed on.  Helper of the proofs; models no code. -/
def unfail : Option (Term ε) → Option (Term ε)
  | some (.error _) => none
  | f => f

/-- What is passed on of calls with at most one error, the last one. -/
theorem trace_plain_last {l : List (Call β ε)} (h : LastQ isErr l) :
    traceOf (plain l) = ⟨(traceOf l).vals, unfail (traceOf l).fin⟩ := by
  rcases split_err h with h | ⟨pre, e, rfl, h'⟩
  · rw [trace_plain l h]
    have := trace_ne_err l h
    revert this
    cases traceOf l with
    | mk v f =>
      intro this
      cases f with
      | none => rfl
      | some t => cases t with
        | completed => rfl
        | error e => exact absurd rfl (this e)
  · rw [plain_append]
    have e0 : plain [(.error e : Call β ε)] = [] := rfl
    rw [e0, List.append_nil, trace_plain pre h']
    cases hf : (traceOf pre).fin with
    | none =>
      rw [Feed.traceOf_append_none _ _ hf]
      revert hf
      cases traceOf pre with
      | mk v f => intro hf; cases hf; simp [traceOf, unfail]
    | some t =>
      rw [Feed.traceOf_append_fin _ _ (by rw [hf]; rfl)]
      have := trace_ne_err pre h'
      revert hf this
      cases traceOf pre with
      | mk v f =>
        intro hf this
        cases hf
        cases t with
        | completed => rfl
        | error e => exact absurd rfl (this e)

section
variable (ov : ε) (react : List (Call β ε) → Reaction ε) (notif : List ε → Option ε)

theorem user_disp (u : UserSt β ε) : (userObs none ov react).isDisposed u = u.disposed := by
  simp [userObs, observerImpl, localDisp, lambdaStrategy]

theorem user_ignore {u : UserSt β ε} (hd : u.disposed = true) (c : Call β ε) (hc : c.isEvent = true) :
    (userObs none ov react).call c u = u :=
  (userObs_lawful (cap := none) (ov := ov) (react := react)).ignore u c (by rw [user_disp]; exact hd) hc

theorem when_call (c : Call β ε) (hc : isErr c = false) (s : WhenSt β ε) :
    (whenObs ov react notif).call c s = { s with user := (userObs none ov react).run s.user (plain [c]) } := by
  cases hd : s.user.disposed with
  | true =>
    have hu := user_disp ov react s.user
    rw [hd] at hu
    cases c with
    | error e => cases hc
    | up d => simp only [Obs.call, whenObs, observerImpl, noneDisp, whenStrategy, hu]; rfl
    | next a =>
      refine Eq.trans ?_ (congrArg (fun x => ({ s with user := x } : WhenSt β ε)) (user_ignore ov react hd (.next a) rfl)).symm
      simp only [Obs.call, whenObs, observerImpl, noneDisp, whenStrategy, hu]; rfl
    | completed =>
      refine Eq.trans ?_ (congrArg (fun x => ({ s with user := x } : WhenSt β ε)) (user_ignore ov react hd .completed rfl)).symm
      simp only [Obs.call, whenObs, observerImpl, noneDisp, whenStrategy, hu]; rfl
  | false =>
    have hu := user_disp ov react s.user
    rw [hd] at hu
    cases c with
    | error e => cases hc
    | up d => simp only [Obs.call, whenObs, observerImpl, noneDisp, whenStrategy, hu]; rfl
    | next a => simp only [Obs.call, whenObs, observerImpl, noneDisp, whenStrategy, hu]; rfl
    | completed => simp only [Obs.call, whenObs, observerImpl, noneDisp, whenStrategy, hu]; rfl

theorem when_run (cs : List (Call β ε)) : (∀ c ∈ cs, isErr c = false) → ∀ s : WhenSt β ε,
    (whenObs ov react notif).run s cs = { s with user := (userObs none ov react).run s.user (plain cs) } := by
  induction cs with
  | nil => exact fun _ _ => rfl
  | cons c cs ih =>
    intro h s
    rw [Obs.run_cons, when_call ov react notif c (h c List.mem_cons_self), ih fun x hx => h x (List.mem_cons_of_mem _ hx)]
    have : plain (c :: cs) = plain [c] ++ plain cs := plain_append [c] cs
    rw [this, Obs.run_append]

theorem when_error_live (e : ε) (s : WhenSt β ε) (hd : s.user.disposed = false) :
    (whenObs ov react notif).call (.error e) s =
      match notif (s.asked ++ [e]) with
      | none => { s with asked := s.asked ++ [e] }
      | some e' => ⟨s.asked ++ [e], (userObs none ov react).onError e' s.user⟩ := by
  have hu := user_disp ov react s.user
  rw [hd] at hu
  simp only [Obs.call, whenObs, observerImpl, implOnError, noneDisp, whenStrategy, hu, Bool.or_self, Bool.false_eq_true, if_false]
  cases notif (s.asked ++ [e]) <;> rfl

theorem when_error_gone (e : ε) (s : WhenSt β ε) (hd : s.user.disposed = true) : (whenObs ov react notif).call (.error e) s = s := by
  have hu := user_disp ov react s.user
  rw [hd] at hu
  simp only [Obs.call, whenObs, observerImpl, implOnError, noneDisp, whenStrategy, hu]; rfl

theorem when_disp (s : WhenSt β ε) : (whenObs ov react notif).isDisposed s = s.user.disposed := by
  simp only [whenObs, observerImpl, noneDisp, whenStrategy, Bool.false_or]
  exact user_disp ov react s.user

theorem when_deaf : Deaf (whenObs ov react notif) where
  ignore s c hd hc := by
    rw [when_disp] at hd
    cases hq : isErr c with
    | true =>
      cases c with
      | error e => exact when_error_gone ov react notif e s hd
      | next a => cases hq
      | completed => cases hq
      | up d => cases hq
    | false =>
      rw [when_call ov react notif c hq]
      have hp : plain [c] = [c] := by
        cases c with
        | error e => cases hq
        | next a => rfl
        | completed => rfl
        | up d => cases hc
      rw [hp]
      have : (userObs none ov react).run s.user [c] = s.user := user_ignore ov react hd c hc
      rw [this]
  up_disposed s d hd := by
    rw [when_disp] at hd
    have hu := user_disp ov react s.user
    rw [hd] at hu
    simp only [whenObs, observerImpl, noneDisp, whenStrategy, hu]; rfl
  release_disposed s d hd := hd

/-- What the observer of an attempt does with the calls of a chain that is silent after an error. -/
theorem core (p : Pipe ε α β) (hq : Quiet p) (sh0 : WhenSt β ε) (cs : List (Call α ε)) (hcs : LastQ Call.isTerm cs) :
    let sh := (whenObs ov react notif).run sh0 (p.trans cs)
    (sh.asked = sh0.asked ∧ sh.user = (userObs none ov react).run sh0.user (plain (p.trans cs)) ∧
      ∀ e, (traceOf (p.trans cs)).fin = some (.error e) → sh.user.disposed = true) ∨
    ∃ e, cs.any Call.isTerm = true ∧ (traceOf (p.trans cs)).fin = some (.error e) ∧ sh.asked = sh0.asked ++ [e] ∧
      sh.user = (userObs none ov react).run sh0.user (plain (p.trans cs) ++
        match notif (sh0.asked ++ [e]) with | some e' => [.error e'] | none => []) := by
  rcases split_err (pipe_late p hq cs hcs) with h | ⟨pre, e, hl, h⟩
  · left
    rw [when_run ov react notif _ h]
    exact ⟨rfl, rfl, fun e he => absurd he (trace_ne_err _ h e)⟩
  · have hterm : cs.any Call.isTerm = true := by
      cases ht : cs.any Call.isTerm with
      | true => rfl
      | false =>
        have := pipe_no_err p hq (cs := cs) (by simpa using ht) (.error e) (by rw [hl]; simp)
        cases this
    have hpl : plain (pre ++ [.error e]) = plain pre := by
      rw [plain_append]
      have : plain [(.error e : Call β ε)] = [] := rfl
      rw [this, List.append_nil]
    rw [hl, hpl]
    have hrun : (whenObs ov react notif).run sh0 (pre ++ [.error e]) =
        (whenObs ov react notif).call (.error e) { sh0 with user := (userObs none ov react).run sh0.user (plain pre) } := by
      rw [Obs.run_append, when_run ov react notif _ h]; rfl
    cases hd : ((userObs none ov react).run sh0.user (plain pre)).disposed with
    | true =>
      left
      rw [hrun, when_error_gone ov react notif e _ hd]
      exact ⟨rfl, rfl, fun _ _ => hd⟩
    | false =>
      right
      have hfin : (traceOf pre).fin = none := by
        cases hf : (traceOf pre).fin with
        | none => rfl
        | some t =>
          have h1 : (plain pre).any Call.isTerm = true := trace_term (by rw [trace_plain pre h, hf]; rfl)
          have := (userObs_lawful (cap := none) (ov := ov) (react := react)).run_term (plain pre) sh0.user h1
          rw [user_disp, hd] at this
          cases this
      refine ⟨e, hterm, ?_, ?_, ?_⟩
      · rw [Feed.traceOf_append_none _ _ hfin]; rfl
      · rw [hrun, when_error_live ov react notif e _ hd]
        show (match notif (sh0.asked ++ [e]) with | none => _ | some e' => _ : WhenSt β ε).asked = _
        cases notif (sh0.asked ++ [e]) <;> rfl
      · rw [hrun, when_error_live ov react notif e _ hd, Obs.run_append]
        show (match notif (sh0.asked ++ [e]) with | none => _ | some e' => _ : WhenSt β ε).user = _
        cases notif (sh0.asked ++ [e]) <;> rfl

end

omit [DecidableEq ε] in
theorem mapFinal_same {τ : Type} : {α γ : Type} → (p : Pipe ε α γ) → (s : p.State τ) → p.mapFinal (fun _ => p.final s) s = s
  | _, _, .nil, _ => rfl
  | _, _, .cons _ p, s => by
    show (s.1, p.mapFinal (fun _ => p.final s.2) s.2) = s
    rw [mapFinal_same p s.2]; rfl

omit [DecidableEq ε] in
theorem callsOf_snoc (l : List (Nat × Call α ε)) (i j : Nat) (c : Call α ε) :
    callsOf j (l ++ [(i, c)]) = if i = j then callsOf j l ++ [c] else callsOf j l := by
  simp only [callsOf, List.filterMap_append]
  split <;> simp_all

omit [DecidableEq ε] in
theorem callsOf_nil (l : List (Nat × Call α ε)) (j : Nat) (h : j ∉ l.map (·.1)) : callsOf j l = [] := by
  rw [callsOf, List.filterMap_eq_nil_iff]
  intro x hx
  rw [if_neg]
  intro e
  exact h (List.mem_map.2 ⟨x, hx, e⟩)

omit [DecidableEq ε] in
theorem oneEnd_snoc {cs : List (Call α ε)} {c : Call α ε} (h : OneEnd (cs ++ [c])) : cs.any Call.isTerm = false := by
  rw [OneEnd, List.dropLast_concat] at h
  simpa using h

/-- What the last attempt passes on.  Helper of the proofs; models no code. -/
def flat (p : Pipe ε α β) (made : List (Nat × Call α ε)) (n : Nat) : List (Call β ε) :=
  (List.range n).flatMap fun i => plain (p.trans (callsOf i made))

/-- What the subscriber is told of a notifier.  Helper of the proofs; models no code. -/
def noteTail (said : List (Call Unit ε)) : List (Call β ε) :=
  match (traceOf said).fin with
  | some (.error e) => [.error e]
  | some .completed => [.completed]
  | none => []

section
variable (ov : ε) (react : List (Call β ε) → Reaction ε) (notif : List ε → Option ε) (p : Pipe ε α β)

/-- Attempt `n` is the last one and has not failed, or nobody cares.  Helper of the proofs; models no code. -/
def Live (n : Nat) (s : RetrySt p) : Prop :=
  s.sh.asked.length = n ∧ s.sh.user = (userObs none ov react).run {} (flat p s.made (n + 1)) ∧
  ∃ sh0 ch run, s.tries[n]? = some (ch, run) ∧ sh0.asked = s.sh.asked ∧ sh0.user = (userObs none ov react).run {} (flat p s.made n) ∧
    ch = (p.lift (whenObs ov react notif)).run (p.start (whenObs ov react notif) sh0) (callsOf n s.made) ∧ s.sh = p.final ch

/-- Attempt `n` is the last one and has failed.  Helper of the proofs; models no code. -/
def Failed (n : Nat) (s : RetrySt p) : Prop :=
  s.sh.asked.length = n + 1 ∧ (callsOf n s.made).any Call.isTerm = true ∧
  (∃ e, s.sh.asked[n]? = some e ∧ (p.spec (traceOf (callsOf n s.made))).fin = some (.error e)) ∧
  s.sh.user = (userObs none ov react).run {} (flat p s.made (n + 1) ++
    match notif s.sh.asked with | some e' => [.error e'] | none => noteTail (callsOf n s.notes))

/-- Invariant without the flags.  Helper of the proofs; models no code. -/
structure Base (n : Nat) (s : RetrySt p) : Prop where
  len : s.tries.length = n + 1
  later : ∀ i, n < i → callsOf i s.made = []
  past : ∀ i, i < n → (callsOf i s.made).any Call.isTerm = true ∧ callsOf i s.notes = [.next ()] ∧
    ∃ e, s.sh.asked[i]? = some e ∧ (p.spec (traceOf (callsOf i s.made))).fin = some (.error e)
  keys : s.notes.map (·.1) = List.range s.notes.length
  few : s.notes.length ≤ s.sh.asked.length
  now : Live ov react notif p n s ∨ Failed ov react notif p n s

/-- Invariant.  Helper of the proofs; models no code. -/
structure WInv (n : Nat) (s : RetrySt p) : Prop extends Base ov react notif p n s where
  flags : s.sh.user.disposed = true ∨ (∀ (i : Nat) ch r, i < n → s.tries[i]? = some (ch, r) → r = false) ∧
    ∃ ch run, s.tries[n]? = some (ch, run) ∧
      (s.notes.length = n ∧ run = s.inside ∨ s.notes.length = n + 1 ∧ s.inside = false ∧ run = true ∧ callsOf n s.notes = [.next ()])

omit [DecidableEq β] [DecidableEq ε] in
theorem flat_succ (made : List (Nat × Call α ε)) (n : Nat) : flat p made (n + 1) = flat p made n ++ plain (p.trans (callsOf n made)) := by
  simp [flat, List.range_succ, List.flatMap_append]

omit [DecidableEq β] [DecidableEq ε] in
theorem flat_same {made made' : List (Nat × Call α ε)} (n : Nat) (h : ∀ i, i < n → callsOf i made = callsOf i made') :
    flat p made n = flat p made' n := by
  induction n with
  | zero => rfl
  | succ n ih => rw [flat_succ, flat_succ, ih fun i hi => h i (by omega), h n (by omega)]

theorem told_disposed (l : List (Call β ε)) (c : Call β ε) (hc : c.isTerm = true) :
    ((userObs none ov react).run {} (l ++ [c])).disposed = true := by
  rw [← user_disp ov react]
  exact (userObs_lawful (cap := none) (ov := ov) (react := react)).run_term _ _ (by simp [hc])

theorem again_inv (hq : Quiet p) {n : Nat} {s : RetrySt p} (h : Base ov react notif p n s) (hd : s.sh.user.disposed = false)
    (hf : Failed ov react notif p n s) (hn : callsOf n s.notes = [.next ()]) (hl : s.notes.length = n + 1)
    (hr : ∀ (i : Nat) ch r, s.tries[i]? = some (ch, r) → r = false) : WInv ov react notif p (n + 1) (again ov react notif p s) := by
  obtain ⟨f1, f2, f3, f4⟩ := hf
  have f4 : s.sh.user = (userObs none ov react).run {} (flat p s.made (n + 1)) := by
    rw [f4]
    cases ht : notif s.sh.asked with
    | some e' =>
      rw [ht] at f4
      have := told_disposed ov react (flat p s.made (n + 1)) (.error e') rfl
      rw [← f4, hd] at this; cases this
    | none => rw [hn]; simp [noteTail, traceOf]
  have hm : callsOf (n + 1) s.made = [] := h.later _ (by omega)
  have hrun := pipe_run (when_deaf ov react notif) s.sh p []
  have hne := pipe_no_err p hq (cs := []) (fun _ h => nomatch h)
  have hfin : p.final (p.start (whenObs ov react notif) s.sh) =
      { s.sh with user := (userObs none ov react).run s.sh.user (plain (p.trans [])) } := by
    refine Eq.trans ?_ (hrun.trans (when_run ov react notif _ hne s.sh))
    rfl
  have e : again ov react notif p s =
      { s with sh := p.final (p.start (whenObs ov react notif) s.sh), inside := true, tries := s.tries ++ [(p.start (whenObs ov react notif) s.sh, true)] } := by
    simp only [again, hd, Bool.false_eq_true, if_false]
  have ha : (p.final (p.start (whenObs ov react notif) s.sh)).asked = s.sh.asked := by rw [hfin]
  rw [e]
  refine ⟨⟨?_, ?_, ?_, ?_, ?_, .inl ⟨?_, ?_, s.sh, p.start (whenObs ov react notif) s.sh, true, ?_, ?_, ?_, ?_, ?_⟩⟩,
    .inr ⟨?_, p.start (whenObs ov react notif) s.sh, true, ?_, .inl ⟨?_, ?_⟩⟩⟩
  · simp [h.len]
  · intro i hi; exact h.later i (by omega)
  · intro i hi
    show _ ∧ _ ∧ ∃ e, (p.final (p.start (whenObs ov react notif) s.sh)).asked[i]? = some e ∧ _
    rw [ha]
    by_cases hi' : i < n
    · exact h.past i hi'
    · have : i = n := by omega
      subst this
      exact ⟨f2, hn, f3⟩
  · exact h.keys
  · show s.notes.length ≤ (p.final (p.start (whenObs ov react notif) s.sh)).asked.length
    rw [ha]; exact h.few
  · show (p.final (p.start (whenObs ov react notif) s.sh)).asked.length = n + 1
    rw [ha]; exact f1
  · show (p.final (p.start (whenObs ov react notif) s.sh)).user = _
    rw [hfin, flat_succ, hm, Obs.run_append, ← f4]
  · show (s.tries ++ [_])[n + 1]? = _
    rw [List.getElem?_append_right (by rw [h.len]; omega), h.len]; simp
  · exact ha.symm
  · exact f4
  · show _ = (p.lift (whenObs ov react notif)).run _ (callsOf (n + 1) s.made)
    rw [hm]; rfl
  · rfl
  · intro i ch r hi hx
    have hx : (s.tries ++ [(p.start (whenObs ov react notif) s.sh, true)])[i]? = some (ch, r) := hx
    rw [List.getElem?_append_left (by rw [h.len]; exact hi)] at hx
    exact hr i ch r hx
  · show (s.tries ++ [_])[n + 1]? = _
    rw [List.getElem?_append_right (by rw [h.len]; omega), h.len]; simp
  · exact hl
  · rfl

theorem src_inv (hp : p.WF) (hq : Quiet p) {n : Nat} {s : RetrySt p} (h : WInv ov react notif p n s) (i : Nat) (c : Call α ε)
    (hO : ∀ j, OneEnd (callsOf j (wstep ov react notif p s (.src i c)).made)) :
    WInv ov react notif p n (wstep ov react notif p s (.src i c)) := by
  cases ht : s.tries[i]? with
  | none => simp only [wstep, ht]; exact h
  | some x =>
    obtain ⟨ch, run⟩ := x
    simp only [wstep, ht] at hO ⊢
    have hin : i < n + 1 := by
      rw [← h.len]
      exact (List.getElem?_eq_some_iff.1 ht).1
    have hOi := hO i
    rw [callsOf_snoc, if_pos rfl] at hOi
    have hno := oneEnd_snoc hOi
    have hi : i = n := by
      by_cases hi : i < n
      · rw [(h.past i hi).1] at hno; cases hno
      · omega
    subst hi
    rcases h.now with ⟨l1, l2, sh0, ch', run', l3, l4, l5, l6, l7⟩ | ⟨-, f2, -⟩
    · rw [ht] at l3
      cases l3
      have hmf : p.mapFinal (fun _ => s.sh) ch = ch := by rw [l7]; exact mapFinal_same p ch
      rw [hmf]
      have hch : (p.lift (whenObs ov react notif)).call c ch =
          (p.lift (whenObs ov react notif)).run (p.start (whenObs ov react notif) sh0) (callsOf i s.made ++ [c]) := by
        rw [Obs.run_append, ← l6]; rfl
      have hsh : p.final ((p.lift (whenObs ov react notif)).call c ch) =
          (whenObs ov react notif).run sh0 (p.trans (callsOf i s.made ++ [c])) := by
        rw [hch]; exact pipe_run (when_deaf ov react notif) sh0 p _
      have hco := core ov react notif p hq sh0 _ (lastQ_oneEnd hOi)
      rw [← hsh] at hco
      have hdisp : s.sh.user.disposed = true → (p.final ((p.lift (whenObs ov react notif)).call c ch)).user.disposed = true := by
        intro hd
        rw [← when_disp ov react notif, ← Pipe.isDisposed_final]
        refine (pipe_deaf p (when_deaf ov react notif)).stays ch c ?_
        rw [Pipe.isDisposed_final, when_disp, ← l7]
        exact hd
      have hi' : ∀ j, j ≠ i → callsOf j (s.made ++ [(i, c)]) = callsOf j s.made := fun j hj => by
        rw [callsOf_snoc, if_neg (Ne.symm hj)]
      have hii : callsOf i (s.made ++ [(i, c)]) = callsOf i s.made ++ [c] := by rw [callsOf_snoc, if_pos rfl]
      have hflat : flat p (s.made ++ [(i, c)]) i = flat p s.made i := flat_same p i fun j hj => hi' j (by omega)
      have hset : (s.tries.set i ((p.lift (whenObs ov react notif)).call c ch, run))[i]? =
          some ((p.lift (whenObs ov react notif)).call c ch, run) := by
        rw [List.getElem?_set_self (by rw [h.len]; omega)]
      have hflags : ∀ u : UserSt β ε, (s.sh.user.disposed = true → u.disposed = true) → u.disposed = true ∨
          (∀ (j : Nat) ch' r, j < i → (s.tries.set i ((p.lift (whenObs ov react notif)).call c ch, run))[j]? = some (ch', r) → r = false) ∧
          ∃ ch' run', (s.tries.set i ((p.lift (whenObs ov react notif)).call c ch, run))[i]? = some (ch', run') ∧
            (s.notes.length = i ∧ run' = s.inside ∨ s.notes.length = i + 1 ∧ s.inside = false ∧ run' = true ∧ callsOf i s.notes = [.next ()]) := by
        intro u hu
        rcases h.flags with hd | ⟨g1, ch1, run1, g2, g3⟩
        · exact .inl (hu hd)
        · rw [ht] at g2; cases g2
          refine .inr ⟨fun j ch' r hj hx => ?_, _, _, hset, g3⟩
          rw [List.getElem?_set_ne (by omega)] at hx
          exact g1 j ch' r hj hx
      rcases hco with ⟨c1, c2, -⟩ | ⟨e, c1, c2, c3, c4⟩
      · refine ⟨⟨?_, ?_, ?_, h.keys, ?_, .inl ⟨?_, ?_, sh0, _, run, hset, ?_, ?_, ?_, rfl⟩⟩, hflags _ hdisp⟩
        · simp [h.len]
        · intro j hj; rw [hi' j (by omega)]; exact h.later j hj
        · intro j hj
          show _ ∧ _ ∧ ∃ e, (p.final ((p.lift (whenObs ov react notif)).call c ch)).asked[j]? = some e ∧ _
          rw [c1, l4, hi' j (by omega)]
          exact h.past j hj
        · show s.notes.length ≤ (p.final ((p.lift (whenObs ov react notif)).call c ch)).asked.length
          rw [c1, l4]; exact h.few
        · show (p.final ((p.lift (whenObs ov react notif)).call c ch)).asked.length = i
          rw [c1, l4]; exact l1
        · show (p.final ((p.lift (whenObs ov react notif)).call c ch)).user = _
          rw [flat_succ, hflat, hii, c2, l5, Obs.run_append]
        · exact c1.symm
        · show sh0.user = (userObs none ov react).run {} (flat p (s.made ++ [(i, c)]) i)
          rw [hflat]; exact l5
        · show _ = (p.lift (whenObs ov react notif)).run _ (callsOf i (s.made ++ [(i, c)]))
          rw [hii]; exact hch
      · have hlen : sh0.asked.length = i := by rw [l4]; exact l1
        have hnote : callsOf i s.notes = [] := by
          refine callsOf_nil _ _ ?_
          rw [h.keys]
          have := h.few
          rw [l1] at this
          simp only [List.mem_range]; omega
        refine ⟨⟨?_, ?_, ?_, h.keys, ?_, .inr ⟨?_, ?_, ⟨e, ?_, ?_⟩, ?_⟩⟩, hflags _ hdisp⟩
        · simp [h.len]
        · intro j hj; rw [hi' j (by omega)]; exact h.later j hj
        · intro j hj
          show _ ∧ _ ∧ ∃ e, (p.final ((p.lift (whenObs ov react notif)).call c ch)).asked[j]? = some e ∧ _
          rw [c3, hi' j (by omega), List.getElem?_append_left (by omega), l4]
          exact h.past j hj
        · show s.notes.length ≤ (p.final ((p.lift (whenObs ov react notif)).call c ch)).asked.length
          have := h.few
          rw [c3, l4, List.length_append]; omega
        · show (p.final ((p.lift (whenObs ov react notif)).call c ch)).asked.length = i + 1
          rw [c3, List.length_append, hlen]; rfl
        · show (callsOf i (s.made ++ [(i, c)])).any Call.isTerm = true
          rw [hii]; exact c1
        · show (p.final ((p.lift (whenObs ov react notif)).call c ch)).asked[i]? = some e
          rw [c3, List.getElem?_append_right (by omega), hlen]; simp
        · show (p.spec (traceOf (callsOf i (s.made ++ [(i, c)])))).fin = _
          rw [hii, ← p.trans_spec hp]; exact c2
        · show (p.final ((p.lift (whenObs ov react notif)).call c ch)).user = (userObs none ov react).run {}
            (flat p (s.made ++ [(i, c)]) (i + 1) ++ match notif (p.final ((p.lift (whenObs ov react notif)).call c ch)).asked with
              | some e' => [.error e'] | none => noteTail (callsOf i s.notes))
          rw [c3, flat_succ, hflat, hii, c4, l5, hnote, List.append_assoc, ← Obs.run_append]
          cases notif (sh0.asked ++ [e]) <;> rfl
    · rw [f2] at hno; cases hno

theorem live_of {n : Nat} {s s' : RetrySt p} (h : Live ov react notif p n s) (h1 : s'.sh = s.sh) (h2 : s'.made = s.made)
    (h3 : ∀ ch r, s.tries[n]? = some (ch, r) → ∃ r', s'.tries[n]? = some (ch, r')) : Live ov react notif p n s' := by
  obtain ⟨l1, l2, sh0, ch, run, l3, l4, l5, l6, l7⟩ := h
  obtain ⟨r', h3⟩ := h3 ch run l3
  exact ⟨by rw [h1]; exact l1, by rw [h1, h2]; exact l2, sh0, ch, r', h3, by rw [h1]; exact l4, by rw [h2]; exact l5, by rw [h2]; exact l6, by rw [h1]; exact l7⟩

theorem ret_inv (hq : Quiet p) {n : Nat} {s : RetrySt p} (h : WInv ov react notif p n s) (i : Nat) :
    ∃ m, WInv ov react notif p m (wstep ov react notif p s (.ret i)) := by
  cases ht : s.tries[i]? with
  | none => simp only [wstep, ht]; exact ⟨n, h⟩
  | some x =>
    obtain ⟨ch, run⟩ := x
    cases run with
    | false => simp only [wstep, ht]; exact ⟨n, h⟩
    | true =>
      simp only [wstep, ht]
      have hin : i < n + 1 := by
        rw [← h.len]
        exact (List.getElem?_eq_some_iff.1 ht).1
      have hb : Base ov react notif p n { s with inside := false, tries := s.tries.set i (ch, false) } := by
        refine ⟨by simp [h.len], h.later, h.past, h.keys, h.few, h.now.imp (fun hl => ?_) id⟩
        refine live_of ov react notif p hl rfl rfl fun ch' r hx => ?_
        by_cases e : i = n
        · subst e
          rw [ht] at hx; cases hx
          exact ⟨false, List.getElem?_set_self (by rw [h.len]; omega)⟩
        · exact ⟨r, by show (s.tries.set i (ch, false))[n]? = _; rw [List.getElem?_set_ne e]; exact hx⟩
      cases hd : s.sh.user.disposed with
      | true =>
        refine ⟨n, ?_⟩
        have : again ov react notif p { s with inside := false, tries := s.tries.set i (ch, false) } =
            { s with inside := false, tries := s.tries.set i (ch, false) } := by simp [again, hd]
        rw [this, ite_self]
        exact ⟨hb, .inl hd⟩
      | false =>
        obtain ⟨g1, ch1, run1, g2, g3⟩ := h.flags.resolve_left (by rw [hd]; exact Bool.false_ne_true)
        have hi : i = n := by
          by_cases hi : i < n
          · have := g1 i ch true hi ht; cases this
          · omega
        subst hi
        rw [ht] at g2; cases g2
        have hall : ∀ (j : Nat) ch' r, (s.tries.set i (ch, false))[j]? = some (ch', r) → r = false := by
          intro j ch' r hx
          by_cases e : i = j
          · subst e
            rw [List.getElem?_set_self (by rw [h.len]; omega)] at hx
            cases hx; rfl
          · rw [List.getElem?_set_ne e] at hx
            refine g1 j ch' r ?_ hx
            have := (List.getElem?_eq_some_iff.1 hx).1
            rw [h.len] at this
            omega
        rcases g3 with ⟨g3, g4⟩ | ⟨g3, g4, -, g5⟩
        · rw [← g4, if_pos rfl]
          exact ⟨i, hb, .inr ⟨fun j ch' r _ hx => hall j ch' r hx, ch, false, List.getElem?_set_self (by rw [h.len]; omega), .inl ⟨g3, rfl⟩⟩⟩
        · rw [g4]
          refine ⟨i + 1, ?_⟩
          refine again_inv ov react notif p hq hb hd ?_ g5 g3 hall
          rcases hb.now with hl | hf
          · have h1 : s.notes.length ≤ s.sh.asked.length := hb.few
            have h2 : s.sh.asked.length = i := hl.1
            omega
          · exact hf

theorem note_inv (hq : Quiet p) {n : Nat} {s : RetrySt p} (h : WInv ov react notif p n s) (k : Nat) (c : Call Unit ε) :
    ∃ m, WInv ov react notif p m (wstep ov react notif p s (.note k c)) := by
  by_cases hk : k < s.sh.asked.length ∧ notif (s.sh.asked.take (k + 1)) = none ∧ k ∉ s.notes.map (·.1) ∧ s.sh.user.disposed = false
  · simp only [wstep, if_pos hk]
    obtain ⟨k1, k2, k3, k4⟩ := hk
    obtain ⟨g1, ch, run, g2, g3⟩ := h.flags.resolve_left (by rw [k4]; exact Bool.false_ne_true)
    rw [h.keys, List.mem_range] at k3
    have hlen : s.sh.asked.length ≤ n + 1 := by
      rcases h.now with hl | hf
      · have := hl.1; omega
      · have := hf.1; omega
    have g3 : s.notes.length = n ∧ run = s.inside := by
      rcases g3 with g3 | ⟨g3, -⟩
      · exact g3
      · omega
    have hkn : k = n := by omega
    subst hkn
    have hf : Failed ov react notif p k s := by
      rcases h.now with hl | hf
      · have := hl.1; omega
      · exact hf
    obtain ⟨f1, f2, f3, f4⟩ := hf
    rw [List.take_of_length_le (by omega)] at k2
    have hnil : callsOf k s.notes = [] := callsOf_nil _ _ (by rw [h.keys, List.mem_range]; omega)
    rw [k2, hnil] at f4
    have f4 : s.sh.user = (userObs none ov react).run {} (flat p s.made (k + 1)) := by
      rw [f4]; simp [noteTail, traceOf]
    have hsnoc : callsOf k (s.notes ++ [(k, c)]) = [c] := by rw [callsOf_snoc, if_pos rfl, hnil]; rfl
    have hpast : ∀ i, i < k → callsOf i (s.notes ++ [(k, c)]) = callsOf i s.notes := fun i hi => by
      rw [callsOf_snoc, if_neg (by omega)]
    have hkeys : (s.notes ++ [(k, c)]).map (·.1) = List.range (s.notes ++ [(k, c)]).length := by
      rw [List.map_append, h.keys, List.length_append, g3.1]
      simp [List.range_succ]
    have hbase : ∀ u : UserSt β ε, u = (userObs none ov react).run {} (flat p s.made (k + 1) ++ noteTail [c]) →
        ∀ b, Base ov react notif p k { s with sh := { s.sh with user := u }, inside := b, notes := s.notes ++ [(k, c)] } := by
      intro u hu b
      refine ⟨h.len, h.later, fun i hi => ?_, hkeys, ?_, .inr ⟨f1, f2, f3, ?_⟩⟩
      · show _ ∧ callsOf i (s.notes ++ [(k, c)]) = _ ∧ _
        rw [hpast i hi]; exact h.past i hi
      · show (s.notes ++ [(k, c)]).length ≤ s.sh.asked.length
        rw [List.length_append, g3.1, f1]; exact Nat.le_refl _
      · show u = (userObs none ov react).run {} (flat p s.made (k + 1) ++ match notif s.sh.asked with
          | some e' => [.error e'] | none => noteTail (callsOf k (s.notes ++ [(k, c)])))
        rw [hsnoc, k2]; exact hu
    have hfew : (s.notes ++ [(k, c)]).length = k + 1 := by rw [List.length_append, g3.1]; rfl
    cases c with
    | up d => exact ⟨k, h⟩
    | error e =>
      refine ⟨k, hbase ((userObs none ov react).onError e s.sh.user) ?_ s.inside, .inl ?_⟩
      · rw [Obs.run_append, ← f4]; rfl
      · have := told_disposed ov react (flat p s.made (k + 1)) (.error e) rfl
        rw [Obs.run_append, ← f4] at this
        exact this
    | completed =>
      refine ⟨k, hbase ((userObs none ov react).onCompleted s.sh.user) ?_ s.inside, .inl ?_⟩
      · rw [Obs.run_append, ← f4]; rfl
      · have := told_disposed ov react (flat p s.made (k + 1)) .completed rfl
        rw [Obs.run_append, ← f4] at this
        exact this
    | next a =>
      cases hi : s.inside with
      | true =>
        rw [if_pos rfl]
        refine ⟨k, hbase s.sh.user (by rw [f4]; simp [noteTail, traceOf]) false, .inr ⟨g1, ch, run, g2, .inr ⟨hfew, rfl, ?_, hsnoc⟩⟩⟩
        rw [g3.2]; exact hi
      | false =>
        rw [if_neg Bool.false_ne_true]
        have hb := hbase s.sh.user (by rw [f4]; simp [noteTail, traceOf]) false
        refine ⟨k + 1, again_inv ov react notif p hq hb k4 ?_ hsnoc hfew ?_⟩
        · rcases hb.now with hl | hf
          · have := hl.1
            have : s.sh.asked.length = k := this
            omega
          · exact hf
        · intro i ch' r hx
          have hx : s.tries[i]? = some (ch', r) := hx
          by_cases e : i < k
          · exact g1 i ch' r e hx
          · have := (List.getElem?_eq_some_iff.1 hx).1
            rw [h.len] at this
            have : i = k := by omega
            subst this
            rw [g2] at hx; cases hx
            rw [g3.2]; exact hi
  · simp only [wstep, if_neg hk]; exact ⟨n, h⟩

theorem made_mono (s : RetrySt p) (l : WLbl α ε) :
    (wstep ov react notif p s l).made = s.made ∨ ∃ x, (wstep ov react notif p s l).made = s.made ++ [x] := by
  have ha : ∀ s : RetrySt p, (again ov react notif p s).made = s.made := by intro s; unfold again; split <;> rfl
  cases l with
  | src i c =>
    simp only [wstep]
    split
    · exact .inl rfl
    · exact .inr ⟨_, rfl⟩
  | ret i =>
    left
    simp only [wstep]
    split
    · split
      · rfl
      · rw [ha]
    · rfl
  | note k c =>
    left
    simp only [wstep]
    split
    · split
      · split
        · rfl
        · rw [ha]
      · rfl
      · rfl
      · rfl
    · rfl

omit [DecidableEq ε] in
theorem oneEnd_back (l : List (Nat × Call α ε)) (x : Nat × Call α ε) (h : ∀ j, OneEnd (callsOf j (l ++ [x]))) (j : Nat) : OneEnd (callsOf j l) := by
  have := h j
  rw [show x = (x.1, x.2) from rfl, callsOf_snoc] at this
  split at this
  · intro c hc
    exact this c (by rw [List.dropLast_concat]; exact (List.dropLast_sublist _).subset hc)
  · exact this

omit [DecidableEq β] [DecidableEq ε] in
theorem rev_ind {γ : Type} {P : List γ → Prop} (h0 : P []) (h1 : ∀ l a, P l → P (l ++ [a])) (l : List γ) : P l := by
  have : ∀ l : List γ, P l.reverse := by
    intro l
    induction l with
    | nil => exact h0
    | cons a l ih => rw [List.reverse_cons]; exact h1 _ _ ih
  have := this l.reverse
  rwa [List.reverse_reverse] at this

theorem winv (hp : p.WF) (hq : Quiet p) (ls : List (WLbl α ε)) (h : ∀ j, OneEnd (callsOf j (wexec ov react notif p ls).made)) :
    ∃ n, WInv ov react notif p n (wexec ov react notif p ls) := by
  induction ls using rev_ind with
  | h0 =>
    have hrun := pipe_run (when_deaf ov react notif) {} p []
    have hne := pipe_no_err p hq (cs := []) (fun _ h => nomatch h)
    have hfin : p.final (p.start (whenObs ov react notif) {}) =
        { user := (userObs none ov react).run {} (plain (p.trans [])) } := by
      refine Eq.trans ?_ (hrun.trans (when_run ov react notif _ hne {}))
      rfl
    have ha : (p.final (p.start (whenObs ov react notif) {})).asked = [] := by rw [hfin]
    have e : wexec ov react notif p [] =
        { sh := p.final (p.start (whenObs ov react notif) {}), inside := true, tries := [(p.start (whenObs ov react notif) {}, true)] } := rfl
    rw [e]
    refine ⟨0, ⟨rfl, fun _ _ => rfl, fun i hi => absurd hi (Nat.not_lt_zero _), rfl, Nat.zero_le _, .inl ⟨?_, ?_, {}, _, true, rfl, ?_, rfl, rfl, rfl⟩⟩,
      .inr ⟨fun i _ _ hi => absurd hi (Nat.not_lt_zero _), _, true, rfl, .inl ⟨rfl, rfl⟩⟩⟩
    · show (p.final (p.start (whenObs ov react notif) {})).asked.length = 0
      rw [ha]; rfl
    · show (p.final (p.start (whenObs ov react notif) {})).user = _
      rw [hfin]; simp [flat, callsOf]
    · exact ha.symm
  | h1 ls l ih =>
    have e : wexec ov react notif p (ls ++ [l]) = wstep ov react notif p (wexec ov react notif p ls) l := by
      simp [wexec, List.foldl_append]
    rw [e] at h ⊢
    have ih := ih (by
      rcases made_mono ov react notif p (wexec ov react notif p ls) l with hm | ⟨x, hm⟩
      · rw [hm] at h; exact h
      · rw [hm] at h; exact oneEnd_back _ _ h)
    obtain ⟨n, ih⟩ := ih
    cases l with
    | src i c => exact ⟨n, src_inv ov react notif p hp hq ih i c h⟩
    | ret i => exact ret_inv ov react notif p hq ih i
    | note k c => exact note_inv ov react notif p hq ih k c

end

end Rpp.LetGo
