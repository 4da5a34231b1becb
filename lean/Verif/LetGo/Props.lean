import Verif.LetGo.Proofs

/-!
# C109: an observable that has failed is let go

`source | p | on_error_resume_next(sel)`: after the error the subscriber is to hear of the replacement only, and the selector is to be
called once; `source | p | retry_when(notif)`: between the error and the next attempt the subscriber is to hear nothing.  The code keeps
these promises only for chains that are silent after an error by themselves (`C109_resume_partial`, `C109_once_partial`;
`C109_when_partial`, `C109_when_asked_partial` in Verif.LetGo.WhenProps); the chains
`map` with a throwing function, `take | … | first`, `merge_with` are not (`C109_*_refutes`).
-/

namespace Rpp.LetGo

variable {α β ε : Type} [DecidableEq β] [DecidableEq ε]

/-! ## Specification -/

/-- The calls of the source.  Specification; models no code. -/
def srcs : List (Lbl α β ε) → List (Call α ε)
  | [] => []
  | .src c :: ls => c :: srcs ls
  | .late _ _ :: ls => srcs ls

/-- The calls of the first replacement after the source has ended.  Specification; models no code. -/
def lates : List (Lbl α β ε) → List (Call β ε)
  | [] => []
  | .src c :: ls =>
    if c.isTerm then ls.filterMap fun l => match l with | .late 0 x => some x | _ => none
    else lates ls
  | .late _ _ :: ls => lates ls

/-- The source makes no call after its terminal one.  Specification; models no code. -/
def OneEnd (cs : List (Call α ε)) : Prop := ∀ c ∈ cs.dropLast, c.isTerm = false

instance (cs : List (Call α ε)) : Decidable (OneEnd cs) := inferInstanceAs (Decidable (∀ c ∈ cs.dropLast, c.isTerm = false))

/-- The values of the sequence; and after an error the replacement, or what the selector has thrown.  Specification; models no code. -/
def resumeSpec (sel : List ε → Except ε (List (Call β ε))) (t : Trace β ε) (late : List (Call β ε)) : Trace β ε :=
  match t.fin with
  | some (.error e) =>
    match sel [e] with
    | .ok cs => ⟨t.vals ++ (traceOf (cs ++ late)).vals, (traceOf (cs ++ late)).fin⟩
    | .error e' => ⟨t.vals, some (.error e')⟩
  | _ => t

/-! ## Proofs -/

theorem lastQ_oneEnd : ∀ {cs : List (Call α ε)}, OneEnd cs → LastQ Call.isTerm cs
  | [], _ => trivial
  | [c], _ => ⟨fun _ => rfl, trivial⟩
  | c :: d :: cs, h => ⟨fun hq => absurd hq (by rw [h c (by simp)]; simp), lastQ_oneEnd fun x hx => h x (by simp at hx ⊢; exact Or.inr hx)⟩

section
variable (ov : ε) (react : List (Call β ε) → Reaction ε) (sel : List ε → Except ε (List (Call β ε)))

theorem inner_call (c : Call β ε) (t : UserSt β ε) : (innerObs (userObs none ov react)).call c t = (userObs none ov react).call c t := by
  have hL := userObs_lawful (cap := none) (ov := ov) (react := react)
  cases hd : (userObs none ov react).isDisposed t with
  | true =>
    cases c with
    | up d =>
      refine Eq.trans ?_ (hL.up_disposed t d hd).symm
      simp only [Obs.call, innerObs, observerImpl, noneDisp, innerStrategy, hd]; rfl
    | next a =>
      refine Eq.trans ?_ (hL.ignore t (.next a) hd rfl).symm
      simp only [Obs.call, innerObs, observerImpl, noneDisp, innerStrategy, hd]; rfl
    | error e =>
      refine Eq.trans ?_ (hL.ignore t (.error e) hd rfl).symm
      simp only [Obs.call, innerObs, observerImpl, noneDisp, innerStrategy, implOnError, hd]; rfl
    | completed =>
      refine Eq.trans ?_ (hL.ignore t .completed hd rfl).symm
      simp only [Obs.call, innerObs, observerImpl, noneDisp, innerStrategy, hd]; rfl
  | false =>
    cases c <;> simp only [Obs.call, innerObs, observerImpl, noneDisp, innerStrategy, implOnError, hd] <;> rfl

theorem inner_run (cs : List (Call β ε)) : ∀ t, (innerObs (userObs none ov react)).run t cs = (userObs none ov react).run t cs := by
  induction cs with
  | nil => exact fun _ => rfl
  | cons c cs ih => intro t; rw [Obs.run_cons, Obs.run_cons, inner_call, ih]

theorem obs_call (c : Call β ε) (hc : isErr c = false) (s : ResumeSt ε (UserSt β ε)) :
    (obs ov react sel).call c s = { s with down := (userObs none ov react).call c s.down } := by
  have hL := userObs_lawful (cap := none) (ov := ov) (react := react)
  cases hd : (userObs none ov react).isDisposed s.down with
  | true =>
    cases c with
    | error e => cases hc
    | up d =>
      refine Eq.trans ?_ (congrArg (fun x => ({ s with down := x } : ResumeSt ε (UserSt β ε))) (hL.up_disposed s.down d hd)).symm
      simp only [Obs.call, obs, resumeObs, observerImpl, noneDisp, resumeStrategy, hd]; rfl
    | next a =>
      refine Eq.trans ?_ (congrArg (fun x => ({ s with down := x } : ResumeSt ε (UserSt β ε))) (hL.ignore s.down (.next a) hd rfl)).symm
      simp only [Obs.call, obs, resumeObs, observerImpl, noneDisp, resumeStrategy, hd]; rfl
    | completed =>
      refine Eq.trans ?_ (congrArg (fun x => ({ s with down := x } : ResumeSt ε (UserSt β ε))) (hL.ignore s.down .completed hd rfl)).symm
      simp only [Obs.call, obs, resumeObs, observerImpl, noneDisp, resumeStrategy, hd]; rfl
  | false =>
    cases c with
    | error e => cases hc
    | up d => simp only [Obs.call, obs, resumeObs, observerImpl, noneDisp, resumeStrategy, hd]; rfl
    | next a => simp only [Obs.call, obs, resumeObs, observerImpl, noneDisp, resumeStrategy, hd]; rfl
    | completed => simp only [Obs.call, obs, resumeObs, observerImpl, noneDisp, resumeStrategy, hd]; rfl

theorem obs_run (cs : List (Call β ε)) : (∀ c ∈ cs, isErr c = false) → ∀ s : ResumeSt ε (UserSt β ε),
    (obs ov react sel).run s cs = { s with down := (userObs none ov react).run s.down cs } := by
  induction cs with
  | nil => exact fun _ _ => rfl
  | cons c cs ih =>
    intro h s
    rw [Obs.run_cons, obs_call ov react sel c (h c List.mem_cons_self), ih fun x hx => h x (List.mem_cons_of_mem _ hx)]
    rfl

theorem obs_error_live (e : ε) (s : ResumeSt ε (UserSt β ε)) (hd : s.down.disposed = false) :
    (obs ov react sel).call (.error e) s =
      match sel (s.asked ++ [e]) with
      | .ok cs => ⟨s.asked ++ [e], (userObs none ov react).run s.down cs⟩
      | .error e' => ⟨s.asked ++ [e], (userObs none ov react).onError e' s.down⟩ := by
  have hd : (userObs none ov react).isDisposed s.down = false := by
    simp [userObs, observerImpl, localDisp, lambdaStrategy, hd]
  simp only [Obs.call, obs, resumeObs, observerImpl, implOnError, noneDisp, resumeStrategy, hd, Bool.or_self, Bool.false_eq_true, if_false, inner_run]
  cases sel (s.asked ++ [e]) <;> rfl

theorem obs_error_gone (e : ε) (s : ResumeSt ε (UserSt β ε)) (hd : s.down.disposed = true) :
    (obs ov react sel).call (.error e) s = s := by
  have hd : (userObs none ov react).isDisposed s.down = true := by
    simp [userObs, observerImpl, localDisp, lambdaStrategy, hd]
  simp only [Obs.call, obs, resumeObs, observerImpl, implOnError, noneDisp, resumeStrategy, hd]; rfl

theorem obs_deaf : Deaf (obs ov react sel) where
  ignore s c hd hc := by
    have hd : s.down.disposed = true := by
      simpa [obs, resumeObs, observerImpl, noneDisp, resumeStrategy, userObs, localDisp, lambdaStrategy] using hd
    cases hq : isErr c with
    | true =>
      cases c with
      | error e => exact obs_error_gone ov react sel e s hd
      | next a => cases hq
      | completed => cases hq
      | up d => cases hq
    | false =>
      rw [obs_call ov react sel c hq]
      have := userObs_lawful (cap := none) (ov := ov) (react := react) |>.ignore s.down c
        (by simp [userObs, observerImpl, localDisp, lambdaStrategy, hd]) hc
      rw [this]
  up_disposed s d hd := by
    have hd : (userObs none ov react).isDisposed s.down = true := by
      simpa [obs, resumeObs, observerImpl, noneDisp, resumeStrategy] using hd
    simp only [obs, resumeObs, observerImpl, noneDisp, resumeStrategy, hd]; rfl
  release_disposed s d hd := by
    have hd : (userObs none ov react).isDisposed s.down = true := by
      simpa [obs, resumeObs, observerImpl, noneDisp, resumeStrategy] using hd
    have := userObs_lawful (cap := none) (ov := ov) (react := react) |>.release_disposed s.down d hd
    simpa [obs, resumeObs, observerImpl, noneDisp, resumeStrategy] using this

end

theorem run_disposed_of (ov : ε) (react : List (Call β ε) → Reaction ε) {s : UserSt β ε} (h : s.disposed = true) (cs : List (Call β ε)) :
    evsOf ((userObs none ov react).run s cs).log = evsOf s.log := (run_of_disposed h cs).1

/-- What remains of a list with at most one error, the last one. -/
theorem split_err : ∀ {l : List (Call β ε)}, LastQ isErr l → (∀ c ∈ l, isErr c = false) ∨ ∃ pre e, l = pre ++ [.error e] ∧ ∀ c ∈ pre, isErr c = false
  | [], _ => .inl fun _ h => nomatch h
  | c :: l, ⟨h1, h2⟩ => by
    cases hc : isErr c with
    | true =>
      have := h1 hc
      subst this
      cases c with
      | error e => exact .inr ⟨[], e, rfl, fun _ h => nomatch h⟩
      | next a => cases hc
      | completed => cases hc
      | up d => cases hc
    | false =>
      rcases split_err h2 with h | ⟨pre, e, rfl, h⟩
      · exact .inl fun x hx => by
          rcases List.mem_cons.1 hx with rfl | hx
          · exact hc
          · exact h x hx
      · refine .inr ⟨c :: pre, e, rfl, fun x hx => ?_⟩
        rcases List.mem_cons.1 hx with rfl | hx
        · exact hc
        · exact h x hx

theorem fits_none (k : Nat) : Fits none k := fun n h => nomatch h

/-- The state of the two observers at the bottom after calls `l` of the chain with at most one error, the last one, and later calls `late` of
the replacement (if there is one). -/
theorem bottom (ov : ε) (react : List (Call β ε) → Reaction ε) (sel : List ε → Except ε (List (Call β ε))) (l : List (Call β ε)) (hl : LastQ isErr l)
    (late : List (Call β ε)) :
    let s := (obs ov react sel).run { down := {} } l
    (s.asked = [] ∧ evsOf s.down.log = deliver react [] (resumeSpec sel (traceOf l) late).vals (resumeSpec sel (traceOf l) late).fin ∨
     ∃ e, s.asked = [e] ∧ (traceOf l).fin = some (.error e) ∧
      (∀ e', sel [e] = .error e' →
        evsOf s.down.log = deliver react [] (resumeSpec sel (traceOf l) late).vals (resumeSpec sel (traceOf l) late).fin) ∧
      ∀ cs, sel [e] = .ok cs →
        evsOf ((userObs none ov react).run s.down late).log = deliver react [] (resumeSpec sel (traceOf l) late).vals (resumeSpec sel (traceOf l) late).fin) := by
  have hdel : ∀ cs : List (Call β ε), evsOf ((userObs none ov react).run {} cs).log = deliver react [] (traceOf cs).vals (traceOf cs).fin :=
    fun cs => user_deliver cs {} rfl (fits_none _)
  rcases split_err hl with h | ⟨pre, e, rfl, h⟩
  · left
    rw [obs_run ov react sel l h]
    refine ⟨rfl, ?_⟩
    have hne : ∀ e, (traceOf l).fin ≠ some (.error e) := by
      clear hl hdel
      induction l with
      | nil => intro e he; cases he
      | cons c l ih =>
        have h0 := h c List.mem_cons_self
        have ih := ih fun x hx => h x (List.mem_cons_of_mem _ hx)
        cases c with
        | next a => exact ih
        | up d => exact ih
        | completed => intro e he; cases he
        | error e => cases h0
    have : resumeSpec sel (traceOf l) late = traceOf l := by
      unfold resumeSpec
      split
      · next e he => exact absurd he (hne e)
      · rfl
    rw [this]
    exact hdel l
  · simp only [Obs.run_append, obs_run ov react sel pre h]
    cases hf : (traceOf pre).fin with
    | some t =>
      -- the subscriber was told of completion
      left
      have ht : traceOf (pre ++ [.error e]) = traceOf pre := Feed.traceOf_append_fin _ _ (by rw [hf]; rfl)
      have hdis : ((userObs none ov react).run {} pre).disposed = true := by
        have : pre.any Call.isTerm = true := by
          clear hdel ht hl h
          induction pre with
          | nil => cases hf
          | cons c pre ih =>
            cases c with
            | next a => rw [List.any_cons, ih hf, Bool.or_true]
            | up d => rw [List.any_cons, ih hf, Bool.or_true]
            | error e => rfl
            | completed => rfl
        have := (userObs_lawful (cap := none) (ov := ov) (react := react)).run_term pre {} this
        simpa [userObs, observerImpl, localDisp, lambdaStrategy] using this
      have hrun : (obs ov react sel).run { asked := [], down := (userObs none ov react).run {} pre } [.error e] =
          { asked := [], down := (userObs none ov react).run {} pre } := obs_error_gone ov react sel e _ hdis
      rw [hrun, ht]
      refine ⟨rfl, ?_⟩
      have hne : ∀ e, (traceOf pre).fin ≠ some (.error e) := by
        clear hdel ht hl hdis hrun hf
        induction pre with
        | nil => intro e he; cases he
        | cons c l ih =>
          have h0 := h c List.mem_cons_self
          have ih := ih fun x hx => h x (List.mem_cons_of_mem _ hx)
          cases c with
          | next a => exact ih
          | up d => exact ih
          | completed => intro e he; cases he
          | error e => cases h0
      have : resumeSpec sel (traceOf pre) late = traceOf pre := by
        unfold resumeSpec
        split
        · next e he => exact absurd he (hne e)
        · rfl
      rw [this]
      exact hdel pre
    | none =>
      have ht : traceOf (pre ++ [.error e]) = ⟨(traceOf pre).vals, some (.error e)⟩ := by
        rw [Feed.traceOf_append_none _ _ hf]; simp [traceOf]
      rw [ht]
      have hsnoc : ∀ m : List (Call β ε), traceOf (pre ++ m) = ⟨(traceOf pre).vals ++ (traceOf m).vals, (traceOf m).fin⟩ :=
        fun m => Feed.traceOf_append_none _ _ hf
      cases hdis : ((userObs none ov react).run {} pre).disposed with
      | true =>
        left
        have hrun : (obs ov react sel).run { asked := [], down := (userObs none ov react).run {} pre } [.error e] =
            { asked := [], down := (userObs none ov react).run {} pre } := obs_error_gone ov react sel e _ hdis
        rw [hrun]
        refine ⟨rfl, ?_⟩
        have hany : ∀ m, evsOf ((userObs none ov react).run {} pre).log = deliver react [] (traceOf (pre ++ m)).vals (traceOf (pre ++ m)).fin := by
          intro m
          rw [← hdel (pre ++ m), Obs.run_append]
          exact (run_disposed_of ov react hdis m).symm
        show _ = deliver react [] (resumeSpec sel ⟨(traceOf pre).vals, some (.error e)⟩ late).vals _
        unfold resumeSpec
        simp only
        split
        · next cs _ => rw [← hsnoc (cs ++ late)]; exact hany _
        · next e' _ => have := hany [.error e']; rw [hsnoc] at this; simpa [traceOf] using this
      | false =>
        right
        have hrun : (obs ov react sel).run { asked := [], down := (userObs none ov react).run {} pre } [.error e] = _ :=
          obs_error_live ov react sel e ⟨[], (userObs none ov react).run {} pre⟩ hdis
        refine ⟨e, ?_, rfl, fun e' he => ?_, fun cs hcs => ?_⟩
        · rw [hrun]
          cases sel ([] ++ [e]) <;> rfl
        · rw [hrun]
          have he' : sel ([] ++ [e]) = .error e' := he
          simp only [he']
          have : resumeSpec sel ⟨(traceOf pre).vals, some (.error e)⟩ late = traceOf (pre ++ [.error e']) := by
            unfold resumeSpec; simp only [he, hsnoc]; simp [traceOf]
          rw [this, ← hdel, Obs.run_append]; rfl
        · rw [hrun]
          have hcs' : sel ([] ++ [e]) = .ok cs := hcs
          simp only [hcs']
          have : resumeSpec sel ⟨(traceOf pre).vals, some (.error e)⟩ late = traceOf (pre ++ (cs ++ late)) := by
            unfold resumeSpec; simp only [hcs, hsnoc]
          rw [this, ← hdel, Obs.run_append, Obs.run_append]

omit [DecidableEq β] [DecidableEq ε] in
theorem trans_up {σ : Type} (P : OpStrategy α β ε σ) (d : Nat) : ∀ (cs : List (Call α ε)) s, P.trans s (cs ++ [.up d]) = P.trans s cs ++ [.up d]
  | [], _ => rfl
  | c :: cs, s => by
    show (P.feed s c).2 ++ P.trans _ (cs ++ [.up d]) = ((P.feed s c).2 ++ P.trans _ cs) ++ _
    rw [trans_up P d cs, List.append_assoc]

omit [DecidableEq ε] in
theorem pipe_up (d : Nat) : {α γ : Type} → (p : Pipe ε α γ) → (cs : List (Call α ε)) → p.trans (cs ++ [.up d]) = p.trans cs ++ [.up d]
  | _, _, .nil, _ => rfl
  | _, _, .cons o p, cs => by
    show p.trans (_ ++ o.strategy.trans _ (cs ++ [.up d])) = _
    rw [trans_up, ← List.append_assoc, pipe_up d p]
    rfl

theorem lastQ_snoc {q : Call α ε → Bool} {x : Call α ε} : ∀ {l : List (Call α ε)}, LastQ q (l ++ [x]) → ∀ c ∈ l, q c = false
  | c :: l, ⟨h1, h2⟩, y, hy => by
    rcases List.mem_cons.1 hy with rfl | hy
    · cases hq : q y with
      | false => rfl
      | true => have := h1 hq; simp at this
    · exact lastQ_snoc h2 y hy

theorem pipe_no_err (p : Pipe ε α β) (hq : Quiet p) {cs : List (Call α ε)} (h : ∀ c ∈ cs, c.isTerm = false) : ∀ c ∈ p.trans cs, isErr c = false := by
  have := pipe_late p hq (cs ++ [.up 0]) (lastQ_of_none fun c hc => by
    rcases List.mem_append.1 hc with hc | hc
    · exact h c hc
    · rw [List.mem_singleton.1 hc]; rfl)
  rw [pipe_up] at this
  exact lastQ_snoc this

/-- Later calls of the first replacement, if there is one.  Helper of the proofs; models no code. -/
def later (ov : ε) (react : List (Call β ε) → Reaction ε) (sel : List ε → Except ε (List (Call β ε))) (t : ResumeSt ε (UserSt β ε))
    (cs : List (Call β ε)) : ResumeSt ε (UserSt β ε) :=
  if 0 < t.asked.length ∧ (sel (t.asked.take 1)).isOk then { t with down := (userObs none ov react).run t.down cs } else t

theorem later_nil (ov : ε) (react : List (Call β ε) → Reaction ε) (sel) (t : ResumeSt ε (UserSt β ε)) : later ov react sel t [] = t := by
  unfold later; split <;> rfl

section
variable (ov : ε) (react : List (Call β ε) → Reaction ε) (sel : List ε → Except ε (List (Call β ε))) (p : Pipe ε α β)

theorem final_src (c : Call α ε) (s) : step ov react sel p s (.src c) = (p.lift (obs ov react sel)).run s [c] := rfl

theorem phase2 (ls : List (Lbl α β ε)) : ∀ s : p.State (ResumeSt ε (UserSt β ε)), srcs ls = [] → (p.final s).asked.length ≤ 1 →
    p.final (ls.foldl (step ov react sel p) s) =
      later ov react sel (p.final s) (ls.filterMap fun l => match l with | .late 0 x => some x | _ => none) := by
  induction ls with
  | nil => intro s _ _; exact (later_nil ov react sel _).symm
  | cons l ls ih =>
    intro s hs ha
    cases l with
    | src c => cases hs
    | late k c =>
      have hs : srcs ls = [] := hs
      rw [List.foldl_cons]
      by_cases hk : k < (p.final s).asked.length ∧ (sel ((p.final s).asked.take (k + 1))).isOk
      · have hk0 : k = 0 := by omega
        subst hk0
        have e : step ov react sel p s (.late 0 c) =
            p.mapFinal (fun t => { t with down := (innerObs (userObs none ov react)).call c t.down }) s := if_pos hk
        have ef : p.final (step ov react sel p s (.late 0 c)) =
            { p.final s with down := (userObs none ov react).call c (p.final s).down } := by
          rw [e, final_mapFinal, inner_call]
        refine (ih _ hs (by rw [ef]; exact ha)).trans ?_
        rw [ef]
        unfold later
        rw [if_pos hk, if_pos hk]
        rfl
      · have e : step ov react sel p s (.late k c) = s := if_neg hk
        rw [e]
        refine (ih _ hs ha).trans ?_
        cases k with
        | zero => unfold later; rw [if_neg hk, if_neg hk]
        | succ k => rfl

theorem phase1 (hq : Quiet p) (ls : List (Lbl α β ε)) : ∀ cs0 : List (Call α ε), (∀ c ∈ cs0, c.isTerm = false) → OneEnd (srcs ls) →
    p.final (ls.foldl (step ov react sel p) ((p.lift (obs ov react sel)).run (p.start (obs ov react sel) { down := {} }) cs0)) =
      later ov react sel ((obs ov react sel).run { down := {} } (p.trans (cs0 ++ srcs ls))) (lates ls) := by
  induction ls with
  | nil =>
    intro cs0 h0 _
    show p.final _ = later ov react sel ((obs ov react sel).run { down := {} } (p.trans (cs0 ++ []))) []
    rw [later_nil, List.append_nil]
    exact pipe_run (obs_deaf ov react sel) _ p cs0
  | cons l ls ih =>
    intro cs0 h0 h1
    rw [List.foldl_cons]
    cases l with
    | late k c =>
      have hf := pipe_run (obs_deaf ov react sel) { down := {} } p cs0
      have ha : (p.final ((p.lift (obs ov react sel)).run (p.start (obs ov react sel) { down := {} }) cs0)).asked = [] := by
        rw [hf, obs_run ov react sel _ (pipe_no_err p hq h0)]
      have e : step ov react sel p ((p.lift (obs ov react sel)).run (p.start (obs ov react sel) { down := {} }) cs0) (.late k c) =
          (p.lift (obs ov react sel)).run (p.start (obs ov react sel) { down := {} }) cs0 := if_neg fun h => by
        rw [ha] at h; exact absurd h.1 (Nat.not_lt_zero _)
      rw [e]
      exact ih cs0 h0 h1
    | src c =>
      rw [final_src, ← Obs.run_append]
      have hcs : cs0 ++ srcs (.src c :: ls) = (cs0 ++ [c]) ++ srcs ls := by
        show cs0 ++ (c :: srcs ls) = _
        rw [List.append_assoc]; rfl
      rw [hcs]
      cases hc : c.isTerm with
      | false =>
        have : lates (.src c :: ls) = lates ls := by simp only [lates, hc]; rfl
        rw [this]
        refine ih _ (fun x hx => ?_) ?_
        · rcases List.mem_append.1 hx with hx | hx
          · exact h0 x hx
          · rw [List.mem_singleton.1 hx]; exact hc
        · intro x hx
          refine h1 x ?_
          show x ∈ (c :: srcs ls).dropLast
          cases hsl : srcs ls with
          | nil => rw [hsl] at hx; cases hx
          | cons y m => rw [hsl] at hx; exact List.mem_cons_of_mem _ hx
      | true =>
        have hn : srcs ls = [] := by
          cases hsl : srcs ls with
          | nil => rfl
          | cons y m =>
            have := h1 c (by show c ∈ (c :: srcs ls).dropLast; rw [hsl]; exact List.mem_cons_self)
            rw [hc] at this; cases this
        have hl : lates (.src c :: ls) = ls.filterMap fun l => match l with | .late 0 x => some x | _ => none := by simp only [lates, hc]; rfl
        rw [hl, hn, List.append_nil]
        have hf := pipe_run (obs_deaf ov react sel) { down := {} } p (cs0 ++ [c])
        have hlast : LastQ isErr (p.trans (cs0 ++ [c])) := pipe_late p hq _ (lastQ_append h0 ⟨fun _ => rfl, trivial⟩)
        refine (phase2 ov react sel p ls _ hn ?_).trans ?_
        · rw [hf]
          rcases bottom ov react sel _ hlast [] with h | ⟨e, h, -⟩
          · rw [h.1]; exact Nat.zero_le _
          · rw [h]; exact Nat.le_refl _
        · rw [hf]

end

/-! ## The theorems -/

/-- C109, for chains that are silent after an error: whatever the source emits and whenever the replacement calls, the subscriber hears the
chain's values and then the replacement.  Missing: other chains (see the refutations). -/
theorem C109_resume_partial (ov : ε) (react : List (Call β ε) → Reaction ε) (sel : List ε → Except ε (List (Call β ε))) (p : Pipe ε α β)
    (hp : p.WF) (hq : Quiet p) (ls : List (Lbl α β ε)) (h : OneEnd (srcs ls)) :
    let t := resumeSpec sel (p.spec (traceOf (srcs ls))) (lates ls)
    heard p (exec ov react sel p ls) = deliver react [] t.vals t.fin := by
  intro t
  have hf := phase1 ov react sel p hq ls [] (fun _ h => nomatch h) h
  have hb := bottom ov react sel (p.trans (srcs ls)) (pipe_late p hq _ (lastQ_oneEnd h)) (lates ls)
  rw [p.trans_spec hp] at hb
  show evsOf (p.final (exec ov react sel p ls)).down.log = _
  have hf : p.final (exec ov react sel p ls) = later ov react sel ((obs ov react sel).run { down := {} } (p.trans (srcs ls))) (lates ls) := hf
  rw [hf]
  revert hb
  generalize (obs ov react sel).run { down := {} } (p.trans (srcs ls)) = s
  intro hb
  rcases hb with ⟨h1, h2⟩ | ⟨e, h1, h2, h3, h4⟩
  · unfold later
    rw [if_neg (by rw [h1]; simp)]
    exact h2
  · unfold later
    rw [h1]
    cases hs : sel [e] with
    | ok cs =>
      rw [if_pos ⟨by simp, by rw [List.take_of_length_le (by simp), hs]; rfl⟩]
      exact h4 cs hs
    | error e' =>
      rw [if_neg (by rw [List.take_of_length_le (by simp), hs]; simp [Except.isOk, Except.toBool])]
      exact h3 e' hs

/-- C109, for the same chains: the selector is called once at most, with the error of the chain. -/
theorem C109_once_partial (ov : ε) (react : List (Call β ε) → Reaction ε) (sel : List ε → Except ε (List (Call β ε))) (p : Pipe ε α β)
    (hp : p.WF) (hq : Quiet p) (ls : List (Lbl α β ε)) (h : OneEnd (srcs ls)) :
    asked p (exec ov react sel p ls) = [] ∨
    ∃ e, asked p (exec ov react sel p ls) = [e] ∧ (p.spec (traceOf (srcs ls))).fin = some (.error e) := by
  have hf := phase1 ov react sel p hq ls [] (fun _ h => nomatch h) h
  have hb := bottom ov react sel (p.trans (srcs ls)) (pipe_late p hq _ (lastQ_oneEnd h)) (lates ls)
  rw [p.trans_spec hp] at hb
  have hf : p.final (exec ov react sel p ls) = later ov react sel ((obs ov react sel).run { down := {} } (p.trans (srcs ls))) (lates ls) := hf
  have ha : asked p (exec ov react sel p ls) = ((obs ov react sel).run { down := {} } (p.trans (srcs ls))).asked := by
    show (p.final (exec ov react sel p ls)).asked = _
    rw [hf]; unfold later; split <;> rfl
  rw [ha]
  rcases hb with ⟨h1, -⟩ | ⟨e, h1, h2, -⟩
  · exact .inl h1
  · exact .inr ⟨e, h1, h2⟩

/-! ## The hypotheses are met -/

/-- `skip(1) | map(+ 10) | take(2)` -/
def demo : Pipe Nat Nat Nat := .cons (.skip 1) (.cons (.map fun a => .ok (a + 10)) (.cons (.take 2) .nil))

/-- The selector returns an observable that emits 100 at once and is not finished. -/
def demoSel : List Nat → Except Nat (List (Call Nat Nat)) := fun _ => .ok [.next 100]

/-- The source emits 1, 2 and fails with 7; the replacement goes on with 101 and completes. -/
def demoRun : List (Lbl Nat Nat Nat) :=
  [.src (.next 1), .late 0 (.next 5), .src (.next 2), .src (.error 7), .late 0 (.next 101), .late 1 (.next 6), .late 0 .completed, .late 0 (.next 102)]

example : demo.WF := ⟨trivial, trivial, trivial, trivial⟩
example : Quiet demo := ⟨trivial, ⟨fun a => ⟨a + 10, rfl⟩, ⟨trivial, trivial, fun _ => trivial⟩, fun h => nomatch h⟩, fun h => nomatch h⟩
example : OneEnd (srcs demoRun) := by decide
example : heard demo (exec 0 (fun _ => {}) demoSel demo demoRun) = [.next 12, .next 100, .next 101, .completed] := by decide
example : asked demo (exec 0 (fun _ => {}) demoSel demo demoRun) = [7] := by decide
example : resumeSpec demoSel (demo.spec (traceOf (srcs demoRun))) (lates demoRun) = ⟨[12, 100, 101], some .completed⟩ := by decide

/-! ## What fails -/

/-- The function throws 7 for 1. -/
def badMap : Pipe Nat Nat Nat := .cons (.map fun a => if a = 1 then .error 7 else .ok a) .nil

/-- The replacement does not emit while being subscribed to. -/
def quietSel : List Nat → Except Nat (List (Call Nat Nat)) := fun _ => .ok []

/-- C109 fails for `just(1, 2) | map(f) | on_error_resume_next(sel)` with an `f` that throws for 1: after the selector has been called, the
subscriber hears the value 2 and the completion of the source that has failed, and then nothing of the replacement's value 100. -/
theorem C109_throw_refutes :
    OneEnd ([.next 1, .next 2, .completed] : List (Call Nat Nat)) ∧
    asked badMap (exec 0 (fun _ => {}) quietSel badMap [.src (.next 1)]) = [7] ∧
    heard badMap (exec 0 (fun _ => {}) quietSel badMap [.src (.next 1)]) = [] ∧
    heard badMap (exec 0 (fun _ => {}) quietSel badMap [.src (.next 1), .src (.next 2), .src .completed, .late 0 (.next 100)]) = [.next 2, .completed] ∧
    badMap.spec ⟨[1, 2], some .completed⟩ = ⟨[], some (.error 7)⟩ := by
  refine ⟨by decide, by decide, by decide, by decide, by decide⟩

/-- `take(2) | skip(5) | first()` with the error 9 -/
def badFirst : Pipe Nat Nat Nat := .cons (.take 2) (.cons (.skip 5) (.cons (.first 9) .nil))

/-- C109 fails without any exception: `take` completes again and again as long as the source emits, `first` makes an error of each
completion, and the selector is called for each of them: two replacements are heard, interleaved. -/
theorem C109_twice_refutes :
    asked badFirst (exec 0 (fun _ => {}) quietSel badFirst [.src (.next 1), .src (.next 2), .src (.next 3)]) = [9, 9] ∧
    heard badFirst (exec 0 (fun _ => {}) quietSel badFirst
      [.src (.next 1), .src (.next 2), .src (.next 3), .late 0 (.next 100), .late 1 (.next 200), .late 0 (.next 101), .late 1 .completed]) =
      [.next 100, .next 200, .next 101, .completed] ∧
    badFirst.spec ⟨[1, 2, 3], none⟩ = ⟨[], some (.error 9)⟩ := by
  refine ⟨by decide, by decide, by decide⟩

/-- C109 fails for `a | merge_with(b) | on_error_resume_next(sel)`: `a` has failed with 7 and the replacement has emitted 100; the subscriber
then hears the value 2 of `b`, and the error of `b` makes the selector be called again. -/
theorem C109_merge_refutes :
    let run := fun ls => List.foldl (mergeStep (β := Nat) (ε := Nat) 0 (fun _ => {}) quietSel) { down := { down := {} } } ls
    let ls := [.src (.next (false, .next 1)), .src (.next (false, .error 7)), .late 0 (.next 100), .src (.next (true, .next 2)),
      .src (.next (true, .error 8)), .late 0 (.next 101), .late 1 (.next 200)]
    evsOf (run ls).down.down.log = [.next 1, .next 100, .next 2, .next 101, .next 200] ∧ (run ls).down.asked = [7, 8] := by
  refine ⟨by decide, by decide⟩

/-- The machine of merge does what it should: the completion of one operand is not passed on, that of both is. -/
example :
    let run := fun ls => List.foldl (mergeStep (β := Nat) (ε := Nat) 0 (fun _ => {}) quietSel) { down := { down := {} } } ls
    evsOf (run [.src (.next (false, .next 1)), .src (.next (false, .completed)), .src (.next (true, .next 2)), .src (.next (false, .next 9)),
      .src (.next (true, .completed))]).down.down.log = [.next 1, .next 2, .completed] := by decide

/-- C109 fails for `just(1, 2) | map(f) | retry_when(notif)` with an `f` that throws for 1, the notifier being one that emits later: the
subscriber hears the value 2 and the completion of the attempt that has failed, and there is no other attempt. -/
theorem C109_when_refutes :
    let run := wexec 0 (fun _ => {}) (fun _ => none) badMap
    (run [.src 0 (.next 1)]).sh.asked = [7] ∧ evsOf (run [.src 0 (.next 1)]).sh.user.log = [] ∧
    evsOf (run [.src 0 (.next 1), .src 0 (.next 2), .src 0 .completed, .ret 0, .note 0 (.next ())]).sh.user.log = [.next 2, .completed] ∧
    (run [.src 0 (.next 1), .src 0 (.next 2), .src 0 .completed, .ret 0, .note 0 (.next ())]).tries.length = 1 := by
  refine ⟨by decide, by decide, by decide, by decide⟩

/-- C109 fails for the same expression even if the notifier emits as soon as it is subscribed to, which asks for another attempt: the
attempt that has failed goes on and completes the subscription, before the other attempt would be made. -/
theorem C109_when_now_refutes :
    let run := wexec 0 (fun _ => {}) (fun _ => none) badMap
    let ls := [.src 0 (.next 1), .note 0 (.next ()), .src 0 (.next 2), .src 0 .completed, .ret 0]
    evsOf (run ls).sh.user.log = [.next 2, .completed] ∧ (run ls).tries.length = 1 := by
  refine ⟨by decide, by decide⟩

/-- The machine of retry_when does retry: the first attempt emits 2 and fails; the notifier emits, twice; the second attempt emits 3 and completes. -/
example :
    let run := wexec 0 (fun _ => {}) (fun _ => none) badMap
    let ls := [.src 0 (.next 2), .src 0 (.error 8), .ret 0, .note 0 (.next ()), .note 0 (.next ()), .ret 1, .src 1 (.next 3), .src 1 .completed]
    evsOf (run ls).sh.user.log = [.next 2, .next 3, .completed] ∧ (run ls).tries.length = 2 ∧ (run ls).sh.asked = [8] := by
  refine ⟨by decide, by decide, by decide⟩

end Rpp.LetGo
