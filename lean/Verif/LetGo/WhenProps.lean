import Verif.LetGo.WhenProofs

/-!
# C109: retry_when lets go of an attempt that has failed, if the chain is silent after an error
-/

namespace Rpp.LetGo

variable {α β ε : Type} [DecidableEq β] [DecidableEq ε]

/-! ## Specification -/

/-- The errors with which attempts have failed, in order.  Specification; models no code. -/
def errors (ts : List (Trace β ε)) : List ε := ts.filterMap fun t => match t.fin with | some (.error e) => some e | _ => none

/-- The values of the attempts one after the other, and the end of the last attempt; if that one has failed, what the notifier function has
thrown or the end of the notifier (`said`: what the last notifier has said).  Specification; models no code. -/
def whenSpec (notif : List ε → Option ε) (ts : List (Trace β ε)) (said : List (Call Unit ε)) : Trace β ε where
  vals := ts.flatMap (·.vals)
  fin := match ts.getLast?.bind (·.fin) with
    | some (.error _) => match notif (errors ts) with
      | some e => some (.error e)
      | none => (traceOf said).fin
    | f => f

/-- What the attempts' sources and the operators of the chain make of each attempt, by the specification of the chain. -/
def attempts (p : Pipe ε α β) (s : RetrySt p) : List (Trace β ε) :=
  (List.range s.tries.length).map fun i => p.spec (traceOf (callsOf i s.made))

/-! ## Proofs -/

section
variable (ov : ε) (react : List (Call β ε) → Reaction ε) (notif : List ε → Option ε) (p : Pipe ε α β)

theorem trace_part (hp : p.WF) (hq : Quiet p) {cs : List (Call α ε)} (h : OneEnd cs) :
    traceOf (plain (p.trans cs)) =
      ⟨(p.spec (traceOf cs)).vals, unfail (p.spec (traceOf cs)).fin⟩ := by
  rw [trace_plain_last (pipe_late p hq cs (lastQ_oneEnd h)), p.trans_spec hp]

theorem trace_flat (hp : p.WF) (hq : Quiet p) (made : List (Nat × Call α ε)) (h : ∀ j, OneEnd (callsOf j made)) (n : Nat)
    (he : ∀ i, i < n → ∃ e, (p.spec (traceOf (callsOf i made))).fin = some (.error e)) :
    traceOf (flat p made n) = ⟨(List.range n).flatMap fun i => (p.spec (traceOf (callsOf i made))).vals, none⟩ := by
  induction n with
  | zero => rfl
  | succ n ih =>
    have ih := ih fun i hi => he i (by omega)
    rw [flat_succ, Feed.traceOf_append_none _ _ (by rw [ih]), ih, trace_part p hp hq (h n)]
    obtain ⟨e, he⟩ := he n (by omega)
    rw [he, List.range_succ, List.flatMap_append]
    simp [unfail]

omit [DecidableEq β] [DecidableEq ε] in
theorem errors_take (s : RetrySt p) (asked : List ε) (m : Nat)
    (h : ∀ i, i < m → ∃ e, asked[i]? = some e ∧ (p.spec (traceOf (callsOf i s.made))).fin = some (.error e)) :
    errors ((List.range m).map fun i => p.spec (traceOf (callsOf i s.made))) = asked.take m := by
  induction m with
  | zero => rfl
  | succ m ih =>
    obtain ⟨e, h1, h2⟩ := h m (by omega)
    have ih := ih fun i hi => h i (by omega)
    rw [List.range_succ, List.map_append, errors, List.filterMap_append]
    rw [errors] at ih
    rw [ih, List.take_add_one, h1]
    simp [h2]

theorem told_of (hp : p.WF) (hq : Quiet p) {n : Nat} {s : RetrySt p} (hi : WInv ov react notif p n s) (h : ∀ i, OneEnd (callsOf i s.made)) :
    evsOf s.sh.user.log = deliver react [] (whenSpec notif (attempts p s) (callsOf (s.tries.length - 1) s.notes)).vals
      (whenSpec notif (attempts p s) (callsOf (s.tries.length - 1) s.notes)).fin := by
  have hdel : ∀ cs : List (Call β ε), evsOf ((userObs none ov react).run {} cs).log = deliver react [] (traceOf cs).vals (traceOf cs).fin :=
    fun cs => user_deliver cs {} rfl (fits_none _)
  have hflat := trace_flat p hp hq s.made h n fun i hi' => by
    obtain ⟨-, -, e, -, he⟩ := hi.past i hi'
    exact ⟨e, he⟩
  have hflat1 : traceOf (flat p s.made (n + 1)) = ⟨(List.range (n + 1)).flatMap fun i => (p.spec (traceOf (callsOf i s.made))).vals,
      unfail (p.spec (traceOf (callsOf n s.made))).fin⟩ := by
    rw [flat_succ, Feed.traceOf_append_none _ _ (by rw [hflat]), hflat, trace_part p hp hq (h n), List.range_succ, List.flatMap_append]
    simp
  have hv : (whenSpec notif (attempts p s) (callsOf (s.tries.length - 1) s.notes)).vals =
      (List.range (n + 1)).flatMap fun i => (p.spec (traceOf (callsOf i s.made))).vals := by
    show (attempts p s).flatMap (·.vals) = _
    rw [attempts, hi.len, List.flatMap_map]
  have hl : (attempts p s).getLast?.bind (·.fin) = (p.spec (traceOf (callsOf n s.made))).fin := by
    rw [attempts, hi.len, List.range_succ, List.map_append]; simp
  rw [hv]
  cases hc : (p.spec (traceOf (callsOf n s.made))).fin with
  | none =>
    have hf : (whenSpec notif (attempts p s) (callsOf (s.tries.length - 1) s.notes)).fin = none := by simp only [whenSpec, hl, hc]
    rw [hf]
    rcases hi.now with ⟨-, hu, -⟩ | ⟨-, -, ⟨e, -, he⟩, -⟩
    · rw [hu, hdel, hflat1, hc]; rfl
    · rw [hc] at he; cases he
  | some f =>
    cases f with
    | completed =>
      have hf : (whenSpec notif (attempts p s) (callsOf (s.tries.length - 1) s.notes)).fin = some .completed := by simp only [whenSpec, hl, hc]
      rw [hf]
      rcases hi.now with ⟨-, hu, -⟩ | ⟨-, -, ⟨e, -, he⟩, -⟩
      · rw [hu, hdel, hflat1, hc]; rfl
      · rw [hc] at he; cases he
    | error e =>
      have hf : (whenSpec notif (attempts p s) (callsOf (s.tries.length - 1) s.notes)).fin =
          match notif (errors (attempts p s)) with
          | some e => some (.error e)
          | none => (traceOf (callsOf n s.notes)).fin := by
        simp only [whenSpec, hl, hc, hi.len]; rfl
      rw [hf]
      have hend : ∀ f : Option (Term ε), ∃ m : List (Call β ε), traceOf m = ⟨[], f⟩ := by
        intro f
        cases f with
        | none => exact ⟨[], rfl⟩
        | some f => cases f with
          | completed => exact ⟨[.completed], rfl⟩
          | error e => exact ⟨[.error e], rfl⟩
      rw [hc] at hflat1
      have hadd : ∀ m : List (Call β ε), traceOf (flat p s.made (n + 1) ++ m) =
          ⟨((List.range (n + 1)).flatMap fun i => (p.spec (traceOf (callsOf i s.made))).vals) ++ (traceOf m).vals, (traceOf m).fin⟩ := by
        intro m
        rw [Feed.traceOf_append_none _ _ (by rw [hflat1]; rfl), hflat1]
      rcases hi.now with ⟨-, hu, sh0, ch, run, -, l4, -, l6, l7⟩ | ⟨f1, -, -, f4⟩
      · have hco := core ov react notif p hq sh0 _ (lastQ_oneEnd (h n))
        have hsh : s.sh = (whenObs ov react notif).run sh0 (p.trans (callsOf n s.made)) := by
          rw [l7, l6]; exact pipe_run (when_deaf ov react notif) sh0 p _
        rw [← hsh] at hco
        have hd : s.sh.user.disposed = true := by
          rcases hco with ⟨-, -, c3⟩ | ⟨e', -, -, c3, -⟩
          · exact c3 e (by rw [p.trans_spec hp]; exact hc)
          · have := congrArg List.length l4
            rw [c3, List.length_append] at this
            simp at this
        obtain ⟨m, hm⟩ := hend (match notif (errors (attempts p s)) with
          | some e => some (.error e)
          | none => (traceOf (callsOf n s.notes)).fin)
        have h1 := hdel (flat p s.made (n + 1) ++ m)
        rw [Obs.run_append, ← hu, run_disposed_of ov react hd, hadd, hm] at h1
        rw [h1]; simp
      · have he : errors (attempts p s) = s.sh.asked := by
          rw [attempts, hi.len, errors_take p s s.sh.asked (n + 1), List.take_of_length_le (by omega)]
          intro i hi'
          by_cases e : i < n
          · exact (hi.past i e).2.2
          · have : i = n := by omega
            subst this
            rcases hi.now with hl | hf
            · have := hl.1; omega
            · exact hf.2.2.1
        rw [he, f4, hdel, hadd]
        cases notif s.sh.asked with
        | some e' => simp [traceOf]
        | none =>
          simp only [noteTail]
          cases (traceOf (callsOf n s.notes)).fin with
          | none => simp [traceOf]
          | some f => cases f <;> simp [traceOf]

end

/-! ## The theorems -/

/-- C109, retry_when above chains that are silent after an error: whatever the attempts' sources emit and whenever the notifiers speak, the
subscriber hears the attempts one after the other and the end that the last one, its notifier or the notifier function makes.
Missing: other chains (see `C109_when_refutes`, `C109_when_now_refutes`). -/
theorem C109_when_partial (ov : ε) (react : List (Call β ε) → Reaction ε) (notif : List ε → Option ε) (p : Pipe ε α β)
    (hp : p.WF) (hq : Quiet p) (ls : List (WLbl α ε)) (h : ∀ i, OneEnd (callsOf i (wexec ov react notif p ls).made)) :
    let s := wexec ov react notif p ls
    let t := whenSpec notif (attempts p s) (callsOf (s.tries.length - 1) s.notes)
    evsOf s.sh.user.log = deliver react [] t.vals t.fin := by
  obtain ⟨n, hi⟩ := winv ov react notif p hp hq ls h
  exact told_of ov react notif p hp hq hi h

/-- C109, retry_when above the same chains: the notifier function is called with the errors of the attempts, once for each attempt that has
failed; another attempt is made only after the notifier of the one before has asked for it; and it is made, at the latest when all
calls of `subscribe` have returned, unless the subscription is over. -/
theorem C109_when_asked_partial (ov : ε) (react : List (Call β ε) → Reaction ε) (notif : List ε → Option ε) (p : Pipe ε α β)
    (hp : p.WF) (hq : Quiet p) (ls : List (WLbl α ε)) (h : ∀ i, OneEnd (callsOf i (wexec ov react notif p ls).made)) :
    let s := wexec ov react notif p ls
    (∀ (i : Nat) e, s.sh.asked[i]? = some e → ∃ t, (attempts p s)[i]? = some t ∧ t.fin = some (.error e)) ∧
    (∀ i, i + 1 < s.tries.length → callsOf i s.notes = [.next ()] ∧ ∃ e, s.sh.asked[i]? = some e) ∧
    (s.sh.user.disposed = false → (∀ t ∈ s.tries, t.2 = false) → ∀ k, callsOf k s.notes ≠ [] → k + 1 < s.tries.length) := by
  obtain ⟨n, hi⟩ := winv ov react notif p hp hq ls h
  generalize wexec ov react notif p ls = s at hi
  have ht : ∀ i, i < n + 1 → (attempts p s)[i]? = some (p.spec (traceOf (callsOf i s.made))) := by
    intro i hi'
    rw [attempts, hi.len]
    simp [hi']
  refine ⟨fun i e he => ?_, fun i hi' => ?_, fun hd hr k hk => ?_⟩
  · have hlt := (List.getElem?_eq_some_iff.1 he).1
    have hn : i < n + 1 := by
      rcases hi.now with hl | hf
      · have := hl.1; omega
      · have := hf.1; omega
    refine ⟨_, ht i hn, ?_⟩
    by_cases e' : i < n
    · obtain ⟨-, -, e2, h2, h3⟩ := hi.past i e'
      rw [he] at h2; cases h2; exact h3
    · have : i = n := by omega
      subst this
      rcases hi.now with hl | ⟨-, -, ⟨e2, h2, h3⟩, -⟩
      · have := hl.1; omega
      · rw [he] at h2; cases h2; exact h3
  · rw [hi.len] at hi'
    obtain ⟨-, h2, e, h3, -⟩ := hi.past i (by omega)
    exact ⟨h2, e, h3⟩
  · rw [hi.len]
    obtain ⟨-, ch, run, g2, g3⟩ := hi.flags.resolve_left (by rw [hd]; exact Bool.false_ne_true)
    have hrun : run = false := hr _ (List.mem_of_getElem? g2)
    rcases g3 with ⟨g3, -⟩ | ⟨-, -, g3, -⟩
    · have : k ∈ s.notes.map (·.1) := by
        by_cases hk' : k ∈ s.notes.map (·.1)
        · exact hk'
        · exact absurd (callsOf_nil _ _ hk') hk
      rw [hi.keys, List.mem_range, g3] at this
      omega
    · rw [hrun] at g3; cases g3

/-! ## The hypotheses are met -/

/-- Two attempts of `skip(1) | map(+ 10) | take(2)`: the first emits 2 and fails with 7, its notifier asks for another attempt before
`subscribe` has returned; the second is told 3, 4, 5 and completes. -/
def whenRun : List (WLbl Nat Nat) :=
  [.src 0 (.next 1), .src 0 (.next 2), .src 0 (.error 7), .note 0 (.next ()), .ret 0, .src 1 (.next 3), .ret 1, .src 1 (.next 4),
    .src 1 (.next 5), .src 1 .completed]

example : evsOf (wexec 0 (fun _ => {}) (fun _ => none) demo whenRun).sh.user.log = [.next 12, .next 14, .next 15, .completed] := by decide
example : ∀ i, OneEnd (callsOf i (wexec 0 (fun _ => {}) (fun _ => none) demo whenRun).made) := by
  have h : (wexec 0 (fun _ => {}) (fun _ => none) demo whenRun).made = [(0, .next 1), (0, .next 2), (0, .error 7), (1, .next 3), (1, .next 4),
    (1, .next 5), (1, .completed)] := by decide
  rw [h]
  intro i
  match i with
  | 0 => decide
  | 1 => decide
  | i + 2 => simp [callsOf, OneEnd]
example : (wexec 0 (fun _ => {}) (fun _ => none) demo whenRun).sh.asked = [7] := by decide
example : (wexec 0 (fun _ => {}) (fun _ => none) demo whenRun).tries.length = 2 := by decide

/-- The second attempt fails as well; its notifier completes. -/
example :
    let s := wexec 0 (fun _ => {}) (fun _ => none) demo
      [.src 0 (.error 7), .ret 0, .note 0 (.next ()), .ret 1, .src 1 (.next 3), .src 1 (.next 4), .src 1 (.error 8), .note 0 (.error 1), .note 1 .completed]
    evsOf s.sh.user.log = [.next 14, .completed] ∧ s.sh.asked = [7, 8] ∧ s.tries.length = 2 := by
  refine ⟨by decide, by decide, by decide⟩

/-- The notifier function throws for the second error. -/
example :
    let s := wexec 0 (fun _ => {}) (fun es => if es.length = 2 then some 9 else none) demo
      [.src 0 (.error 7), .ret 0, .note 0 (.next ()), .src 1 (.next 3), .src 1 (.error 8), .ret 1, .note 1 (.next ())]
    evsOf s.sh.user.log = [.error 9] ∧ s.sh.asked = [7, 8] ∧ s.tries.length = 2 := by
  refine ⟨by decide, by decide, by decide⟩

end Rpp.LetGo
