import Verif.Core.FeedInv

/-!
# C106: operators fed by their own subscriber

Property theorems about `Verif.Core.Feed`. The specification is `Pipe.spec` (Verif.Core.Spec): what the
pipeline delivers for a sequence of values. The order of the values is the one in which they entered the
pipeline (`fed`).
-/

namespace Rpp.Feed

/-- C106 (part): a subscriber that feeds its own source from inside its callbacks, at any depth, sees of a
`Steady` pipeline what it would see if the same values had come one after the other: the values are those of
the specification, in the same order, and when it is told the end, or all calls have returned, it has seen all of it (unless
it disposed or threw before). Missing: pipelines with `take`, `first`, `element_at`, `buffer`, `throttle`,
for which the claim is false (`C106_…_refutes`; see `C106_take` for what remains true of `take`). -/
theorem C106_feedback_partial (moves : Bool) (p : Pipe ε α γ) (hs : Steady p) (hw : p.WF)
    (ls : List (Lbl α ε)) :
    let st := exec (pipe moves p) ls
    (traceOf st.log).vals <+: (p.spec (traceOf st.fed)).vals ∧
    (st.left = false → (st.stack = [] ∨ st.ended = true) → traceOf st.log = p.spec (traceOf st.fed)) := by
  have hM : ∀ (c : Call α ε), isEnd c = false → ∀ s, Tail ((pipe moves p).call c s) := fun c hc s =>
    pipe_tail moves p hs c (by rintro rfl; simp [isEnd] at hc) s
  have hi := inv (pipe moves p) hM ls
  have hspec := pipe_spec moves p hs hw (exec (pipe moves p) ls).fed
  refine ⟨?_, fun hl hq => ?_⟩
  · rw [← hspec]; exact hi.pre
  · rw [← hspec]
    cases he : (exec (pipe moves p) ls).ended with
    | true => exact hi.fin he hl
    | false =>
      have := (hi.live he hl).1
      rw [hq.resolve_right (by simp [he]), owedFrom, List.append_nil] at this
      exact this

/-! ## take -/

/-- What holds of `take` alone in every history. -/
structure TakeInv (n : Nat) (st : St α α ε Nat) : Prop where
  opn : st.closed = false → (traceOf st.fed).fin = none
  pre : (traceOf st.log).vals <+: (traceOf st.fed).vals.take n
  frames : ∀ f ∈ st.stack, f.last = true → st.ended = true
  ks : ∀ f ∈ st.stack, f.last = false → f.k = takeEnd ∨ st.ended = true
  out : st.disposed = true → st.left = true ∨ st.ended = true
  gone : st.left = true → st.ended = true ∨ st.disposed = true
  live : st.ended = false → st.left = false →
    st.closed = false ∧ st.op = n - (traceOf st.fed).vals.length ∧
    (traceOf st.log).vals = (traceOf st.fed).vals.take n ∧
    (st.op = 0 → (traceOf st.fed).vals ≠ [] → st.stack ≠ [])
  fin : st.ended = true → st.left = false →
    (traceOf st.log).vals = (traceOf st.fed).vals.take n ∧
    (st.closed = true ∨ n ≤ (traceOf st.fed).vals.length)

/-- Running a program when the subscriber has already been told the end, or is gone. -/
theorem TakeInv.over {n : Nat} {st st1 : St α α ε Nat} (hi : TakeInv n st) (p : Prog Nat α ε)
    (hover : st.ended = true ∨ st.left = true)
    (hlog : st1.log = st.log) (hleft : st1.left = st.left)
    (hd : st1.disposed = true → st1.left = true ∨ st1.ended = true)
    (hd' : st.disposed = true → st1.disposed = true)
    (hfr : ∀ f ∈ st1.stack, f ∈ st.stack)
    (hopn : st1.closed = false → (traceOf st1.fed).fin = none)
    (hfed : (traceOf st.fed).vals <+: (traceOf st1.fed).vals)
    (hfed' : st.closed = true → (traceOf st1.fed).vals = (traceOf st.fed).vals ∧ st1.closed = true)
    (hks : st.disposed = true → ∀ f ∈ st1.stack, f.last = false → f.k = takeEnd ∨ st1.ended = true) :
    TakeInv n (run p st1) := by
  have hend : st1.ended = st.ended := by rw [St.ended, hlog]; rfl
  have hs := run_same p st1
  obtain ⟨m, hm, hmd⟩ := run_ext p st1
  have hlog2 : traceOf (run p st1).log = traceOf st.log := by
    rcases Bool.eq_false_or_eq_true st.ended with he | he
    · rw [run_ended p st1 (hend.trans he), hlog]
    · have hl := hover.resolve_left (by simp [he])
      have := (hi.gone hl).resolve_left (by simp [he])
      rw [hm, hmd (hd' this), hlog]; simp
  have hend2 : (run p st1).ended = st.ended := by rw [St.ended, hlog2]; rfl
  have htake : (traceOf st.fed).vals.take n <+: (traceOf st1.fed).vals.take n := by
    obtain ⟨r, hr⟩ := hfed
    rw [← hr, List.take_append]
    exact List.prefix_append _ _
  refine ⟨?_, ?_, ?_, ?_, ?_, ?_, ?_, ?_⟩
  · rw [hs.1, hs.2.2.1]; exact hopn
  · rw [hlog2, hs.2.2.1]; exact hi.pre.trans htake
  · refine run_frames p st1 fun f hf hl => ?_
    rw [hend]; exact hi.frames f (hfr f hf) hl
  · rcases Bool.eq_false_or_eq_true st.ended with he | he
    · exact fun _ _ _ => .inr (hend2.trans he)
    · have hdis : st.disposed = true := by
        have hl := hover.resolve_left (by simp [he])
        exact (hi.gone hl).resolve_left (by simp [he])
      have hstack : ∀ (p : Prog Nat α ε) (st1 : St α α ε Nat), st1.disposed = true →
          (run p st1).stack = st1.stack := by
        intro p
        induction p with
        | done s => intro st1 _; rfl
        | fail s e => intro st1 _; rfl
        | emit s c k ih => intro st1 h; rw [run_emit, if_pos h]; exact ih s st1 h
      rw [hstack p st1 (hd' hdis), hend2, ← hend]
      exact hks hdis
  · rw [hs.2.1, hs.2.2.2, hend2, ← hend]; exact hd
  · rw [hs.2.2.2, hleft, hs.2.1, hend2]
    exact fun h => (hi.gone h).imp id hd'
  · intro he hl
    rw [hend2] at he
    rw [hs.2.2.2, hleft] at hl
    rcases hover with h | h <;> simp_all
  · intro he hl
    rw [hend2] at he
    rw [hs.2.2.2, hleft] at hl
    obtain ⟨h1, h2⟩ := hi.fin he hl
    rw [hlog2, hs.2.2.1, hs.1, h1]
    rcases h2 with h2 | h2
    · rw [(hfed' h2).1]; exact ⟨rfl, .inl (hfed' h2).2⟩
    · obtain ⟨r, hr⟩ := hfed
      rw [← hr]
      refine ⟨?_, .inr (by simp; omega)⟩
      rw [List.take_append, Nat.sub_eq_zero_of_le h2]; simp

theorem TakeInv.step {n : Nat} {st : St α α ε Nat} (hi : TakeInv n st) (l : Lbl α ε) :
    TakeInv n (step (take n) st l) := by
  have hcases : (st.ended = true ∨ st.left = true) ∨ (st.ended = false ∧ st.left = false) := by
    cases st.ended <;> cases st.left <;> simp
  cases l with
  | feed c =>
    simp only [Feed.step]
    split
    · exact hi
    · rename_i hcd
      simp only [Bool.or_eq_true, not_or, Bool.not_eq_true] at hcd
      have hfn := hi.opn hcd.1
      have hopn : isEnd c = false → (traceOf (st.fed ++ [c])).fin = none := by
        intro h
        rw [traceOf_append_none _ _ hfn]
        cases c <;> simp_all [isEnd, traceOf]
      rcases hcases with hov | ⟨he, hl⟩
      · exact hi.over _ hov rfl rfl hi.out id (fun f hf => hf) hopn (vals_mono _ _)
          (fun h => by simp [hcd.1] at h) (fun h => by simp [hcd.2] at h)
      · obtain ⟨h0, h1, h2, h3⟩ := hi.live he hl
        have hln : (traceOf st.log).fin = none := by simpa [St.ended] using he
        have hks : ∀ f ∈ st.stack, f.last = false → f.k = takeEnd := fun f hf hl =>
          (hi.ks f hf hl).resolve_right (by simp [he])
        have hnl : ∀ f ∈ st.stack, f.last = false := fun f hf => by
          cases h : f.last
          · rfl
          · have := hi.frames f hf h; simp [he] at this
        have hdl : st.disposed = true → st.left = true ∨ False := fun h => by simp [hcd.2] at h
        have term : ∀ (c' : Call α ε) (f' : List (Call α ε)) (cl : Bool), isEnd c' = true →
            (cl = false → (traceOf f').fin = none) →
            (traceOf f').vals.take n = (traceOf st.fed).vals.take n →
            (cl = true ∨ n ≤ (traceOf f').vals.length) →
            TakeInv n (run (.emit st.op c' .done) { st with closed := cl, fed := f' }) := by
          intro c' f' cl hc' hf1 hf2 hf3
          have hrun : run (.emit st.op c' .done) { st with closed := cl, fed := f' } =
              { st with closed := cl, fed := f', stack := ⟨.done, true⟩ :: st.stack, log := st.log ++ [c'] } := by
            rw [run_emit, if_neg (by simp [hcd.2])]
            cases c' <;> first | (simp [isEnd] at hc'; done) | rfl
          rw [hrun]
          have hv : (traceOf (st.log ++ [c'])).vals = (traceOf st.log).vals := by
            rw [traceOf_append_none _ _ hln]
            cases c' <;> first | (simp [isEnd] at hc'; done) | simp [traceOf]
          have hen := fin_of_end st.log c' hc'
          refine ⟨hf1, ?_, fun _ _ _ => hen, fun _ _ _ => .inr hen, fun h => ?_, fun h => ?_,
            fun h => ?_, fun _ _ => ⟨?_, hf3⟩⟩
          · show (traceOf (st.log ++ [c'])).vals <+: _
            rw [hv, hf2]; exact hi.pre
          · exact .inr hen
          · exact .inl hen
          · have : (traceOf (st.log ++ [c'])).fin.isSome = false := h
            rw [hen] at this; cases this
          · show (traceOf (st.log ++ [c'])).vals = _
            rw [hv, hf2, h2]
        have hvn : isEnd c = true → (traceOf (st.fed ++ [c])).vals = (traceOf st.fed).vals := by
          intro h
          rw [traceOf_append_none _ _ hfn]
          cases c <;> simp_all [isEnd, traceOf]
        cases c with
        | error e => exact term (.error e) _ _ rfl (by simp [isEnd]) (by rw [hvn rfl]) (.inl rfl)
        | completed => exact term .completed _ _ rfl (by simp [isEnd]) (by rw [hvn rfl]) (.inl rfl)
        | up d =>
          have hrun : run ((take n : Micro α α ε Nat).call (.up d) st.op)
              { st with closed := isEnd (.up d : Call α ε), fed := st.fed ++ [.up d] } =
              { st with closed := false, fed := st.fed ++ [.up d], log := st.log ++ [.up d] } := by
            simp only [Micro.call]
            rw [run_emit, if_neg (by simp [hcd.2])]
            rfl
          rw [hrun]
          have hv : traceOf (st.log ++ [.up d]) = traceOf st.log := by
            rw [traceOf_append_none _ _ hln]
            cases h : traceOf st.log; rw [h] at hln; simp_all [traceOf]
          have hv2 : traceOf (st.fed ++ [.up d]) = traceOf st.fed := by
            rw [traceOf_append_none _ _ hfn]
            cases h : traceOf st.fed; rw [h] at hfn; simp_all [traceOf]
          have hen : St.ended { st with closed := false, fed := st.fed ++ [.up d], log := st.log ++ [.up d] } = false := by
            show (traceOf (st.log ++ [.up d])).fin.isSome = false
            rw [hv]; exact he
          refine ⟨fun _ => by rw [hv2]; exact hfn, ?_, fun f hf h => ?_, fun f hf h => .inl (hks f hf h),
            fun h => ?_, fun h => ?_, fun _ _ => ?_, fun h => ?_⟩
          · show (traceOf (st.log ++ [.up d])).vals <+: (traceOf (st.fed ++ [.up d])).vals.take n
            rw [hv, hv2]; exact hi.pre
          · have := hnl f hf; simp [this] at h
          · simp [hcd.2] at h
          · have h' : st.left = true := h
            simp [hl] at h'
          · refine ⟨rfl, ?_, ?_, ?_⟩
            · show st.op = n - (traceOf (st.fed ++ [.up d])).vals.length
              rw [hv2]; exact h1
            · show (traceOf (st.log ++ [.up d])).vals = (traceOf (st.fed ++ [.up d])).vals.take n
              rw [hv, hv2]; exact h2
            · show st.op = 0 → (traceOf (st.fed ++ [.up d])).vals ≠ [] → st.stack ≠ []
              rw [hv2]; exact h3
          · rw [hen] at h; cases h
        | next a =>
          have hv : (traceOf (st.fed ++ [.next a])).vals = (traceOf st.fed).vals ++ [a] := by
            rw [traceOf_append_none _ _ hfn]; rfl
          have hcall : (take n : Micro α α ε Nat).call (.next a) st.op =
              if st.op > 0 then .emit (st.op - 1) (.next a) takeEnd else takeEnd st.op := by
            simp only [Micro.call, take]
            have hte : ∀ k : Nat, (takeEnd k : Prog Nat α ε).handle (fun e s => .emit s (.error e) .done) =
                takeEnd k := by
              intro k; unfold takeEnd; split <;> rfl
            split
            · rw [Prog.handle]; congr 1; funext k; exact hte k
            · exact hte _
          rw [hcall]
          by_cases hop : st.op > 0
          · rw [if_pos hop, run_emit, if_neg (by simp [hcd.2])]
            have hlen : (traceOf st.fed).vals.length < n := by omega
            have hvl : (traceOf (st.log ++ [.next a])).vals = (traceOf st.log).vals ++ [a] := by
              rw [traceOf_append_none _ _ hln]; rfl
            have hne : (traceOf (st.log ++ [.next a])).fin = none := by
              rw [traceOf_append_none _ _ hln]; rfl
            have hw : ((traceOf st.fed).vals ++ [a]).take n = (traceOf st.log).vals ++ [a] := by
              rw [h2, List.take_of_length_le (Nat.le_of_lt hlen), List.take_of_length_le (by simp; omega)]
            refine ⟨fun _ => hopn rfl, ?_, fun f hf h => ?_, fun f hf h => ?_, fun h => ?_, fun h => ?_,
              fun _ _ => ⟨rfl, ?_, ?_, ?_⟩, fun h => ?_⟩
            · show (traceOf (st.log ++ [.next a])).vals <+: (traceOf (st.fed ++ [.next a])).vals.take n
              rw [hv, hvl, hw]; exact List.prefix_refl _
            · simp only [List.mem_cons] at hf
              rcases hf with rfl | hf
              · simp [isEnd] at h
              · have := hnl f hf; simp [this] at h
            · simp only [List.mem_cons] at hf
              rcases hf with rfl | hf
              · exact .inl rfl
              · exact .inl (hks f hf h)
            · have h' : st.disposed = true := h
              simp [hcd.2] at h'
            · have h' : st.left = true := h
              simp [hl] at h'
            · show st.op - 1 = n - (traceOf (st.fed ++ [.next a])).vals.length
              rw [hv, List.length_append, h1]; simp; omega
            · show (traceOf (st.log ++ [.next a])).vals = (traceOf (st.fed ++ [.next a])).vals.take n
              rw [hv, hvl, hw]
            · exact fun _ _ => by simp
            · have : (traceOf (st.log ++ [.next a])).fin.isSome = true := h
              rw [hne] at this; cases this
          · rw [if_neg hop]
            have hop0 : st.op = 0 := by omega
            have hte : (takeEnd st.op : Prog Nat α ε) = .emit st.op .completed .done := by
              unfold takeEnd; rw [if_pos hop0]
            rw [hte]
            refine term .completed _ _ rfl hopn ?_ (.inr ?_)
            · rw [hv, List.take_append, Nat.sub_eq_zero_of_le (by omega)]; simp
            · rw [hv]; simp; omega
  | ret =>
    simp only [Feed.step]
    split
    · exact hi
    · rename_i f fs hst
      have hmem : ∀ g ∈ fs, g ∈ st.stack := fun g hg => by rw [hst]; simp [hg]
      rcases hcases with hov | ⟨he, hl⟩
      · refine hi.over _ hov rfl rfl ?_ ?_ hmem hi.opn (List.prefix_refl _) (fun h => ⟨rfl, h⟩)
          (fun _ g hg h => hi.ks g (hmem g hg) h)
        · intro h
          simp only [Bool.or_eq_true] at h
          rcases h with h | h
          · exact hi.out h
          · exact .inr (hi.frames f (by rw [hst]; simp) h)
        · intro h; simp [h]
      · obtain ⟨h0, h1, h2, h3⟩ := hi.live he hl
        have hlast : f.last = false := by
          cases h : f.last
          · rfl
          · have := hi.frames f (by rw [hst]; simp) h; simp [he] at this
        have hdis : st.disposed = false := by
          cases h : st.disposed
          · rfl
          · have := hi.out h; simp [he, hl] at this
        have hfk : f.k = takeEnd := (hi.ks f (by rw [hst]; simp) hlast).resolve_right (by simp [he])
        have hln : (traceOf st.log).fin = none := by simpa [St.ended] using he
        rw [hfk]
        unfold takeEnd
        by_cases hop : st.op = 0
        · rw [if_pos hop, run_emit, if_neg (by simp [hdis, hlast])]
          have hen := fin_of_end st.log (.completed : Call α ε) rfl
          have hv : (traceOf (st.log ++ [.completed])).vals = (traceOf st.log).vals := by
            rw [traceOf_append_none _ _ hln]; simp [traceOf]
          refine ⟨hi.opn, ?_, fun _ _ _ => hen, fun _ _ _ => .inr hen, fun _ => .inr hen, fun _ => .inl hen,
            fun h => ?_, fun _ _ => ⟨?_, .inr (by show n ≤ (traceOf st.fed).vals.length; omega)⟩⟩
          · show (traceOf (st.log ++ [.completed])).vals <+: _
            rw [hv]; exact hi.pre
          · have : (traceOf (st.log ++ [.completed])).fin.isSome = false := h
            rw [hen] at this; cases this
          · show (traceOf (st.log ++ [.completed])).vals = _
            rw [hv]; exact h2
        · rw [if_neg hop]
          show TakeInv n { st with stack := fs, disposed := st.disposed || f.last }
          refine ⟨hi.opn, hi.pre, fun g hg => hi.frames g (hmem g hg), fun g hg => hi.ks g (hmem g hg),
            fun h => ?_, fun h => ?_, fun _ _ => ⟨h0, h1, h2, fun h => absurd h hop⟩, fun h => ?_⟩
          · simp [hdis, hlast] at h
          · have h' : st.left = true := h
            simp [hl] at h'
          · have h' : st.ended = true := h
            simp [he] at h'
  | throw e =>
    simp only [Feed.step]
    split
    · exact hi
    · rename_i f fs hst
      have hmem : ∀ g ∈ fs, g ∈ st.stack := fun g hg => by rw [hst]; simp [hg]
      split
      · exact hi
      · split
        · rename_i hd
          have hov : st.ended = true ∨ st.left = true := (hi.out hd).symm
          exact hi.over _ hov rfl rfl hi.out id hmem hi.opn (List.prefix_refl _) (fun h => ⟨rfl, h⟩)
            (fun _ g hg h => hi.ks g (hmem g hg) h)
        · rename_i hd
          have hen : St.ended { st with stack := ⟨f.k, true⟩ :: fs, log := st.log ++ [.error e], left := st.left || !st.ended } = true :=
            fin_of_end _ _ rfl
          have hv : (traceOf (st.log ++ [.error e])).vals = (traceOf st.log).vals := by
            cases h : (traceOf st.log).fin with
            | some t => rw [traceOf_append_fin _ _ (by simp [h])]
            | none => rw [traceOf_append_none _ _ h]; simp [traceOf]
          refine ⟨hi.opn, ?_, fun _ _ _ => hen, fun _ _ _ => .inr hen, fun h => absurd h hd,
            fun _ => .inl hen, fun h => ?_, fun _ hl => ?_⟩
          · show (traceOf (st.log ++ [.error e])).vals <+: _
            rw [hv]; exact hi.pre
          · rw [hen] at h; cases h
          · simp only [Bool.or_eq_false_iff, Bool.not_eq_false'] at hl
            show (traceOf (st.log ++ [.error e])).vals = _ ∧ _
            rw [hv]
            exact hi.fin hl.2 hl.1
  | dispose =>
    simp only [Feed.step]
    refine ⟨hi.opn, hi.pre, hi.frames, hi.ks, fun _ => ?_, fun _ => .inr rfl, fun he hl => ?_,
      fun he hl => ?_⟩
    · show (st.left || !st.ended) = true ∨ st.ended = true
      cases st.ended <;> simp
    · have he' : st.ended = false := he
      simp [he'] at hl
    · simp only [Bool.or_eq_false_iff] at hl
      exact hi.fin he hl.1

theorem takeInv (n : Nat) (ls : List (Lbl α ε)) : TakeInv n (exec (take n) ls : St α α ε Nat) := by
  have : ∀ (ls : List (Lbl α ε)) (st : St α α ε Nat), TakeInv n st →
      TakeInv n (ls.foldl (Feed.step (take n)) st) := by
    intro ls
    induction ls with
    | nil => exact fun _ h => h
    | cons l ls ih => exact fun st h => ih _ (h.step l)
  refine this ls _ ⟨fun _ => rfl, ?_, fun _ h => by simp [start] at h, fun _ h => by simp [start] at h,
    fun h => by simp [start] at h, fun h => by simp [start] at h, fun _ _ => ⟨rfl, ?_, ?_, ?_⟩,
    fun h => ?_⟩
  · exact List.nil_prefix
  · rfl
  · simp [start, take, traceOf]
  · intro _ h; simp [start, traceOf] at h
  · simp [start, take, St.ended, traceOf] at h

/-- C106, `take`: whatever its subscriber feeds from inside its callbacks, `take(n)` delivers the first `n`
values that entered it and no more; when it has delivered them and all calls have returned, the subscriber
has been told the end. -/
theorem C106_take (n : Nat) (ls : List (Lbl α ε)) :
    let st : St α α ε Nat := exec (take n) ls
    (traceOf st.log).vals <+: (traceOf st.fed).vals.take n ∧
    (st.left = false → (traceOf st.log).vals = (traceOf st.fed).vals.take n) ∧
    (st.left = false → st.stack = [] → max 1 n ≤ (traceOf st.fed).vals.length → st.ended = true) := by
  have hi := takeInv (ε := ε) n ls
  refine ⟨hi.pre, fun hl => ?_, fun hl hq hn => ?_⟩
  · cases he : St.ended (exec (take n) ls : St α α ε Nat) with
    | true => exact (hi.fin he hl).1
    | false => exact (hi.live he hl).2.2.1
  · cases he : St.ended (exec (take n) ls : St α α ε Nat) with
    | true => rfl
    | false =>
      obtain ⟨_, h1, _, h3⟩ := hi.live he hl
      refine absurd hq (h3 (by omega) ?_)
      intro h; rw [h] at hn; simp at hn

/-! ## Where the claim is false -/

/-- C106 is false for `first`: it passes the value on before it completes, so a value fed by the subscriber's
callback is delivered as well. -/
theorem C106_first_refutes :
    let p : Pipe Nat Nat Nat := .cons (.first 99) .nil
    let st := exec (pipe false p) [.feed (.next 1), .feed (.next 2), .ret, .ret, .ret]
    st.log = [.next 1, .next 2, .completed] ∧ st.stack.length = 0 ∧ st.left = false ∧
    p.spec (traceOf st.fed) = ⟨[1], some .completed⟩ ∧ traceOf st.log ≠ p.spec (traceOf st.fed) := by
  decide

/-- C106 is false for `element_at`: the value after the one asked for is delivered too if the subscriber's
callback feeds it. -/
theorem C106_element_at_refutes :
    let p : Pipe Nat Nat Nat := .cons (.elementAt 1 99) .nil
    let st := exec (pipe false p) [.feed (.next 1), .feed (.next 2), .feed (.next 3), .ret, .ret, .ret]
    st.log = [.next 2, .next 3, .completed] ∧ st.stack.length = 0 ∧ st.left = false ∧
    p.spec (traceOf st.fed) = ⟨[2], some .completed⟩ := by
  decide

/-- C106 is false for `throttle`: the time of the last emission is stored only after the value was passed on,
so values fed by the subscriber's callback pass however early they come, and afterwards the older time is
what counts. -/
theorem C106_throttle_refutes :
    let p : Pipe Nat (Int × Nat) Nat := .cons (.throttle 10) .nil
    let st := exec (pipe false p) [.feed (.next (0, 1)), .feed (.next (5, 2)), .ret, .ret, .feed (.next (10, 3)), .ret]
    st.log = [.next 1, .next 2, .next 3] ∧ st.stack.length = 0 ∧ st.left = false ∧
    p.spec (traceOf st.fed) = ⟨[1, 3], none⟩ := by
  decide

/-- C106 is false for `buffer` if its observer does not move the vector out (a callback taking
`const std::vector<T>&`): a value fed by the callback is pushed to the vector being delivered, which is
cleared afterwards (the value is lost), and from then on buckets have twice the size. -/
theorem C106_buffer_refutes :
    let p : Pipe Nat Nat (List Nat) := .cons (.buffer 2) .nil
    let st := exec (pipe false p) [.feed (.next 1), .feed (.next 2), .feed (.next 3), .ret, .feed (.next 4),
      .feed (.next 5), .feed (.next 6), .feed (.next 7), .ret]
    st.log = [.next [1, 2], .next [4, 5, 6, 7]] ∧ st.stack.length = 0 ∧ st.left = false ∧
    p.spec (traceOf st.fed) = ⟨[[1, 2], [3, 4], [5, 6]], none⟩ := by
  decide

/-- C106 is false for `buffer` also if its observer moves the vector out: during the call the member is
a vector without capacity, which is full after one value. -/
theorem C106_buffer_moved_refutes :
    let p : Pipe Nat Nat (List Nat) := .cons (.buffer 2) .nil
    let st := exec (pipe true p) [.feed (.next 1), .feed (.next 2), .feed (.next 3), .feed (.next 4), .ret, .ret, .ret]
    st.log = [.next [1, 2], .next [3], .next [4]] ∧ st.stack.length = 0 ∧ st.left = false ∧
    p.spec (traceOf st.fed) = ⟨[[1, 2], [3, 4]], none⟩ := by
  decide

/-- C106 is false for the end of `take`: it completes only after its last value's callback returned, so an
error the callback makes the source send replaces the completion. -/
theorem C106_take_end_refutes :
    let p : Pipe Nat Nat Nat := .cons (.take 1) .nil
    let st := exec (pipe false p) [.feed (.next 1), .feed (.error 7), .ret, .ret]
    st.log = [.next 1, .error 7] ∧ st.stack.length = 0 ∧ st.left = false ∧
    p.spec (traceOf st.fed) = ⟨[1], some .completed⟩ := by
  decide

/-- C106 is false for an operator that ends by itself followed by one that emits at completion: while the
subscriber's callback for `last`'s value runs, a further value makes `take_while` complete a second time, and `last`
emits a second time. -/
theorem C106_ended_twice_refutes :
    let p : Pipe Nat Nat Nat := .cons (.takeWhile fun n => .ok (decide (n < 5))) (.cons (.last 99) .nil)
    let st := exec (pipe false p) [.feed (.next 1), .feed (.next 7), .feed (.next 8), .ret, .ret, .ret]
    st.log = [.next 1, .next 1, .completed] ∧ st.stack.length = 0 ∧ st.left = false ∧
    p.spec (traceOf st.fed) = ⟨[1], some .completed⟩ := by
  decide

-- Non-vacuity: a steady pipeline with several stages, fed three deep, the source completing inside.
example :
    let p : Pipe Nat Nat Nat := .cons (.skip 1) (.cons (.scan 10 fun s x => .ok (s + x)) (.cons .distinct .nil))
    Steady p ∧ p.WF ∧
    (exec (pipe false p) [.feed (.next 1), .feed (.next 2), .feed (.next 0), .feed (.next 3), .feed (.next 4), .ret,
      .feed .completed, .ret, .ret, .ret]).log = [.next 10, .next 12, .next 15, .next 19, .completed] := by
  refine ⟨⟨rfl, (fun h => nomatch h), rfl, (fun h => nomatch h), rfl, (fun h => nomatch h), trivial⟩,
    ⟨trivial, trivial, inferInstanceAs (LawfulBEq Nat), trivial⟩, by decide⟩

-- `reduce` behind `map`: the result is delivered when the callback of the source's completion runs.
example :
    let p : Pipe Nat Nat Nat := .cons (.map fun x => .ok (2 * x)) (.cons (.reduce 0 fun s x => .ok (s + x)) .nil)
    Steady p ∧ (exec (pipe false p) [.feed (.next 1), .feed (.next 2), .feed .completed, .feed (.next 5), .ret, .ret]).log =
      [.next 6, .completed] := by
  refine ⟨⟨rfl, (fun h => nomatch h), rfl, (fun h => nomatch h), trivial⟩, by decide⟩

-- `take(2)`, the second and third value fed from inside the first callback.
example : (exec (take 2 : Micro Nat Nat Nat Nat)
    [.feed (.next 1), .feed (.next 2), .feed (.next 3), .ret, .ret, .ret]).log = [.next 1, .next 2, .completed] := by
  decide

end Rpp.Feed
