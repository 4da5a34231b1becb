import Verif.Core.FeedProofs

/-! # Invariants of a subscription that feeds itself (`Verif.Core.Feed`) -/

namespace Rpp.Feed

/-- What the suspended calls still send, innermost first. -/
def owedFrom (s : σ) : List (Frame σ γ ε) → List (Call γ ε)
  | [] => []
  | f :: fs => (f.k s).flat.2 ++ owedFrom (f.k s).flat.1 fs

theorem owed_done (s : σ) : ∀ (fs : List (Frame σ γ ε)), (∀ f ∈ fs, f.k = .done) → owedFrom s fs = []
  | [], _ => rfl
  | f :: fs, h => by
    rw [owedFrom, h f (by simp)]
    exact owed_done s fs fun g hg => h g (by simp [hg])

theorem run_emit (s : σ) (c : Call γ ε) (k : σ → Prog σ γ ε) (st : St α γ ε σ) :
    run (.emit s c k) st = if st.disposed then run (k s) st
      else match c with
        | .up d => run (k s) { st with log := st.log ++ [.up d] }
        | c => { st with op := s, stack := ⟨k, isEnd c⟩ :: st.stack, log := st.log ++ [c] } := by
  cases c <;> rfl

theorem run_same : ∀ (p : Prog σ γ ε) (st : St α γ ε σ),
    (run p st).closed = st.closed ∧ (run p st).disposed = st.disposed ∧ (run p st).fed = st.fed ∧
      (run p st).left = st.left
  | .done s, st => ⟨rfl, rfl, rfl, rfl⟩
  | .fail s e, st => ⟨rfl, rfl, rfl, rfl⟩
  | .emit s c k, st => by
    rw [run_emit]
    split
    · exact run_same (k s) st
    · cases c with
      | up d => exact run_same (k s) _
      | _ => exact ⟨rfl, rfl, rfl, rfl⟩

theorem run_log : ∀ (p : Prog σ γ ε) (st : St α γ ε σ), st.disposed = false →
    (run p st).log ++ owedFrom (run p st).op (run p st).stack =
      st.log ++ (p.flat.2 ++ owedFrom p.flat.1 st.stack)
  | .done s, st, _ => by simp [run, Prog.flat]
  | .fail s e, st, _ => by simp [run, Prog.flat]
  | .emit s c k, st, h => by
    rw [run_emit, if_neg (by simp [h])]
    cases c with
    | up d =>
      refine (run_log (k s) { st with log := st.log ++ [.up d] } h).trans ?_
      simp [Prog.flat]
    | _ => simp [Prog.flat, owedFrom]

theorem run_ext : ∀ (p : Prog σ γ ε) (st : St α γ ε σ),
    ∃ m, (run p st).log = st.log ++ m ∧ (st.disposed = true → m = [])
  | .done s, st => ⟨[], by simp [run], fun _ => rfl⟩
  | .fail s e, st => ⟨[], by simp [run], fun _ => rfl⟩
  | .emit s c k, st => by
    rw [run_emit]
    split
    · exact run_ext (k s) st
    · rename_i hd
      cases c with
      | up d =>
        obtain ⟨m, hm, _⟩ := run_ext (k s) { st with log := st.log ++ [.up d] }
        exact ⟨.up d :: m, by rw [hm]; simp, fun h => absurd h hd⟩
      | next a => exact ⟨[.next a], rfl, fun h => absurd h hd⟩
      | error a => exact ⟨[.error a], rfl, fun h => absurd h hd⟩
      | completed => exact ⟨[.completed], rfl, fun h => absurd h hd⟩

theorem run_ended (p : Prog σ γ ε) (st : St α γ ε σ) (h : st.ended = true) :
    traceOf (run p st).log = traceOf st.log := by
  obtain ⟨m, hm, _⟩ := run_ext p st
  rw [hm, traceOf_append_fin _ _ h]

theorem run_frames : ∀ (p : Prog σ γ ε) (st : St α γ ε σ),
    (∀ f ∈ st.stack, f.last = true → st.ended = true) →
    ∀ f ∈ (run p st).stack, f.last = true → (run p st).ended = true
  | .done s, st, h => h
  | .fail s e, st, h => h
  | .emit s c k, st, h => by
    rw [run_emit]
    split
    · exact run_frames (k s) st h
    · cases c with
      | up d => exact run_frames (k s) _ fun f hf hl => fin_mono _ _ (h f hf hl)
      | next a =>
        intro f hf hl
        simp only [List.mem_cons] at hf
        rcases hf with rfl | hf
        · simp [isEnd] at hl
        · exact fin_mono _ _ (h f hf hl)
      | error a => exact fun _ _ _ => fin_of_end _ _ rfl
      | completed => exact fun _ _ _ => fin_of_end _ _ rfl

theorem run_tail {p : Prog σ γ ε} (hp : Tail p) (st : St α γ ε σ) :
    (run p st).op = p.flat.1 ∧ ∀ f ∈ (run p st).stack, f ∈ st.stack ∨ f.k = .done := by
  rcases hp with ⟨s, rfl⟩ | ⟨s, c, rfl⟩
  · exact ⟨rfl, fun f hf => .inl hf⟩
  · rw [run_emit]
    split
    · exact ⟨rfl, fun f hf => .inl hf⟩
    · cases c with
      | up d => exact ⟨rfl, fun f hf => .inl hf⟩
      | _ =>
        refine ⟨rfl, fun f hf => ?_⟩
        simp only [List.mem_cons] at hf
        rcases hf with rfl | hf
        · exact .inr rfl
        · exact .inl hf

/-- What the pipeline would have sent by now if no call had been nested. -/
def expected (M : Micro α γ ε σ) (st : St α γ ε σ) : List (Call γ ε) :=
  M.initOut ++ (M.flatRun M.init st.fed).2

/-- What holds in every history, if `on_next` is a tail. -/
structure Inv (M : Micro α γ ε σ) (st : St α γ ε σ) : Prop where
  pre : (traceOf st.log).vals <+: (traceOf (expected M st)).vals
  frames : ∀ f ∈ st.stack, f.last = true → st.ended = true
  out : st.disposed = true → st.left = true ∨ st.ended = true
  gone : st.left = true → st.ended = true ∨ st.disposed = true
  live : st.ended = false → st.left = false →
    traceOf (st.log ++ owedFrom st.op st.stack) = traceOf (expected M st) ∧
    (st.closed = false → st.op = (M.flatRun M.init st.fed).1 ∧ ∀ f ∈ st.stack, f.k = .done)
  fin : st.ended = true → st.left = false → traceOf st.log = traceOf (expected M st)

theorem expected_feed (M : Micro α γ ε σ) (st st' : St α γ ε σ) (c : Call α ε)
    (h : st'.fed = st.fed ++ [c]) :
    expected M st' = expected M st ++ (M.call c (M.flatRun M.init st.fed).1).flat.2 ∧
    (M.flatRun M.init st'.fed).1 = (M.call c (M.flatRun M.init st.fed).1).flat.1 := by
  rw [expected, h, flatRun_append]
  simp [expected, Micro.flatRun]

/-- Running a program when the subscriber has already been told the end, or is gone. -/
theorem Inv.over {M : Micro α γ ε σ} {st st1 : St α γ ε σ} (hi : Inv M st) (p : Prog σ γ ε)
    (hover : st.ended = true ∨ st.left = true)
    (hlog : st1.log = st.log) (hleft : st1.left = st.left)
    (hd : st1.disposed = true → st1.left = true ∨ st1.ended = true)
    (hd' : st.disposed = true → st1.disposed = true)
    (hfr : ∀ f ∈ st1.stack, f ∈ st.stack)
    (hexp : ∃ m, expected M st1 = expected M st ++ m) :
    Inv M (run p st1) := by
  have hend : st1.ended = st.ended := by rw [St.ended, hlog]; rfl
  have hs := run_same p st1
  obtain ⟨m, hm, hmd⟩ := run_ext p st1
  obtain ⟨n, hn⟩ := hexp
  have hexp' : expected M (run p st1) = expected M st ++ n := by
    rw [← hn, expected, expected, hs.2.2.1]
  have hmono : ∀ {b : Bool}, st1.ended = b → b = true → (run p st1).ended = true := by
    intro b h1 h2
    rw [St.ended, hm]; exact fin_mono _ _ (by rw [← h2, ← h1]; rfl)
  have hlog2 : traceOf (run p st1).log = traceOf st.log := by
    rcases Bool.eq_false_or_eq_true st.ended with he | he
    · rw [run_ended p st1 (hend.trans he), hlog]
    · have hl := hover.resolve_left (by simp [he])
      have := (hi.gone hl).resolve_left (by simp [he])
      rw [hm, hmd (hd' this), hlog]; simp
  have hend2 : (run p st1).ended = st.ended := by rw [St.ended, hlog2]; rfl
  refine ⟨?_, ?_, ?_, ?_, ?_, ?_⟩
  · rw [hlog2, hexp']; exact hi.pre.trans (vals_mono _ _)
  · refine run_frames p st1 fun f hf hl => ?_
    rw [hend]; exact hi.frames f (hfr f hf) hl
  · rw [hs.2.1, hs.2.2.2, hend2, ← hend]; exact hd
  · rw [hs.2.2.2, hleft, hs.2.1, hend2]
    exact fun h => (hi.gone h).imp id hd'
  · intro he hl
    rw [hend2] at he
    rw [hs.2.2.2, hleft] at hl
    rcases hover with h | h <;> simp_all
  · intro he hl
    rw [hend2] at he
    rw [hs.2.2.2, hleft] at hl
    rw [hlog2, hi.fin he hl, hexp']
    have : (traceOf (expected M st)).fin.isSome = true := by rw [← hi.fin he hl]; exact he
    rw [traceOf_append_fin _ _ this]

/-- Running a program that sends what is still expected. -/
theorem Inv.live_run {M : Micro α γ ε σ} {st : St α γ ε σ} (p : Prog σ γ ε)
    (he : st.ended = false) (hl : st.left = false) (hd : st.disposed = false)
    (hfr : ∀ f ∈ st.stack, f.last = true → st.ended = true)
    (hexp : traceOf (st.log ++ (p.flat.2 ++ owedFrom p.flat.1 st.stack)) = traceOf (expected M st))
    (hop : st.closed = false → Tail p ∧ p.flat.1 = (M.flatRun M.init st.fed).1 ∧
      ∀ f ∈ st.stack, f.k = .done) :
    Inv M (run p st) := by
  have hs := run_same p st
  have hrl := run_log p st hd
  have hexp' : expected M (run p st) = expected M st := by rw [expected, expected, hs.2.2.1]
  have hfull : traceOf ((run p st).log ++ owedFrom (run p st).op (run p st).stack) =
      traceOf (expected M st) := by rw [hrl, hexp]
  refine ⟨?_, run_frames p st hfr, ?_, ?_, ?_, ?_⟩
  · rw [hexp', ← hfull]; exact vals_mono _ _
  · rw [hs.2.1, hd]; simp
  · rw [hs.2.2.2, hl]; simp
  · intro _ _
    refine ⟨by rw [hexp']; exact hfull, fun hc => ?_⟩
    rw [hs.1] at hc
    obtain ⟨ht, h1, h2⟩ := hop hc
    have := run_tail ht st
    exact ⟨by rw [this.1, h1, hs.2.2.1], fun f hf => (this.2 f hf).elim (h2 f) id⟩
  · intro hen _
    rw [hexp', ← hfull, traceOf_append_fin _ _ hen]

theorem Inv.step {M : Micro α γ ε σ} (hM : ∀ (c : Call α ε), isEnd c = false → ∀ s, Tail (M.call c s))
    {st : St α γ ε σ} (hi : Inv M st) (l : Lbl α ε) : Inv M (step M st l) := by
  have hcases : (st.ended = true ∨ st.left = true) ∨ (st.ended = false ∧ st.left = false) := by
    cases st.ended <;> cases st.left <;> simp
  cases l with
  | feed c =>
    simp only [Feed.step]
    split
    · exact hi
    · rename_i hcd
      simp only [Bool.or_eq_true, not_or, Bool.not_eq_true] at hcd
      have hx := expected_feed M st { st with closed := isEnd c, fed := st.fed ++ [c] } c rfl
      rcases hcases with hov | ⟨he, hl⟩
      · exact hi.over _ hov rfl rfl hi.out id (fun f hf => hf) ⟨_, hx.1⟩
      · obtain ⟨h1, h2⟩ := hi.live he hl
        obtain ⟨hop, hk⟩ := h2 hcd.1
        rw [owed_done _ _ hk, List.append_nil] at h1
        refine Inv.live_run _ he hl hcd.2 hi.frames ?_ ?_
        · rw [hx.1]
          show traceOf (st.log ++ (_ ++ owedFrom _ st.stack)) = _
          rw [owed_done _ _ hk, List.append_nil, hop]
          have hn : (traceOf st.log).fin = none := by simpa [St.ended] using he
          rw [traceOf_append_none _ _ hn, traceOf_append_none _ _ (by rw [← h1]; exact hn), h1]
        · intro hc
          refine ⟨hM c hc _, ?_, hk⟩
          rw [hx.2, hop]
  | ret =>
    simp only [Feed.step]
    split
    · exact hi
    · rename_i f fs hst
      have hmem : ∀ g ∈ fs, g ∈ st.stack := fun g hg => by rw [hst]; simp [hg]
      rcases hcases with hov | ⟨he, hl⟩
      · refine hi.over _ hov rfl rfl ?_ ?_ hmem ⟨[], by simp [expected]⟩
        · intro h
          simp only [Bool.or_eq_true] at h
          rcases h with h | h
          · exact hi.out h
          · exact .inr (hi.frames f (by rw [hst]; simp) h)
        · intro h; simp [h]
      · obtain ⟨h1, h2⟩ := hi.live he hl
        have hlast : f.last = false := by
          cases h : f.last
          · rfl
          · have := hi.frames f (by rw [hst]; simp) h; simp [he] at this
        have hdis : st.disposed = false := by
          cases h : st.disposed
          · rfl
          · have := hi.out h; simp [he, hl] at this
        refine Inv.live_run (st := { st with stack := fs, disposed := st.disposed || f.last })
          _ he hl (by simp [hdis, hlast]) (fun g hg => hi.frames g (hmem g hg)) ?_ ?_
        · rw [hst, owedFrom] at h1; exact h1
        · intro hc
          obtain ⟨hop, hk⟩ := h2 hc
          have hf := hk f (by rw [hst]; simp)
          rw [hf]
          exact ⟨.mkDone _, hop, fun g hg => hk g (hmem g hg)⟩
  | throw e =>
    simp only [Feed.step]
    split
    · exact hi
    · rename_i f fs hst
      have hmem : ∀ g ∈ fs, g ∈ st.stack := fun g hg => by rw [hst]; simp [hg]
      split
      · exact hi
      · split
        · rename_i hd
          have hov : st.ended = true ∨ st.left = true := (hi.out hd).symm
          exact hi.over _ hov rfl rfl hi.out id hmem ⟨[], by simp [expected]⟩
        · rename_i hd
          have hen : St.ended { st with stack := ⟨f.k, true⟩ :: fs, log := st.log ++ [.error e], left := st.left || !st.ended } = true :=
            fin_of_end _ _ rfl
          refine ⟨?_, fun _ _ _ => hen, fun h => absurd h hd, fun _ => .inl hen, fun h => ?_, fun _ hl => ?_⟩
          · show (traceOf (st.log ++ [.error e])).vals <+: _
            cases h : (traceOf st.log).fin with
            | some t => rw [traceOf_append_fin _ _ (by simp [h])]; exact hi.pre
            | none =>
              rw [traceOf_append_none _ _ h]
              show (traceOf st.log).vals ++ [] <+: _
              rw [List.append_nil]; exact hi.pre
          · rw [hen] at h; cases h
          · simp only [Bool.or_eq_false_iff, Bool.not_eq_false'] at hl
            show traceOf (st.log ++ [.error e]) = _
            rw [traceOf_append_fin _ _ hl.2]
            exact hi.fin hl.2 hl.1
  | dispose =>
    simp only [Feed.step]
    refine ⟨hi.pre, hi.frames, fun _ => ?_, fun _ => .inr rfl, fun he hl => ?_, fun he hl => ?_⟩
    · show (st.left || !st.ended) = true ∨ st.ended = true
      cases st.ended <;> simp
    · have he' : st.ended = false := he
      simp [he'] at hl
    · simp only [Bool.or_eq_false_iff] at hl
      exact hi.fin he hl.1

theorem Inv.start (M : Micro α γ ε σ) : Inv M (start M) := by
  have he : expected M (Feed.start M) = M.initOut := by simp [expected, Feed.start, Micro.flatRun]
  refine ⟨?_, fun _ h => by simp [Feed.start] at h, fun h => by simp [Feed.start] at h,
    fun h => by simp [Feed.start] at h, fun _ _ => ⟨?_, fun _ => ⟨rfl, fun _ h => by simp [Feed.start] at h⟩⟩,
    fun _ _ => ?_⟩
  · rw [he]; exact List.prefix_refl _
  · rw [he]; simp [Feed.start, owedFrom]
  · rw [he]; rfl

theorem inv (M : Micro α γ ε σ) (hM : ∀ (c : Call α ε), isEnd c = false → ∀ s, Tail (M.call c s))
    (ls : List (Lbl α ε)) : Inv M (exec M ls) := by
  have : ∀ (ls : List (Lbl α ε)) (st : St α γ ε σ), Inv M st → Inv M (ls.foldl (step M) st) := by
    intro ls
    induction ls with
    | nil => exact fun _ h => h
    | cons l ls ih => exact fun st h => ih _ (h.step hM l)
  exact this ls _ (.start M)

end Rpp.Feed
