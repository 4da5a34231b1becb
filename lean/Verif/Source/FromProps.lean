import Verif.Source.From

/-!
# C66: `from_iterable`, `just`

The subscriber is the one of `Verif.Core.Props`: any chain of operators (`Pipe`) in front of callbacks that
may dispose or throw (`react`).  `Verif.Source.From.contents` says which sequence a container denotes.
-/

namespace Rpp

open From

variable {α γ ε : Type} [DecidableEq α] [DecidableEq γ] [DecidableEq ε]

namespace From

/-- What the subscriber of `from_iterable(c, immediate) | p` has seen after the steps `ls`, where `kill` is
the subscription being disposed from outside. -/
def immediateSees (cap : Option Nat) (ov : ε) (react : List (Call γ ε) → Reaction ε) (p : Pipe ε α γ)
    (c : Cont α ε) (ls : List Lbl) : List (Call γ ε) :=
  evsOf (p.final (iexec (p.lift (userObs cap ov react)) (p.mapFinal UserSt.dispose) c
    (p.start (userObs cap ov react) {}) ls).obs).log

/-- The same for `from_iterable(c, scheduler) | p` on any scheduler that queues tasks. -/
def scheduledSees (cap : Option Nat) (ov : ε) (react : List (Call γ ε) → Reaction ε) (p : Pipe ε α γ)
    (c : Cont α ε) (ls : List Lbl) : List (Call γ ε) :=
  evsOf (p.final (sexec (p.lift (userObs cap ov react)) (p.mapFinal UserSt.dispose) c
    (p.start (userObs cap ov react) {}) ls).obs).log

/-! ### Helpers -/

theorem lift_isDisposed {τ : Type} : {α γ : Type} → (p : Pipe ε α γ) → (O : Obs γ ε τ) → (s : p.State τ) →
    (p.lift O).isDisposed s = O.isDisposed (p.final s)
  | _, _, .nil, _, _ => rfl
  | _, _, .cons o p, O, s => by
    show (false || (p.lift O).isDisposed s.2) = _
    rw [Bool.false_or, lift_isDisposed p O s.2]; rfl

theorem final_mapFinal {τ : Type} (f : τ → τ) : {α γ : Type} → (p : Pipe ε α γ) → (s : p.State τ) →
    p.final (p.mapFinal f s) = f (p.final s)
  | _, _, .nil, _ => rfl
  | _, _, .cons _ p, s => final_mapFinal f p s.2

theorem release_log (s : UserSt γ ε) (d : Nat) : s.log <+: (s.release d).log := by
  unfold UserSt.release; split
  · exact List.prefix_refl _
  · exact List.prefix_append _ _

theorem dispose_log (s : UserSt γ ε) : s.log <+: s.dispose.log := by
  unfold UserSt.dispose
  have : ∀ (ds : List Nat) (t : UserSt γ ε), t.log <+: (ds.foldl (fun s d => s.release d) t).log := by
    intro ds
    induction ds with
    | nil => intro t; exact List.prefix_refl _
    | cons d ds ih => intro t; exact (release_log t d).trans (ih _)
  exact this s.ups { s with disposed := true }

theorem onError_log (cap : Option Nat) (ov : ε) (react : List (Call γ ε) → Reaction ε) (e : ε)
    (s : UserSt γ ε) : s.log <+: (implOnError (lambdaStrategy react) (localDisp cap ov) e s).log := by
  unfold implOnError
  split
  · exact List.prefix_refl _
  · simp only [lambdaStrategy, localDisp]
    refine List.IsPrefix.trans ?_ (dispose_log _)
    split
    · exact (List.prefix_append _ _).trans (dispose_log { s with log := s.log ++ [.ev (.error e)] })
    · exact List.prefix_append _ _

theorem call_log (cap : Option Nat) (ov : ε) (react : List (Call γ ε) → Reaction ε) (c : Call γ ε)
    (s : UserSt γ ε) : s.log <+: ((userObs cap ov react).call c s).log := by
  cases c with
  | error e => exact onError_log cap ov react e s
  | completed =>
    simp only [Obs.call, userObs, observerImpl]
    split
    · exact List.prefix_refl _
    · simp only [lambdaStrategy, localDisp]
      refine List.IsPrefix.trans ?_ (dispose_log _)
      split
      · exact (List.prefix_append _ _).trans (dispose_log { s with log := s.log ++ [.ev .completed] })
      · exact List.prefix_append _ _
  | next a =>
    simp only [Obs.call, userObs, observerImpl]
    split
    · exact List.prefix_refl _
    · have h1 : s.log <+: ((lambdaStrategy react).onNext a s).1.log := by
        simp only [lambdaStrategy]
        split
        · exact (List.prefix_append _ _).trans (dispose_log { s with log := s.log ++ [.ev (.next a)] })
        · exact List.prefix_append _ _
      split
      · rename_i heq; rw [heq] at h1; exact h1
      · rename_i heq; rw [heq] at h1; exact h1.trans (onError_log cap ov react _ _)
  | up d =>
    simp only [Obs.call, userObs, observerImpl]
    split
    · exact release_log s d
    · have h1 : ((localDisp cap ov).add d s).1.log = s.log := by
        simp only [localDisp]; split
        · rfl
        · split <;> rfl
      split
      · rename_i heq; rw [heq] at h1; simp only [lambdaStrategy]; rw [h1]; exact List.prefix_refl _
      · rename_i heq
        rw [heq] at h1
        rw [← h1]; exact onError_log cap ov react _ _

theorem run_log (cap : Option Nat) (ov : ε) (react : List (Call γ ε) → Reaction ε) (cs : List (Call γ ε)) :
    ∀ s : UserSt γ ε, s.log <+: ((userObs cap ov react).run s cs).log := by
  induction cs with
  | nil => intro s; exact List.prefix_refl _
  | cons c cs ih => intro s; exact (call_log cap ov react c s).trans (ih _)

theorem evsOf_prefix {l m : List (Out γ ε)} (h : l <+: m) : evsOf l <+: evsOf m := by
  obtain ⟨t, rfl⟩ := h
  rw [evsOf_append]; exact List.prefix_append _ _

omit [DecidableEq α] [DecidableEq ε] in
theorem op_trans_append {β σ : Type} (P : OpStrategy α β ε σ) (cs ds : List (Call α ε)) :
    ∀ s, P.trans s cs <+: P.trans s (cs ++ ds) := by
  induction cs with
  | nil => intro s; exact List.nil_prefix
  | cons c cs ih => intro s; exact List.prefix_append_right_inj _ |>.2 (ih _)

omit [DecidableEq ε] in
theorem trans_prefix : {α γ : Type} → (p : Pipe ε α γ) → {cs ds : List (Call α ε)} → cs <+: ds →
    p.trans cs <+: p.trans ds
  | _, _, .nil, _, _, h => h
  | _, _, .cons o p, cs, ds, h => by
    obtain ⟨t, rfl⟩ := h
    exact trans_prefix p ((List.prefix_append_right_inj _).2 (op_trans_append o.strategy cs t _))

/-- More calls show the subscriber more. -/
theorem sees_mono (cap : Option Nat) (ov : ε) (react : List (Call γ ε) → Reaction ε) (p : Pipe ε α γ)
    {cs ds : List (Call α ε)} (h : cs <+: ds) :
    subscriberSees cap ov react p cs <+: subscriberSees cap ov react p ds := by
  obtain ⟨t, rfl⟩ := h
  have hl := userObs_lawful (cap := cap) (ov := ov) (react := react)
  unfold subscriberSees subscriber
  rw [p.final_run hl, p.final_run hl]
  obtain ⟨u, hu⟩ := trans_prefix p (List.prefix_append cs t)
  rw [← hu, Obs.run_append]
  exact evsOf_prefix (run_log cap ov react u _)

/-- A history up to the first disposal. -/
theorem split_kill (ls : List Lbl) :
    (∃ n, ls = List.replicate n .run) ∨ ∃ n ls', ls = List.replicate n .run ++ .kill :: ls' := by
  induction ls with
  | nil => exact .inl ⟨0, rfl⟩
  | cons l ls ih =>
    cases l with
    | kill => exact .inr ⟨0, ls, rfl⟩
    | run =>
      rcases ih with ⟨n, rfl⟩ | ⟨n, ls', rfl⟩
      · exact .inl ⟨n + 1, rfl⟩
      · exact .inr ⟨n + 1, ls', rfl⟩

theorem dispose_evs (s : UserSt γ ε) : evsOf s.dispose.log = evsOf s.log := by
  unfold UserSt.dispose
  have : ∀ (ds : List Nat) (t : UserSt γ ε),
      evsOf (ds.foldl (fun s d => s.release d) t).log = evsOf t.log := by
    intro ds
    induction ds with
    | nil => intro t; rfl
    | cons d ds ih => intro t; rw [List.foldl_cons, ih, UserSt.evs_release]
  exact this s.ups { s with disposed := true }

theorem dispose_flag (s : UserSt γ ε) : s.dispose.disposed = true := by
  unfold UserSt.dispose
  have : ∀ (ds : List Nat) (t : UserSt γ ε),
      (ds.foldl (fun s d => s.release d) t).disposed = t.disposed := by
    intro ds
    induction ds with
    | nil => intro t; rfl
    | cons d ds ih => intro t; rw [List.foldl_cons, ih, UserSt.release_disposed]
  exact this s.ups { s with disposed := true }

theorem kills_evs (p : Pipe ε α γ) (ls : List Lbl) : ∀ s : p.State (UserSt γ ε),
    evsOf (p.final (kills (p.mapFinal UserSt.dispose) s ls)).log = evsOf (p.final s).log := by
  induction ls with
  | nil => intro s; rfl
  | cons l ls ih =>
    intro s
    cases l with
    | run => exact ih s
    | kill =>
      show evsOf (p.final (kills _ (p.mapFinal UserSt.dispose s) ls)).log = _
      rw [ih, final_mapFinal, dispose_evs]

theorem kill_disposes (cap : Option Nat) (ov : ε) (react : List (Call γ ε) → Reaction ε) (p : Pipe ε α γ)
    (s : p.State (UserSt γ ε)) :
    (p.lift (userObs cap ov react)).isDisposed (p.mapFinal UserSt.dispose s) = true := by
  rw [lift_isDisposed, final_mapFinal, userObs_isDisposed, dispose_flag]

end From

/-! ## C66 -/

variable (cap : Option Nat) (ov : ε) (react : List (Call γ ε) → Reaction ε) (p : Pipe ε α γ) (c : Cont α ε)

/-- C66, immediate: left alone, the loop terminates and the subscriber sees the whole contents of the
container in order and then completion (through the operators, and cut where a callback disposes). -/
theorem C66_immediate (hp : p.WF) (hfit : Fits cap p.finals.length) (n : Nat) (hn : 2 * c.length + 1 ≤ n) :
    immediateSees cap ov react p c (List.replicate n .run) =
      deliver react [] (p.spec (contents c)).vals (p.spec (contents c)).fin := by
  have h := C04_pipeline cap ov react p hp (calls c) (by rw [upsOf_calls]; simpa using hfit)
  rw [traceOf_calls] at h
  rw [← h]
  unfold immediateSees iexec subscriberSees subscriber
  rw [iall (p.lift_lawful userObs_lawful) _ c n _ (by simp [imeas]; omega)]
  rfl

/-- C66, scheduled: the same on every scheduler, one task per value. -/
theorem C66_scheduled (hp : p.WF) (hfit : Fits cap p.finals.length) (n : Nat) (hn : c.length + 2 ≤ n) :
    scheduledSees cap ov react p c (List.replicate n .run) =
      deliver react [] (p.spec (contents c)).vals (p.spec (contents c)).fin := by
  have h := C04_pipeline cap ov react p hp (calls c) (by rw [upsOf_calls]; simpa using hfit)
  rw [traceOf_calls] at h
  rw [← h]
  unfold scheduledSees sexec subscriberSees subscriber
  rw [sall (p.lift_lawful userObs_lawful) _ c n _ (by simp [smeas]; omega)]
  rfl

/-- C66: both implementations leave any observer in the same state, whatever it is (not only
subscribers with enough room for their disposables). -/
theorem C66_same {σ : Type} (O : Obs α ε σ) (hO : Lawful O) (kill : σ → σ) (s : σ) (n m : Nat)
    (hn : 2 * c.length + 1 ≤ n) (hm : c.length + 2 ≤ m) :
    (iexec O kill c s (List.replicate n .run)).obs = (sexec O kill c s (List.replicate m .run)).obs := by
  unfold iexec sexec
  rw [iall hO _ c n _ (by simp [imeas]; omega), sall hO _ c m _ (by simp [smeas]; omega)]
  rfl

/-- C66: once the subscription is disposed, at whatever point of the loop, nothing more is shown. -/
theorem C66_immediate_stops (ls ls' : List Lbl) :
    immediateSees cap ov react p c (ls ++ .kill :: ls') = immediateSees cap ov react p c ls := by
  unfold immediateSees iexec
  rw [List.foldl_append, List.foldl_cons]
  rw [ikilled (p.lift_lawful userObs_lawful) (kill_disposes cap ov react p) c ls' _ (kill_disposes cap ov react p _)]
  rw [kills_evs]
  show evsOf (p.final (p.mapFinal UserSt.dispose _)).log = _
  rw [final_mapFinal, dispose_evs]

theorem C66_scheduled_stops (ls ls' : List Lbl) :
    scheduledSees cap ov react p c (ls ++ .kill :: ls') = scheduledSees cap ov react p c ls := by
  unfold scheduledSees sexec
  rw [List.foldl_append, List.foldl_cons]
  rw [skilled (p.lift_lawful userObs_lawful) (kill_disposes cap ov react p) c ls' _ (kill_disposes cap ov react p _)]
  rw [kills_evs]
  show evsOf (p.final (p.mapFinal UserSt.dispose _)).log = _
  rw [final_mapFinal, dispose_evs]

/-- C66: whenever and however often it is disposed, the subscriber sees a prefix of what it would have
seen undisturbed. -/
theorem C66_immediate_prefix (hp : p.WF) (hfit : Fits cap p.finals.length) (ls : List Lbl) :
    immediateSees cap ov react p c ls <+: deliver react [] (p.spec (contents c)).vals (p.spec (contents c)).fin := by
  have h := C04_pipeline cap ov react p hp (calls c) (by rw [upsOf_calls]; simpa using hfit)
  rw [traceOf_calls] at h
  rw [← h]
  have key : ∀ n, immediateSees cap ov react p c (List.replicate n .run) <+:
      subscriberSees cap ov react p (calls c) := by
    intro n
    obtain ⟨q, hq, he⟩ := iexec_pre (O := p.lift (userObs cap ov react)) (p.mapFinal UserSt.dispose) c
      (p.start (userObs cap ov react) {}) n
    unfold immediateSees
    rw [he]
    exact sees_mono cap ov react p hq
  rcases split_kill ls with ⟨n, rfl⟩ | ⟨n, ls', rfl⟩
  · exact key n
  · rw [C66_immediate_stops]; exact key n

theorem C66_scheduled_prefix (hp : p.WF) (hfit : Fits cap p.finals.length) (ls : List Lbl) :
    scheduledSees cap ov react p c ls <+: deliver react [] (p.spec (contents c)).vals (p.spec (contents c)).fin := by
  have h := C04_pipeline cap ov react p hp (calls c) (by rw [upsOf_calls]; simpa using hfit)
  rw [traceOf_calls] at h
  rw [← h]
  have key : ∀ n, scheduledSees cap ov react p c (List.replicate n .run) <+:
      subscriberSees cap ov react p (calls c) := by
    intro n
    obtain ⟨q, hq, he⟩ := sexec_pre (O := p.lift (userObs cap ov react)) (p.mapFinal UserSt.dispose) c
      (p.start (userObs cap ov react) {}) n
    unfold scheduledSees
    rw [he]
    exact sees_mono cap ov react p hq
  rcases split_kill ls with ⟨n, rfl⟩ | ⟨n, ls', rfl⟩
  · exact key n
  · rw [C66_scheduled_stops]; exact key n

/-- C66, spelled out for a plain subscriber: `just(v1, …, vk)` gives `v1 … vk` and completion. -/
theorem C66_just (vs : List α) (n : Nat) (hn : 2 * vs.length + 2 ≤ n) :
    immediateSees none ov (fun _ => {}) .nil (vs.map .ok) (List.replicate n .run)
        = vs.map .next ++ [.completed] ∧
    scheduledSees none ov (fun _ => {}) .nil (vs.map .ok) (List.replicate n .run)
        = vs.map .next ++ [.completed] := by
  have hc : contents (vs.map Except.ok : Cont α ε) = ⟨vs, some .completed⟩ := by
    clear hn
    induction vs with
    | nil => rfl
    | cons v vs ih => simp [contents, ih]
  have hd : ∀ h, deliver (ε := ε) (fun _ => {}) h vs (some .completed) = h ++ (vs.map .next ++ [.completed]) := by
    clear hn hc
    induction vs with
    | nil => intro h; rfl
    | cons v vs ih => intro h; simp [deliver, ih]
  refine ⟨?_, ?_⟩
  · rw [C66_immediate none ov _ .nil _ (by simp [Pipe.WF]) (fun _ h => by cases h) n (by simp only [List.length_map]; omega)]
    simp only [Pipe.spec, hc]; exact hd []
  · rw [C66_scheduled none ov _ .nil _ (by simp [Pipe.WF]) (fun _ h => by cases h) n (by simp only [List.length_map]; omega)]
    simp only [Pipe.spec, hc]; exact hd []

/-- The loop looks at no element after the subscriber disposed itself: with a callback that disposes at
the second value, the third element (which cannot even be read) does not matter. -/
example : let react : List (Call Nat Nat) → Reaction Nat := fun h => { dispose := h.length == 2 }
    immediateSees none 0 react .nil [.ok 1, .ok 2, .error 9, .ok 4] (List.replicate 9 .run)
        = [.next 1, .next 2] ∧
    scheduledSees none 0 react .nil [.ok 1, .ok 2, .error 9, .ok 4] (List.replicate 9 .run)
        = [.next 1, .next 2] ∧
    scheduledSees none 0 (fun _ => {}) (.cons (.skip 1) .nil) [.ok 1, .ok 2, .error 9, .ok 4] (List.replicate 9 .run)
        = [Call.next 2, .error 9] ∧
    immediateSees none 0 (fun _ => {}) (.cons (.take 2) .nil) [.ok 1, .ok 2, .ok 3] (List.replicate 9 .run)
        = [Call.next 1, .next 2, .completed] ∧
    scheduledSees none 0 (fun _ => {}) .nil [.ok 1, .ok 2, .ok 3] [.run, .run, .kill, .run, .run]
        = [Call.next 1, .next (2 : Nat)] := by decide

end Rpp
