import Verif.Combine.SyncFlat

/-!
# C121: property theorems

`merge`, `concat` or `switch_on_next` (so also `flat_map`) over inner observables that hand over everything inside `subscribe`, behind it any chain of operators (`Pipe`) and callbacks that may dispose or throw (`react`).
`src k` is what inner observable `k` hands over; `upTo src m` are the values of the first `m` of them; `Enough react p l` says that the values `l` are all the subscriber needs; `n` is the number of inner observables, if there is an end.
-/

namespace Rpp

open SyncFlat
open SyncResub (upTo upTo_succ Enough finCalls)
open From (Lbl)

variable {α γ ε : Type} [DecidableEq α] [DecidableEq γ] [DecidableEq ε]

namespace SyncFlat

/-- A subscription to `from_iterable(observables, immediate) | merge() | p` and the like; put together from cited definitions. -/
def sub (kd : Kind) (cap : Option Nat) (ov : ε) (react : List (Call γ ε) → Reaction ε) (p : Pipe ε α γ) (n : Option Nat) (src : Nat → Trace α ε) (ls : List Lbl) : St α ε (p.State (UserSt γ ε)) :=
  exec kd (p.lift (userObs cap ov react)) (p.mapFinal UserSt.dispose) n src (p.start (userObs cap ov react) {}) ls

/-- What the callbacks were told; reads the model's state. -/
def sees {p : Pipe ε α γ} (s : St α ε (p.State (UserSt γ ε))) : List (Call γ ε) := evsOf (p.final s.obs).log

theorem over_sub {kd : Kind} {cap : Option Nat} {ov : ε} {react : List (Call γ ε) → Reaction ε} {p : Pipe ε α γ} (hp : p.WF) (hfit : Fits cap (p.finals.length + 1)) {n : Option Nat} {src : Nat → Trace α ε}
    {m : Nat} {l : List α} {f : Option (Term ε)}
    (h : ∃ k, Over (p.lift (userObs cap ov react)) ((p.lift (userObs cap ov react)).run ((p.lift (userObs cap ov react)).call (.up 0) (p.start (userObs cap ov react) {})) (l.map .next ++ finCalls f)) m
      ((List.replicate k Lbl.run).foldl (step kd (p.lift (userObs cap ov react)) (p.mapFinal UserSt.dispose) n src)
        (before (p.lift (userObs cap ov react)) ((p.lift (userObs cap ov react)).call (.up 0) (p.start (userObs cap ov react) {})) [] 0 0))) :
    ∃ t, ∀ t' ≥ t, let s := sub kd cap ov react p n src (List.replicate t' .run)
      s.pc = .done ∧ s.opened = m ∧ sees s = deliver react [] (p.spec ⟨l, f⟩).vals (p.spec ⟨l, f⟩).fin := by
  obtain ⟨k, h1, h2, h3⟩ := h
  refine ⟨k, fun t' ht' => ?_⟩
  intro s
  have hs : s = _ := exec_done ht' (show (exec kd (p.lift (userObs cap ov react)) (p.mapFinal UserSt.dispose) n src (p.start (userObs cap ov react) {}) (List.replicate k .run)).pc = .done from h1)
  rw [hs]
  refine ⟨h1, h2, ?_⟩
  have hsee := SyncResub.sees_fin (cap := cap) (ov := ov) react p hp hfit l f none 0
  unfold sees
  rw [← hsee]
  exact congrArg (fun o => evsOf (p.final o).log) h3

end SyncFlat

variable (kd : Kind) (cap : Option Nat) (ov : ε) (react : List (Call γ ε) → Reaction ε) (p : Pipe ε α γ)

/-- C121: if the values of the first `m` inner observables, and not of fewer, are all the subscriber needs, exactly these are subscribed to and the outer source's loop ends; the subscriber sees what the chain makes of these values. -/
theorem C121_enough (hp : p.WF) (hfit : Fits cap (p.finals.length + 1)) (n : Option Nat) (src : Nat → Trace α ε) (m : Nat) (hroom : SyncFlat.Room n m) (ha : ∀ i, i + 1 < m → Passes kd (src i).fin)
    (hm : Enough react p (upTo src m)) (hmin : ∀ k < m, ¬ Enough react p (upTo src k)) :
    ∃ t, ∀ t' ≥ t, let s := SyncFlat.sub kd cap ov react p n src (List.replicate t' .run)
      s.pc = .done ∧ s.opened = m ∧ SyncFlat.sees s = deliver react [] (p.spec ⟨upTo src m, none⟩).vals (p.spec ⟨upTo src m, none⟩).fin := by
  have hl : Lawful (p.lift (userObs cap ov react)) := Pipe.lift_lawful p userObs_lawful
  have hd := fun l => SyncResub.gone_iff (cap := cap) (ov := ov) react p hp hfit l
  apply over_sub hp hfit
  simp only [finCalls, List.append_nil]
  cases m with
  | zero => exact SyncFlat.looks_gone hl (t := SyncFlat.before _ _ [] 0 0) rfl ((hd []).trans hm)
  | succ m =>
    have h0 : _ = false := (hd (upTo src m)).trans (Bool.eq_false_iff.2 (hmin m (by omega)))
    obtain ⟨t, _, h1⟩ := SyncFlat.reaches (kd := kd) (kill := p.mapFinal UserSt.dispose) (n := n) hl m h0 (fun k hk => by have := hroom k hk; omega) (fun i hi => ha i (by omega))
    obtain ⟨t', h2⟩ := SyncFlat.stops (kd := kd) (kill := p.mapFinal UserSt.dispose) (n := n) (src := src) (lv := liveAfter kd src m) hl h0 (by rw [← upTo_succ]; exact (hd _).trans hm) hroom
      (fun h => by subst h; cases m <;> rfl)
    rw [← upTo_succ] at h2
    refine ⟨t + t', ?_⟩
    unfold Gets at h1
    rw [← List.replicate_append_replicate, List.foldl_append, h1]
    exact h2

/-- C121: an inner observable that fails ends everything with its error, after all values up to there. -/
theorem C121_error (hp : p.WF) (hfit : Fits cap (p.finals.length + 1)) (n : Option Nat) (src : Nat → Trace α ε) (m : Nat) (e : ε) (hroom : SyncFlat.Room n (m + 1)) (ha : ∀ i < m, Passes kd (src i).fin)
    (he : (src m).fin = some (.error e)) (hne : ¬ Enough react p (upTo src (m + 1))) :
    ∃ t, ∀ t' ≥ t, let s := SyncFlat.sub kd cap ov react p n src (List.replicate t' .run)
      s.pc = .done ∧ s.opened = m + 1 ∧ SyncFlat.sees s = deliver react [] (p.spec ⟨upTo src (m + 1), some (.error e)⟩).vals (p.spec ⟨upTo src (m + 1), some (.error e)⟩).fin := by
  have hl : Lawful (p.lift (userObs cap ov react)) := Pipe.lift_lawful p userObs_lawful
  have h0 : _ = false := (SyncResub.gone_iff (cap := cap) (ov := ov) react p hp hfit (upTo src (m + 1))).trans (Bool.eq_false_iff.2 hne)
  apply over_sub hp hfit
  rw [upTo_succ] at h0 ⊢
  obtain ⟨t, _, h1⟩ := SyncFlat.reaches (kd := kd) (kill := p.mapFinal UserSt.dispose) (n := n) hl m (SyncResub.not_gone hl h0) (fun k hk => by have := hroom k hk; omega) ha
  obtain ⟨t', h2⟩ := SyncFlat.fails (kd := kd) (kill := p.mapFinal UserSt.dispose) (n := n) (src := src) (lv := liveAfter kd src m) hl h0 hroom
    (fun h => by subst h; cases m <;> rfl) he
  refine ⟨t + t', ?_⟩
  unfold Gets at h1
  rw [← List.replicate_append_replicate, List.foldl_append, h1]
  exact h2

/-- C121: and if none fails, the subscriber sees all values, and is told of completion if and only if all inner observables have completed (for switch_on_next, the last one). -/
theorem C121_all (hp : p.WF) (hfit : Fits cap (p.finals.length + 1)) (src : Nat → Trace α ε) (m : Nat) (ha : ∀ i < m, Passes kd (src i).fin) (hne : ¬ Enough react p (upTo src m)) (f : Option (Term ε))
    (hf : AllEnd kd src m ∧ f = some .completed ∨ ¬ AllEnd kd src m ∧ f = none) :
    ∃ t, ∀ t' ≥ t, let s := SyncFlat.sub kd cap ov react p (some m) src (List.replicate t' .run)
      s.pc = .done ∧ s.opened = m ∧ SyncFlat.sees s = deliver react [] (p.spec ⟨upTo src m, f⟩).vals (p.spec ⟨upTo src m, f⟩).fin := by
  have hl : Lawful (p.lift (userObs cap ov react)) := Pipe.lift_lawful p userObs_lawful
  have h0 : _ = false := (SyncResub.gone_iff (cap := cap) (ov := ov) react p hp hfit (upTo src m)).trans (Bool.eq_false_iff.2 hne)
  apply over_sub hp hfit
  obtain ⟨t, _, h1⟩ := SyncFlat.reaches (kd := kd) (kill := p.mapFinal UserSt.dispose) (n := some m) hl m h0 (fun k hk => by cases hk; exact Nat.le_refl _) ha
  refine ⟨t + 1, ?_⟩
  unfold Gets at h1
  rw [← List.replicate_append_replicate, List.foldl_append, h1]
  rw [List.replicate_one, List.foldl_cons, List.foldl_nil]
  have hz := liveAfter_zero m ha
  rw [Obs.run_append]
  rcases hf with ⟨h, rfl⟩ | ⟨h, rfl⟩
  · simp only [SyncFlat.step, SyncFlat.before, if_true, outerEnd, hz.2 h, finCalls]
    exact ⟨rfl, rfl, rfl⟩
  · have hx : ¬ liveAfter kd src m = 0 := fun h' => h (hz.1 h')
    simp only [SyncFlat.step, SyncFlat.before, if_true, outerEnd, finCalls]
    exact ⟨rfl, rfl, if_neg hx⟩

/-- C121: with an outer source without an end the loop ends if and only if the values of finitely many inner observables are all the subscriber needs. -/
theorem C121_endless (hp : p.WF) (hfit : Fits cap (p.finals.length + 1)) (src : Nat → Trace α ε) (ha : ∀ i, Passes kd (src i).fin) :
    (∃ t, (SyncFlat.sub kd cap ov react p none src (List.replicate t .run)).pc = .done) ↔ ∃ m, Enough react p (upTo src m) := by
  classical
  have hl : Lawful (p.lift (userObs cap ov react)) := Pipe.lift_lawful p userObs_lawful
  have hroom : ∀ m, SyncFlat.Room none m := fun m k hk => by cases hk
  constructor
  · rintro ⟨t, h⟩
    apply Classical.byContradiction
    intro hx
    have h0 : _ = false := (SyncResub.gone_iff (cap := cap) (ov := ov) react p hp hfit (upTo src t)).trans (Bool.eq_false_iff.2 fun h => hx ⟨t, h⟩)
    obtain ⟨t', ht', h1⟩ := SyncFlat.reaches (kd := kd) (kill := p.mapFinal UserSt.dispose) (n := none) hl t h0 (hroom t) (fun i _ => ha i)
    have h2 : SyncFlat.sub kd cap ov react p none src (List.replicate t' .run) = _ := h1
    have := SyncFlat.exec_done ht' h
    unfold SyncFlat.sub at h2 h
    rw [h2] at this
    rw [← this] at h
    cases h
  · rintro ⟨m, hm⟩
    have hex : ∃ m, Enough react p (upTo src m) ∧ ∀ k < m, ¬ Enough react p (upTo src k) := by
      induction m using Nat.strongRecOn with
      | _ m ih =>
        by_cases h : ∃ k, k < m ∧ Enough react p (upTo src k)
        · obtain ⟨k, hk, hs⟩ := h; exact ih k hk hs
        · exact ⟨m, hm, fun k hk hs => h ⟨k, hk, hs⟩⟩
    obtain ⟨m, h1, h2⟩ := hex
    obtain ⟨t, h⟩ := C121_enough kd cap ov react p hp hfit none src m (hroom m) (fun i _ => ha i) h1 h2
    exact ⟨t, (h t (Nat.le_refl _)).1⟩

/-- C121: so the three operators show the same of inner observables that complete inside `subscribe`. -/
theorem C121_same (kd' : Kind) (hp : p.WF) (hfit : Fits cap (p.finals.length + 1)) (src : Nat → Trace α ε) (m : Nat) (ha : ∀ i < m, (src i).fin = some .completed) (hne : ¬ Enough react p (upTo src m)) :
    ∃ t, ∀ t' ≥ t, SyncFlat.sees (SyncFlat.sub kd cap ov react p (some m) src (List.replicate t' .run)) = SyncFlat.sees (SyncFlat.sub kd' cap ov react p (some m) src (List.replicate t' .run)) := by
  have hpass : ∀ kd i, i < m → Passes kd (src i).fin := fun kd i hi => by rw [ha i hi]; cases kd <;> simp [Passes]
  have hall : ∀ kd, AllEnd kd src m := fun kd => by
    cases kd
    · exact ha
    · exact ha
    · exact fun i hi => ha i (by omega)
  obtain ⟨t, h⟩ := C121_all kd cap ov react p hp hfit src m (hpass kd) hne _ (.inl ⟨hall kd, rfl⟩)
  obtain ⟨t', h'⟩ := C121_all kd' cap ov react p hp hfit src m (hpass kd') hne _ (.inl ⟨hall kd', rfl⟩)
  exact ⟨max t t', fun t'' ht'' => (h t'' (by omega)).2.2.trans (h' t'' (by omega)).2.2.symm⟩

/-- C121: behind an inner observable that does not end, concat puts every further one into its queue, for ever, and the loop of an endless outer source does not end although the subscriber sees no more. -/
theorem C121_concat_queue (hp : p.WF) (hfit : Fits cap (p.finals.length + 1)) (src : Nat → Trace α ε) (m : Nat) (ha : ∀ i < m, (src i).fin = some .completed) (hn : (src m).fin = none)
    (hne : ¬ Enough react p (upTo src (m + 1))) (k : Nat) :
    ∃ t, let s := SyncFlat.sub .concat cap ov react p none src (List.replicate t .run)
      s.pc = .look ∧ s.queued = k ∧ SyncFlat.sees s = deliver react [] (p.spec ⟨upTo src (m + 1), none⟩).vals (p.spec ⟨upTo src (m + 1), none⟩).fin := by
  have hl : Lawful (p.lift (userObs cap ov react)) := Pipe.lift_lawful p userObs_lawful
  have h0 : _ = false := (SyncResub.gone_iff (cap := cap) (ov := ov) react p hp hfit (upTo src (m + 1))).trans (Bool.eq_false_iff.2 hne)
  have hsee := SyncResub.sees_fin (cap := cap) (ov := ov) react p hp hfit (upTo src (m + 1)) none none 0
  simp only [finCalls, List.append_nil] at hsee
  rw [upTo_succ] at h0 hsee ⊢
  obtain ⟨t, _, h1⟩ := SyncFlat.reaches (kd := .concat) (kill := p.mapFinal UserSt.dispose) (n := none) hl m (SyncResub.not_gone hl h0) (fun k hk => by cases hk) ha
  have h2 := h1.trans (SyncFlat.arrives (kd := .concat) (kill := p.mapFinal UserSt.dispose) (n := none) (src := src) hl h0 (fun k hk => by cases hk) (fun _ => by cases m <;> rfl))
  rw [hn] at h2
  have h3 := h2.trans (Gets.one (show _ = { SyncFlat.within (p.lift (userObs cap ov react)) ((p.lift (userObs cap ov react)).call (.up 0) (p.start (userObs cap ov react) {})) (upTo src m ++ (src m).vals) (m + 1) (lives .concat (liveAfter .concat src m)) [] none with pc := .look } by
    simp only [SyncFlat.within, SyncFlat.step, h0, Bool.false_eq_true, if_false]))
  have h4 := h3.trans (queues rfl (by show ¬ (1 = 0); omega) h0 k)
  refine ⟨t + (2 + (src m).vals.length) + 1 + 2 * k, ?_⟩
  intro s
  have hs : s = _ := h4
  rw [hs]
  exact ⟨rfl, Nat.zero_add k, hsee⟩

/-- C121: once the subscription is disposed of, at any moment, at most one more inner observable is subscribed to, and the subscriber sees nothing more. -/
theorem C121_killed (n : Option Nat) (src : Nat → Trace α ε) (ls ls' : List Lbl) :
    (SyncFlat.sub kd cap ov react p n src (ls ++ .kill :: ls')).opened ≤ (SyncFlat.sub kd cap ov react p n src ls).opened + 1 ∧
    SyncFlat.sees (SyncFlat.sub kd cap ov react p n src (ls ++ .kill :: ls')) = SyncFlat.sees (SyncFlat.sub kd cap ov react p n src ls) := by
  have hl : Lawful (p.lift (userObs cap ov react)) := Pipe.lift_lawful p userObs_lawful
  have hkd := From.kill_disposes cap ov react p
  have hke : ∀ o : p.State (UserSt γ ε), evsOf (p.final (p.mapFinal UserSt.dispose o)).log = evsOf (p.final o).log := fun o => by
    rw [Pipe.final_mapFinal]; exact (UserSt.dispose_facts _).1
  have key : ∀ (ls' : List Lbl) (s : SyncFlat.St α ε (p.State (UserSt γ ε))) N, (p.lift (userObs cap ov react)).isDisposed s.obs = true →
      (s.opened ≤ N ∨ s.opened = N + 1 ∧ s.pc ≠ .give) →
      (ls'.foldl (SyncFlat.step kd (p.lift (userObs cap ov react)) (p.mapFinal UserSt.dispose) n src) s).opened ≤ N + 1 ∧
      SyncFlat.sees (ls'.foldl (SyncFlat.step kd (p.lift (userObs cap ov react)) (p.mapFinal UserSt.dispose) n src) s) = SyncFlat.sees s := by
    intro ls'
    induction ls' with
    | nil => intro s N _ h; exact ⟨by rcases h with h | h <;> simp only [List.foldl_nil] <;> omega, rfl⟩
    | cons l ls' ih =>
      intro s N hd h
      rw [List.foldl_cons]
      cases l with
      | kill =>
        have := ih { s with obs := p.mapFinal UserSt.dispose s.obs } N (hkd _) h
        exact ⟨this.1, this.2.trans (hke s.obs)⟩
      | run =>
        rcases s with ⟨o, pc, nx, op, q, lv⟩
        dsimp only at hd h
        have hop : op ≤ N + 1 := by rcases h with h | h <;> omega
        have hg : ∀ pc' : SyncFlat.Pc α ε, pc' ≠ .give → op ≤ N ∨ op = N + 1 ∧ pc' ≠ .give := fun pc' h' => by
          rcases h with h | h
          · exact .inl h
          · exact .inr ⟨h.1, h'⟩
        cases pc with
        | done => exact ih _ N hd h
        | look =>
          by_cases hn : n = some nx
          · have he : outerEnd (p.lift (userObs cap ov react)) { obs := o, pc := .look, next := nx, opened := op, queued := q, live := lv } = o := by
              unfold outerEnd
              split
              · exact hl.run_disposed [.completed] _ hd
              · rfl
            simp only [SyncFlat.step, if_pos hn, he]
            exact ih { obs := o, pc := .done, next := nx, opened := op, queued := q, live := lv } N hd (hg _ (by intro h; cases h))
          · simp only [SyncFlat.step, if_neg hn, hd, if_true]
            exact ih { obs := o, pc := .done, next := nx, opened := op, queued := q, live := lv } N hd (hg _ (by intro h; cases h))
        | give =>
          have h1 : op ≤ N := by
            rcases h with h | ⟨_, h⟩
            · exact h
            · exact absurd rfl h
          have h2 : ∀ pc' : SyncFlat.Pc α ε, pc' ≠ .give → op + 1 ≤ N ∨ op + 1 = N + 1 ∧ pc' ≠ .give := fun pc' h' => by
            rcases Nat.lt_or_ge op N with h | h
            · exact .inl h
            · exact .inr ⟨by omega, h'⟩
          simp only [SyncFlat.step]
          cases kd with
          | merge => exact ih { obs := o, pc := .item (src nx).vals (src nx).fin, next := nx + 1, opened := op + 1, queued := q, live := lv + 1 } N hd (h2 _ (by intro h; cases h))
          | switch => exact ih { obs := o, pc := .item (src nx).vals (src nx).fin, next := nx + 1, opened := op + 1, queued := q, live := 1 } N hd (h2 _ (by intro h; cases h))
          | concat =>
            simp only [SyncFlat.give]
            split
            · exact ih { obs := o, pc := .item (src nx).vals (src nx).fin, next := nx + 1, opened := op + 1, queued := q, live := 1 } N hd (h2 _ (by intro h; cases h))
            · exact ih { obs := o, pc := .look, next := nx + 1, opened := op, queued := q + 1, live := lv } N hd (.inl h1)
        | item r f =>
          have e : SyncFlat.step kd (p.lift (userObs cap ov react)) (p.mapFinal UserSt.dispose) n src { obs := o, pc := .item r f, next := nx, opened := op, queued := q, live := lv } .run
              = { obs := o, pc := .look, next := nx, opened := op, queued := q, live := lv } := by cases r <;> simp only [SyncFlat.step, hd, if_true]
          rw [e]
          exact ih { obs := o, pc := .look, next := nx, opened := op, queued := q, live := lv } N hd (hg _ (by intro h; cases h))
  unfold SyncFlat.sub SyncFlat.exec
  rw [List.foldl_append, List.foldl_cons]
  have := key ls' (SyncFlat.step kd (p.lift (userObs cap ov react)) (p.mapFinal UserSt.dispose) n src (ls.foldl (SyncFlat.step kd (p.lift (userObs cap ov react)) (p.mapFinal UserSt.dispose) n src)
    { obs := (p.lift (userObs cap ov react)).call (.up 0) (p.start (userObs cap ov react) {}) }) .kill) _ (hkd _) (.inl (Nat.le_refl _))
  exact ⟨this.1, this.2.trans (hke _)⟩

/-- `from_iterable(0, 1, 2, …) | flat_map(k -> just(k, k)) | take(3)`. -/
example : let s := SyncFlat.sub (ε := Unit) .merge none () (fun _ => {}) (.cons (.take 3) .nil) none (fun k => ⟨[k, k], some .completed⟩) (List.replicate 20 .run)
    s.opened = 2 ∧ SyncFlat.sees s = [.next 0, .next 0, .next 1, .completed] := by decide

example : Enough (ε := Unit) (fun _ => {}) (.cons (.take 3) .nil) (upTo (ε := Unit) (fun k => ⟨[k, k], some .completed⟩) 2) ∧
    ∀ k < 2, ¬ Enough (ε := Unit) (fun _ => {}) (.cons (.take 3) .nil) (upTo (ε := Unit) (fun k => ⟨[k, k], some .completed⟩) k) := by
  refine ⟨rfl, fun k hk => ?_⟩
  match k, hk with
  | 0, _ => exact Bool.false_ne_true
  | 1, _ => exact Bool.false_ne_true

/-- An inner observable that does not end: merge and switch_on_next go on, concat does not; only switch_on_next completes. -/
example : let src : Nat → Trace Nat Unit := fun k => ⟨[k], if k = 0 then none else some .completed⟩
    SyncFlat.sees (SyncFlat.sub .merge none () (fun _ => {}) (.nil : Pipe Unit Nat Nat) (some 2) src (List.replicate 20 .run)) = [.next 0, .next 1] ∧
    SyncFlat.sees (SyncFlat.sub .switch none () (fun _ => {}) (.nil : Pipe Unit Nat Nat) (some 2) src (List.replicate 20 .run)) = [.next 0, .next 1, .completed] ∧
    SyncFlat.sees (SyncFlat.sub .concat none () (fun _ => {}) (.nil : Pipe Unit Nat Nat) (some 2) src (List.replicate 20 .run)) = [.next 0] := by decide

/-- An error of the second inner observable. -/
example : let s := SyncFlat.sub (ε := Nat) .switch none 0 (fun _ => {}) (.nil : Pipe Nat Nat Nat) none (fun k => ⟨[k], if k = 1 then some (.error 7) else some .completed⟩) (List.replicate 30 .run)
    s.opened = 2 ∧ SyncFlat.sees s = [.next 0, .next 1, .error 7] := by decide

end Rpp
