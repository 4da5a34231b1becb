import Verif.Resub.Sync

/-!
# C120: property theorems

`concat` / `repeat` / `retry` over observables that hand over everything inside `subscribe`, behind them any chain of operators (`Pipe`) and callbacks that may dispose or throw (`react`).  `src k` is what subscription
number `k` hands over; `upTo src m` are the values of the first `m` subscriptions; `Enough react p l` says that the values `l` are all the subscriber needs; `Again kd f` says that the operator subscribes again after the end `f`.
-/

namespace Rpp

open SyncResub
open From (Lbl)

variable {α γ ε : Type} [DecidableEq α] [DecidableEq γ] [DecidableEq ε]

namespace SyncResub

/-- A subscription to `concat(…) | p`, `repeat(…) | p` or `retry(…) | p`; put together from cited definitions. -/
def sub (kd : Kind) (cap : Option Nat) (ov : ε) (react : List (Call γ ε) → Reaction ε) (p : Pipe ε α γ) (n : Option Nat) (src : Nat → Trace α ε) (ls : List Lbl) : St α ε (p.State (UserSt γ ε)) :=
  exec kd (p.lift (userObs cap ov react)) (p.mapFinal UserSt.dispose) n src (p.start (userObs cap ov react) {}) ls

/-- What the callbacks were told; reads the model's state. -/
def sees {p : Pipe ε α γ} (s : St α ε (p.State (UserSt γ ε))) : List (Call γ ε) := evsOf (p.final s.obs).log

section
variable {cap : Option Nat} {ov : ε}

omit [DecidableEq α] [DecidableEq ε] in
theorem trace_up (cs : List (Call α ε)) : traceOf (.up 0 :: cs) = traceOf cs := rfl

omit [DecidableEq α] [DecidableEq ε] in
theorem trace_fin (l : List α) (f : Option (Term ε)) : traceOf (l.map .next ++ finCalls f) = ⟨l, f⟩ ∧ upsOf (l.map .next ++ finCalls f : List (Call α ε)) = [] := by
  induction l with
  | nil => rcases f with _ | e | _ <;> exact ⟨rfl, rfl⟩
  | cons a l ih => exact ⟨by rw [List.map_cons, List.cons_append, traceOf_next, ih.1], ih.2⟩

/-- Whether the loop finds its observer disposed. -/
theorem gone_iff (react : List (Call γ ε) → Reaction ε) (p : Pipe ε α γ) (hp : p.WF) (hfit : Fits cap (p.finals.length + 1)) (l : List α) :
    (p.lift (userObs cap ov react)).isDisposed ((p.lift (userObs cap ov react)).run ((p.lift (userObs cap ov react)).call (.up 0) (p.start (userObs cap ov react) {})) (l.map .next))
      = Endless.enough react [] (p.spec ⟨l, none⟩).vals (p.spec ⟨l, none⟩).fin := by
  have ht := trace_fin (ε := ε) l none
  simp only [finCalls, List.append_nil] at ht
  have h : (p.lift (userObs cap ov react)).run ((p.lift (userObs cap ov react)).call (.up 0) (p.start (userObs cap ov react) {})) (l.map .next)
      = (p.lift (userObs cap ov react)).run (p.start (userObs cap ov react) {}) (.up 0 :: l.map .next) := rfl
  have hu : upsOf (.up 0 :: l.map .next : List (Call α ε)) = 0 :: upsOf (l.map .next : List (Call α ε)) := rfl
  rw [h, Pipe.isDisposed_final, userObs_isDisposed, Pipe.final_run userObs_lawful {} p, Endless.user_enough (p.trans _) {} rfl (by rw [Pipe.upsOf_trans, hu, ht.2]; simpa using hfit),
    Pipe.trans_spec p hp, trace_up, ht.1]
  rfl

/-- What the callbacks see of values and an end. -/
theorem sees_fin (react : List (Call γ ε) → Reaction ε) (p : Pipe ε α γ) (hp : p.WF) (hfit : Fits cap (p.finals.length + 1)) (l : List α) (f : Option (Term ε)) (lim : Option Nat) (m : Nat) :
    sees (after (p.lift (userObs cap ov react)) lim ((p.lift (userObs cap ov react)).call (.up 0) (p.start (userObs cap ov react) {})) (l.map .next ++ finCalls f) m)
      = deliver react [] (p.spec ⟨l, f⟩).vals (p.spec ⟨l, f⟩).fin := by
  have ht := trace_fin l f
  have hu : upsOf (.up 0 :: (l.map .next ++ finCalls f) : List (Call α ε)) = 0 :: upsOf (l.map .next ++ finCalls f) := rfl
  have h := C04_pipeline cap ov react p hp (.up 0 :: (l.map .next ++ finCalls f)) (by rw [hu, ht.2]; simpa using hfit)
  rw [trace_up, ht.1] at h
  exact h

end

end SyncResub

variable (kd : Kind) (cap : Option Nat) (ov : ε) (react : List (Call γ ε) → Reaction ε) (p : Pipe ε α γ)

/-- C120: if the values of the first `m` subscriptions, and not of fewer, are all the subscriber needs, the operator subscribes `m` times and its loop ends; the subscriber sees what the chain makes of these values. -/
theorem C120_enough (hp : p.WF) (hfit : Fits cap (p.finals.length + 1)) (n : Option Nat) (src : Nat → Trace α ε) (m : Nat) (hroom : Room kd n m) (ha : ∀ i, i + 1 < m → Again kd (src i).fin)
    (hm : Enough react p (upTo src m)) (hmin : ∀ k < m, ¬ Enough react p (upTo src k)) :
    ∃ t, ∀ t' ≥ t, let s := sub kd cap ov react p n src (List.replicate t' .run)
      s.pc = .done ∧ s.opened = m ∧ sees s = deliver react [] (p.spec ⟨upTo src m, none⟩).vals (p.spec ⟨upTo src m, none⟩).fin := by
  have hl : Lawful (p.lift (userObs cap ov react)) := Pipe.lift_lawful p userObs_lawful
  have hd := fun l => gone_iff (cap := cap) (ov := ov) react p hp hfit l
  have hsee := sees_fin (cap := cap) (ov := ov) react p hp hfit (upTo src m) none (limit kd n) m
  simp only [finCalls, List.append_nil] at hsee
  suffices h : ∃ t, Gets kd (p.lift (userObs cap ov react)) (p.mapFinal UserSt.dispose) src t
      (before (p.lift (userObs cap ov react)) (limit kd n) ((p.lift (userObs cap ov react)).call (.up 0) (p.start (userObs cap ov react) {})) [] 0)
      (after (p.lift (userObs cap ov react)) (limit kd n) ((p.lift (userObs cap ov react)).call (.up 0) (p.start (userObs cap ov react) {})) ((upTo src m).map .next) m) by
    obtain ⟨t, h⟩ := h
    rw [exec_gets] at h
    refine ⟨t, fun t' ht' => ?_⟩
    unfold sub
    intro s
    have hs : s = _ := (exec_done ht' (by rw [h]; rfl)).trans h
    rw [hs]
    exact ⟨rfl, rfl, hsee⟩
  cases m with
  | zero =>
    refine ⟨1, Gets.one ?_⟩
    have h0 := (hd []).trans hm
    simp only [step, before, h0, if_true]
    rfl
  | succ m =>
    have h0 : _ = false := (hd (upTo src m)).trans (Bool.eq_false_iff.2 (hmin m (by omega)))
    obtain ⟨t, _, h1⟩ := reaches (kill := p.mapFinal UserSt.dispose) (lim := limit kd n) hl m h0 (fun k hk => by have := hroom k hk; omega) (fun i hi => ha i (by omega))
      (fun _ hk => by have := hroom m hk; omega)
    obtain ⟨t', h2⟩ := stops (kd := kd) (kill := p.mapFinal UserSt.dispose) (src := src) hl h0 (by rw [← upTo_succ]; exact (hd _).trans hm) (fun k hk => by have := hroom k hk; omega)
    rw [← upTo_succ] at h2
    exact ⟨t + t', h1.trans h2⟩

/-- C120: otherwise, if subscription `m` ends in a way after which the operator does not subscribe again (or was the last one `retry` may make), the loop ends, and the subscriber sees all values up to there and this end. -/
theorem C120_passes_end (hp : p.WF) (hfit : Fits cap (p.finals.length + 1)) (n : Option Nat) (src : Nat → Trace α ε) (m : Nat) (hroom : Room kd n (m + 1)) (ha : ∀ i < m, Again kd (src i).fin)
    (hend : ¬ Again kd (src m).fin ∨ kd = .retry ∧ n = some m) (hne : ¬ Enough react p (upTo src (m + 1))) :
    ∃ t, ∀ t' ≥ t, let s := sub kd cap ov react p n src (List.replicate t' .run)
      s.pc = .done ∧ s.opened = m + 1 ∧ sees s = deliver react [] (p.spec ⟨upTo src (m + 1), (src m).fin⟩).vals (p.spec ⟨upTo src (m + 1), (src m).fin⟩).fin := by
  have hl : Lawful (p.lift (userObs cap ov react)) := Pipe.lift_lawful p userObs_lawful
  have h0 : _ = false := (gone_iff (cap := cap) (ov := ov) react p hp hfit (upTo src (m + 1))).trans (Bool.eq_false_iff.2 hne)
  have hsee := sees_fin (cap := cap) (ov := ov) react p hp hfit (upTo src (m + 1)) (src m).fin (limit kd n) (m + 1)
  rw [upTo_succ] at h0 hsee ⊢
  obtain ⟨t, _, h1⟩ := reaches (kill := p.mapFinal UserSt.dispose) (lim := limit kd n) hl m (not_gone hl h0) (fun k hk => by have := hroom k hk; omega) ha
    (fun _ hk => by have := hroom m hk; omega)
  obtain ⟨t', h2⟩ := last_round (kd := kd) (kill := p.mapFinal UserSt.dispose) (lim := limit kd n) (src := src) hl h0 (fun k hk => by have := hroom k hk; omega)
    (hend.imp id fun ⟨h, h'⟩ => ⟨h, by rw [h, h']; rfl⟩)
  have h := h1.trans h2
  rw [exec_gets] at h
  refine ⟨t + t', fun t'' ht' => ?_⟩
  unfold sub
  intro s
  have hs : s = _ := (exec_done ht' (by rw [h]; rfl)).trans h
  rw [hs]
  exact ⟨rfl, rfl, hsee⟩

/-- C120: and if all `m` observables of concat complete, so does concat. -/
theorem C120_completes (hp : p.WF) (hfit : Fits cap (p.finals.length + 1)) (src : Nat → Trace α ε) (m : Nat) (ha : ∀ i < m, (src i).fin = some .completed) (hne : ¬ Enough react p (upTo src m)) :
    ∃ t, ∀ t' ≥ t, let s := sub .concat cap ov react p (some m) src (List.replicate t' .run)
      s.pc = .done ∧ s.opened = m ∧ sees s = deliver react [] (p.spec ⟨upTo src m, some .completed⟩).vals (p.spec ⟨upTo src m, some .completed⟩).fin := by
  have hl : Lawful (p.lift (userObs cap ov react)) := Pipe.lift_lawful p userObs_lawful
  have h0 : _ = false := (gone_iff (cap := cap) (ov := ov) react p hp hfit (upTo src m)).trans (Bool.eq_false_iff.2 hne)
  have hsee := sees_fin (cap := cap) (ov := ov) react p hp hfit (upTo src m) (some .completed) (some m) m
  obtain ⟨t, _, h1⟩ := reaches (kd := .concat) (kill := p.mapFinal UserSt.dispose) (lim := some m) hl m h0 (fun k hk => by cases hk; exact Nat.le_refl _) ha (fun h => by cases h)
  have h := h1.trans (runs_out h0 rfl)
  rw [show some m = limit .concat (some m) from rfl, exec_gets] at h
  refine ⟨t + 1, fun t'' ht' => ?_⟩
  unfold sub
  intro s
  have hs : s = _ := (exec_done ht' (by rw [h]; rfl)).trans h
  rw [hs]
  exact ⟨rfl, rfl, hsee⟩

/-- C120: an operator without a limit (`repeat()`, `retry()`, concat of endless containers) whose observables all make it subscribe again comes to an end if and only if the values of finitely many subscriptions are all the
subscriber needs. -/
theorem C120_endless (hp : p.WF) (hfit : Fits cap (p.finals.length + 1)) (src : Nat → Trace α ε) (ha : ∀ i, Again kd (src i).fin) :
    (∃ t, (sub kd cap ov react p none src (List.replicate t .run)).pc = .done) ↔ ∃ m, Enough react p (upTo src m) := by
  classical
  have hl : Lawful (p.lift (userObs cap ov react)) := Pipe.lift_lawful p userObs_lawful
  have hroom : ∀ m, Room kd none m := fun m k hk => by cases kd <;> cases hk
  constructor
  · rintro ⟨t, h⟩
    apply Classical.byContradiction
    intro hx
    have h0 : _ = false := (gone_iff (cap := cap) (ov := ov) react p hp hfit (upTo src t)).trans (Bool.eq_false_iff.2 fun h => hx ⟨t, h⟩)
    obtain ⟨t', ht', h1⟩ := reaches (kill := p.mapFinal UserSt.dispose) (lim := limit kd none) hl t h0 (hroom t) (fun i _ => ha i) (fun _ hk => by cases kd <;> cases hk)
    rw [exec_gets] at h1
    unfold sub at h
    have := exec_done ht' h
    rw [h1] at this
    rw [← this] at h
    cases h
  · rintro ⟨m, hm⟩
    have hex : ∃ m, Enough react p (upTo src m) ∧ ∀ k < m, ¬ Enough react p (upTo src k) := by
      induction m using Nat.strongRecOn with
      | _ m ih =>
        by_cases h : ∃ k, k < m ∧ Enough react p (upTo src k)
        · obtain ⟨k, hk, hs⟩ := h; exact ih k hk hs
        · exact ⟨m, hm, fun k hk hs => h ⟨k, hk, hs⟩⟩
    obtain ⟨m, h1, h2⟩ := hex
    obtain ⟨t, h⟩ := C120_enough kd cap ov react p hp hfit none src m (hroom m) (fun i _ => ha i) h1 h2
    exact ⟨t, (h t (Nat.le_refl _)).1⟩

/-- C120: if every subscription hands over a value, a chain that begins with `take(n)` stops it. -/
theorem C120_take (hp : p.WF) (hfit : Fits cap ((Pipe.cons (.take n) p).finals.length + 1)) (src : Nat → Trace α ε) (ha : ∀ i, Again kd (src i).fin) (hv : ∀ i, (src i).vals ≠ []) :
    ∃ t, (sub kd cap ov react (.cons (.take n) p) none src (List.replicate t .run)).pc = .done := by
  refine (C120_endless kd cap ov react (.cons (.take n) p) ⟨trivial, hp⟩ hfit src ha).2 ⟨max 1 n, ?_⟩
  have hlen : ∀ m, m ≤ (upTo src m).length := by
    intro m
    induction m with
    | zero => exact Nat.zero_le _
    | succ m ih =>
      rw [upTo_succ, List.length_append]
      have := List.length_pos_iff.2 (hv m)
      omega
  apply Endless.enough_fin
  refine Endless.pipe_fin p (Spec.take n ⟨upTo src (max 1 n), none⟩) ?_
  simp only [Spec.take]
  rw [if_pos (hlen _)]
  rfl

/-- C120: if no subscription hands over a value, nothing a later operator or the callbacks do can stop it: `empty() | repeat() | take(1)` never returns. -/
theorem C120_spins (hp : p.WF) (hfit : Fits cap (p.finals.length + 1)) (src : Nat → Trace α ε) (ha : ∀ i, Again kd (src i).fin) (hv : ∀ i, (src i).vals = []) (h0 : ¬ Enough react p []) (t : Nat) :
    (sub kd cap ov react p none src (List.replicate t .run)).pc ≠ .done := by
  intro h
  obtain ⟨m, hm⟩ := (C120_endless kd cap ov react p hp hfit src ha).1 ⟨t, h⟩
  have : upTo src m = [] := by simp [upTo, hv]
  rw [this] at hm
  exact h0 hm

/-- C120: once the subscription is disposed of, at any moment, there is at most one more subscription to an observable. -/
theorem C120_killed (n : Option Nat) (src : Nat → Trace α ε) (ls ls' : List Lbl) :
    (sub kd cap ov react p n src (ls ++ .kill :: ls')).opened ≤ (sub kd cap ov react p n src ls).opened + 1 ∧
    sees (sub kd cap ov react p n src (ls ++ .kill :: ls')) = sees (sub kd cap ov react p n src ls) := by
  have hl : Lawful (p.lift (userObs cap ov react)) := Pipe.lift_lawful p userObs_lawful
  have hkd := From.kill_disposes cap ov react p
  have hke : ∀ o : p.State (UserSt γ ε), evsOf (p.final (p.mapFinal UserSt.dispose o)).log = evsOf (p.final o).log := fun o => by
    rw [Pipe.final_mapFinal]; exact (UserSt.dispose_facts _).1
  have key : ∀ (ls' : List Lbl) (s : St α ε (p.State (UserSt γ ε))) N, (p.lift (userObs cap ov react)).isDisposed s.obs = true →
      (s.opened ≤ N ∨ s.opened = N + 1 ∧ (s.pc = .done ∨ s.inside = true ∧ (s.pc = .back ∨ ∃ r f, s.pc = .item r f))) →
      (ls'.foldl (step kd (p.lift (userObs cap ov react)) (p.mapFinal UserSt.dispose) src) s).opened ≤ N + 1 ∧
      sees (ls'.foldl (step kd (p.lift (userObs cap ov react)) (p.mapFinal UserSt.dispose) src) s) = sees s := by
    intro ls'
    induction ls' with
    | nil => intro s N _ h; exact ⟨by rcases h with h | h <;> simp only [List.foldl_nil] <;> omega, rfl⟩
    | cons l ls' ih =>
      intro s N hd h
      rw [List.foldl_cons]
      cases l with
      | kill =>
        have := ih { s with obs := p.mapFinal UserSt.dispose s.obs } N (hkd _) h
        exact ⟨this.1, this.2.trans (hke s.obs)⟩
      | run =>
        rcases s with ⟨o, pc, lf, op, ins⟩
        dsimp only at hd h
        cases pc with
        | done => exact ih _ N hd h
        | test =>
          simp only [step, hd, if_true]
          exact ih { obs := o, pc := .done, left := lf, opened := op, inside := ins } N hd (by rcases h with h | ⟨h, h' | h' | h'⟩ <;> simp_all)
        | «open» =>
          have h1 : op ≤ N := by rcases h with h | ⟨h, h' | h' | h'⟩ <;> simp_all
          exact ih { obs := o, pc := .item (src op).vals (src op).fin, left := lf.map (· - 1), opened := op + 1, inside := true } N hd (by
            rcases Nat.lt_or_ge op N with h | h
            · exact .inl h
            · exact .inr ⟨by dsimp only; omega, .inr ⟨rfl, .inr ⟨_, _, rfl⟩⟩⟩)
        | item r f =>
          have e : step kd (p.lift (userObs cap ov react)) (p.mapFinal UserSt.dispose) src { obs := o, pc := .item r f, left := lf, opened := op, inside := ins } .run
              = { obs := o, pc := .back, left := lf, opened := op, inside := ins } := by cases r <;> simp only [step, hd, if_true]
          rw [e]
          exact ih { obs := o, pc := .back, left := lf, opened := op, inside := ins } N hd (by
            rcases h with h | ⟨h, h' | ⟨h', _⟩⟩
            · exact .inl h
            · cases h'
            · exact .inr ⟨h, .inr ⟨h', .inl rfl⟩⟩)
        | back =>
          cases ins with
          | true =>
            exact ih { obs := o, pc := .done, left := lf, opened := op, inside := false } N hd (by
              rcases h with h | ⟨h, _⟩
              · exact .inl h
              · exact .inr ⟨h, .inl rfl⟩)
          | false =>
            exact ih { obs := o, pc := .test, left := lf, opened := op, inside := false } N hd (by
              rcases h with h | ⟨h, h' | ⟨h', _⟩⟩
              · exact .inl h
              · cases h'
              · cases h')
  unfold sub exec
  rw [List.foldl_append, List.foldl_cons]
  have := key ls' (step kd (p.lift (userObs cap ov react)) (p.mapFinal UserSt.dispose) src (ls.foldl (step kd (p.lift (userObs cap ov react)) (p.mapFinal UserSt.dispose) src)
    (init kd (p.lift (userObs cap ov react)) n (p.start (userObs cap ov react) {}))) .kill) _ (hkd _) (.inl (Nat.le_refl _))
  exact ⟨this.1, this.2.trans (hke _)⟩

/-- `just(1, 2) | repeat() | take(3)` subscribes twice. -/
example : Enough (ε := Unit) (fun _ => {}) (.cons (.take 3) .nil) (upTo (ε := Unit) (fun _ => ⟨[1, 2], some .completed⟩) 2) ∧
    ∀ k < 2, ¬ Enough (ε := Unit) (fun _ => {}) (.cons (.take 3) .nil) (upTo (ε := Unit) (fun _ => ⟨[1, 2], some .completed⟩) k) := by
  refine ⟨rfl, fun k hk => ?_⟩
  match k, hk with
  | 0, _ => exact Bool.false_ne_true
  | 1, _ => exact Bool.false_ne_true

example : let s := sub (ε := Unit) .concat none () (fun _ => {}) (.cons (.take 3) .nil) none (fun _ => ⟨[1, 2], some .completed⟩) (List.replicate 20 .run)
    s.opened = 2 ∧ sees s = [.next 1, .next 2, .next 1, .completed] := by decide

/-- `retry(1)` of an observable that fails twice. -/
example : let s := sub (ε := Nat) .retry none 0 (fun _ => {}) (.nil : Pipe Nat Nat Nat) (some 1) (fun k => ⟨[k], some (.error k)⟩) (List.replicate 20 .run)
    s.opened = 2 ∧ sees s = [.next 0, .next 1, .error 1] := by decide

/-- `empty() | repeat() | take(1)`. -/
example (t : Nat) : (sub (α := Nat) (ε := Unit) .concat none () (fun _ => {}) (.cons (.take 1) .nil) none (fun _ => ⟨[], some .completed⟩) (List.replicate t .run)).pc ≠ .done :=
  C120_spins .concat none () (fun _ => {}) (.cons (.take 1) .nil) (by simp [Pipe.WF, Op.WF]) (fun n hn => by cases hn) (fun _ => ⟨[], some .completed⟩) (fun _ => rfl) (fun _ => rfl) (by unfold Enough; exact Bool.false_ne_true) t

/-- `just(1) | concat_with(error(7), just(2))`: the error ends it. -/
example : let s := sub (ε := Nat) .concat none 0 (fun _ => {}) (.nil : Pipe Nat Nat Nat) (some 3) (fun k => if k = 1 then ⟨[], some (.error 7)⟩ else ⟨[k], some .completed⟩) (List.replicate 30 .run)
    s.opened = 2 ∧ sees s = [.next 0, .error 7] := by decide

end Rpp
