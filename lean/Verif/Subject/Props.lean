import Verif.Subject.Proofs

namespace Rpp.Subj

variable {α ε σ : Type} [DecidableEq α] [DecidableEq ε]

/-! ## Helper lemmas -/

theorem Settled.init (C : Cfg α ε σ) : Settled ({ store := C.store.init } : St α ε σ) := by
  refine ⟨⟨?_, ?_, ?_, fun _ => UInv.init, fun _ _ => rfl, ?_⟩, rfl, ?_⟩
  · intro l hl; cases hl; exact List.nodup_nil
  · intro l hl; cases hl; intro k hk; cases hk
  · intro l _ k hk; cases hk
  · intro _ _ _ e; cases e
  · intro t ht; cases ht

theorem run_snoc (C : Cfg α ε σ) (h : List (Int × Op α ε)) (o : Int × Op α ε) :
    run C (h ++ [o]) = (run C h).step C o := by
  simp [run, List.foldl_append]

theorem ending_snoc (h : List (Int × Op α ε)) (o : Int × Op α ε) :
    ending (h ++ [o]) = (ending h).or (endBy o.2) := by
  induction h with
  | nil => obtain ⟨t, o⟩ := o; cases o <;> rfl
  | cons p h ih => obtain ⟨t, p⟩ := p; cases p <;> simp [ending, ih]

theorem emitted_snoc (h : List (Int × Op α ε)) (o : Int × Op α ε) :
    emitted (h ++ [o]) = (match ending h, o with
      | none, (t, .next v) => emitted h ++ [(t, v)]
      | _, _ => emitted h) := by
  induction h with
  | nil => obtain ⟨t, o⟩ := o; cases o <;> rfl
  | cons p h ih =>
    obtain ⟨t, p⟩ := p
    cases p <;> simp only [List.cons_append, emitted, ending, ih]
    all_goals (obtain ⟨t', o⟩ := o; cases o <;> (try rfl) <;> cases ending h <;> rfl)

theorem snoc_ind {β} {P : List β → Prop} (h0 : P []) (h1 : ∀ l x, P l → P (l ++ [x])) : ∀ l, P l := by
  intro l
  rw [← List.reverse_reverse l]
  induction l.reverse with
  | nil => exact h0
  | cons x r ih => rw [List.reverse_cons]; exact h1 _ _ ih

theorem run_facts (C : Cfg α ε σ) (h : List (Int × Op α ε)) :
    Settled (run C h) ∧ (run C h).phase.over = ending h ∧
    ∀ k, k ∈ (run C h).subs ↔ ∃ t, (t, Op.subscribe k) ∈ h := by
  induction h using snoc_ind with
  | h0 => exact ⟨Settled.init C, rfl, fun k => by simp [run]⟩
  | h1 h o ih =>
    obtain ⟨h1, h2, h3⟩ := ih
    obtain ⟨g1, g2, g3, _⟩ := step_facts C h1 o
    rw [run_snoc]
    refine ⟨g1, by rw [g2, h2, ending_snoc], fun k => ?_⟩
    rw [g3, h3]
    constructor
    · rintro (⟨t, ht⟩ | e)
      · exact ⟨t, List.mem_append_left _ ht⟩
      · exact ⟨o.1, by rw [← e]; simp⟩
    · rintro ⟨t, ht⟩
      rcases List.mem_append.1 ht with ht | ht
      · exact .inl ⟨t, ht⟩
      · rw [List.mem_singleton] at ht; rw [← ht]; exact .inr rfl

/-- Everything that happens to an observer after it subscribed. -/
def actsOf (k : Nat) : Bool → List (Int × Op α ε) → List (Act α ε)
  | _, [] => []
  | live, o :: h => effect k live o.2 ++ actsOf k (live && (endBy o.2).isNone) h

theorem foldl_obs (C : Cfg α ε σ) (k : Nat) (h : List (Int × Op α ε)) :
    ∀ s : St α ε σ, Settled s → k ∈ s.subs → (h.foldl (St.step C) s).obs k =
      userRun C.cap C.ov (C.react k) (s.obs k) (actsOf k s.phase.over.isNone h) := by
  induction h with
  | nil => intro s _ _; rfl
  | cons o h ih =>
    intro s hs hk
    obtain ⟨g1, g2, g3, g4⟩ := step_facts C hs o
    rw [List.foldl_cons, ih _ g1 ((g3 k).2 (.inl hk)), g2, g4 k hk, ← userRun_append]
    simp [actsOf, Option.isNone_or]

theorem subscribe_obs (C : Cfg α ε σ) (s : St α ε σ) (t : Int) (k : Nat) (hk : k ∉ s.subs)
    (h0 : s.obs k = {}) :
    (s.subscribe C t k).obs k = (userObs C.cap C.ov (C.react k)).run {}
      ((C.store.get s.down t s.store).1.map .next ++ (match s.phase.over with
        | none => [.up k]
        | some none => []
        | some (some fin) => [fin.toCall])) := by
  unfold St.subscribe
  rw [if_neg hk]
  dsimp only
  generalize C.store.get s.down t s.store = r
  have hr2 := calls_rest C k r.1 { s with store := r.2, subs := k :: s.subs }
  have ho2 := calls_obs C k r.1 { s with store := r.2, subs := k :: s.subs } k
  generalize r.1.foldl (fun s v => s.call C k (.next v)) { s with store := r.2, subs := k :: s.subs } = s2 at *
  obtain ⟨r1, r2, r3, r4⟩ := hr2
  dsimp only at r1 r2 r3 r4 ho2
  rw [if_pos rfl, h0] at ho2
  rw [← r4, Obs.run_append, ← ho2]
  unfold St.onSubscribe
  cases hp : s2.phase with
  | live l => dsimp only [Phase.over]; rw [call_obs, if_pos rfl]; rfl
  | failed e => dsimp only [Phase.over]; rw [call_obs, if_pos rfl]; rfl
  | completed => dsimp only [Phase.over]; rw [call_obs, if_pos rfl]; rfl
  | disposed => rfl

/-- The calls before the first disposal. -/
def cut : List (Act α ε) → List (Call α ε)
  | [] => []
  | .dispose :: _ => []
  | .call c :: as => c :: cut as

omit [DecidableEq α] [DecidableEq ε] in
theorem cut_cases (as : List (Act α ε)) :
    as = (cut as).map Act.call ∨ ∃ post, as = (cut as).map Act.call ++ .dispose :: post := by
  induction as with
  | nil => exact .inl rfl
  | cons a as ih =>
    cases a with
    | dispose => exact .inr ⟨as, rfl⟩
    | call c =>
      rcases ih with h | ⟨post, h⟩
      · exact .inl (by rw [cut, List.map_cons, ← h])
      · exact .inr ⟨post, by rw [cut, List.map_cons, List.cons_append, ← h]⟩

theorem evs_cut (cap : Option Nat) (ov : ε) (react : List (Call α ε) → Reaction ε) (as : List (Act α ε)) :
    evsOf (userRun cap ov react {} as).log = evsOf (userRun cap ov react {} ((cut as).map .call)).log := by
  rcases cut_cases as with h | ⟨post, h⟩
  · rw [← h]
  · conv => lhs; rw [h]
    exact C01_silent_after_dispose ..

omit [DecidableEq α] [DecidableEq ε] in
theorem cut_calls (cs : List (Call α ε)) (as : List (Act α ε)) : cut (cs.map .call ++ as) = cs ++ cut as := by
  induction cs with
  | nil => rfl
  | cons c cs ih => simp [cut, ih]

omit [DecidableEq α] [DecidableEq ε] in
theorem cut_dead (k : Nat) (h : List (Int × Op α ε)) : cut (actsOf k false h) = [] := by
  induction h with
  | nil => rfl
  | cons o h ih =>
    obtain ⟨t, o⟩ := o
    cases o <;> simp [actsOf, effect, ih]
    split <;> simp [cut, ih]

omit [DecidableEq α] [DecidableEq ε] in
theorem cut_live (k : Nat) (h : List (Int × Op α ε)) :
    traceOf (cut (actsOf k true h)) = heard k h ∧ upsOf (cut (actsOf k true h)) = [] := by
  induction h with
  | nil => exact ⟨rfl, rfl⟩
  | cons o h ih =>
    obtain ⟨t, o⟩ := o
    cases o <;> simp [actsOf, effect, endBy, heard, cut, traceOf, upsOf, ih, cut_dead]
    split <;> simp [cut, ih, traceOf, upsOf]

omit [DecidableEq α] [DecidableEq ε] in
theorem traceOf_nexts (vs : List α) (cs : List (Call α ε)) :
    traceOf (vs.map .next ++ cs) = ⟨vs ++ (traceOf cs).vals, (traceOf cs).fin⟩ ∧
    upsOf (vs.map .next ++ cs) = upsOf cs := by
  induction vs with
  | nil => exact ⟨rfl, rfl⟩
  | cons v vs ih => simp [traceOf, upsOf, ih]

/-- What an observer hears, for any subject. -/
theorem heard_by (C : Cfg α ε σ) (hcap : Fits C.cap 1) (before after : List (Int × Op α ε)) (t : Int) (k : Nat)
    (hk : Fresh k before) :
    evsOf ((run C (before ++ (t, .subscribe k) :: after)).obs k).log =
      deliver (C.react k) []
        ((C.store.get (ending before).isSome t (run C before).store).1 ++ (told k before after).vals)
        (told k before after).fin := by
  obtain ⟨hs, hov, hsub⟩ := run_facts C before
  have hks : k ∉ (run C before).subs := fun h => by obtain ⟨t', ht'⟩ := (hsub k).1 h; exact hk t' ht'
  obtain ⟨g1, g2, g3, _⟩ := step_facts C hs (t, .subscribe k)
  have h1 : run C (before ++ (t, .subscribe k) :: after) =
      after.foldl (St.step C) ((run C before).step C (t, .subscribe k)) := by
    simp [run, List.foldl_append]
  rw [h1, foldl_obs C k after _ g1 ((g3 k).2 (.inr rfl)), g2]
  have h2 := subscribe_obs C (run C before) t k hks (hs.inv.fresh k hks)
  rw [hs.down, hov] at h2
  rw [hov]
  show evsOf (userRun _ _ _ (((run C before).subscribe C t k).obs k) _).log = _
  rw [h2]
  generalize (C.store.get (ending before).isSome t (run C before).store).1 = vs
  have h3 : ∀ cs, (userObs C.cap C.ov (C.react k)).run {} cs = userRun C.cap C.ov (C.react k) {} (cs.map .call) := by
    intro cs; simp [userRun, Obs.run, List.foldl_map]
  rw [h3, ← userRun_append, evs_cut, cut_calls]
  unfold told
  rw [show endBy (α := α) (ε := ε) (t, Op.subscribe k).2 = none from rfl]
  cases ending before with
  | none =>
    have hl := cut_live k after
    dsimp only [Option.or, Option.isNone]
    have := traceOf_nexts (ε := ε) vs ([.up k] ++ cut (actsOf k true after))
    rw [List.append_assoc, C01_exact, this.1]
    · simp only [List.singleton_append, traceOf, hl.1]
    · rw [this.2]; simp only [List.singleton_append, upsOf, hl.2]; exact hcap
  | some fin =>
    dsimp only [Option.or, Option.isNone]
    rw [cut_dead, List.append_nil]
    cases fin with
    | none =>
      have := traceOf_nexts (ε := ε) vs []
      rw [C01_exact, this.1]
      · rfl
      · rw [this.2]; intro n hn; exact Nat.zero_le _
    | some fin =>
      have := traceOf_nexts (ε := ε) vs [fin.toCall]
      rw [C01_exact, this.1]
      · cases fin <;> rfl
      · rw [this.2]; intro n hn; cases fin <;> exact Nat.zero_le _

/-- How the store changes. -/
theorem step_store (C : Cfg α ε σ) (h : List (Int × Op α ε)) (o : Int × Op α ε) :
    (run C (h ++ [o])).store = (match o.2 with
      | .next v => if (ending h).isSome then (run C h).store else C.store.put o.1 v (run C h).store
      | .subscribe k =>
        if k ∈ (run C h).subs then (run C h).store
        else (C.store.get (ending h).isSome o.1 (run C h).store).2
      | _ => (run C h).store) := by
  obtain ⟨hs, hov, _⟩ := run_facts C h
  rw [run_snoc]
  generalize run C h = s at *
  obtain ⟨t, o⟩ := o
  have hd := hs.down
  rw [hov] at hd
  cases o with
  | subscribe k =>
    simp only [St.step, St.subscribe]
    have : ∀ s : St α ε σ, (s.onSubscribe C k).store = s.store := by
      intro s; unfold St.onSubscribe; cases s.phase <;> first | exact (call_rest ..).2.2 | rfl
    split
    · rfl
    · rw [this, (calls_rest ..).2.2.1, hd]
  | dispose k =>
    simp only [St.step]
    split
    · exact (touch_rest ..).2.2
    · rfl
  | next v =>
    simp only [St.step, St.next, hd]
    split
    · rfl
    · split
      · exact (callAll_rest ..).2.2.1
      · rfl
  | disposeSubject =>
    simp only [St.step, St.disposeSubject]
    split
    · rfl
    · cases s.phase <;> rfl
  | _ =>
    all_goals
      simp only [St.step, St.finish]
      have hdS : ∀ s : St α ε σ, s.disposeSubject.store = s.store := by
        intro s; unfold St.disposeSubject; split
        · rfl
        · cases s.phase <;> rfl
      split
      · rfl
      · rw [hdS]; split
        · exact (callAll_rest ..).2.2.1
        · rfl

/-! ## C42 -/

/-- C42: whatever the observers' callbacks do, observer `k` of a publish_subject is shown exactly the values emitted
after its subscription and before its disposal, in order, then the terminal event; if the subject had already
ended, only the terminal event (nothing if it was disposed).  `deliver` cuts the sequence where `k`'s own callback
disposes or throws. -/
theorem C42_publish (cap : Option Nat) (hcap : Fits cap 1) (ov : ε) (react : Nat → List (Call α ε) → Reaction ε)
    (before after : List (Int × Op α ε)) (t : Int) (k : Nat) (hk : Fresh k before) :
    evsOf ((run ⟨cap, ov, react, publish⟩ (before ++ (t, .subscribe k) :: after)).obs k).log =
      deliver (react k) [] (told k before after).vals (told k before after).fin :=
  heard_by ⟨cap, ov, react, publish⟩ hcap before after t k hk

omit [DecidableEq α] [DecidableEq ε] in
theorem deliver_passive (react : List (Call α ε) → Reaction ε) (hr : ∀ l, react l = {}) (vs : List α)
    (fin : Option (Term ε)) : ∀ hist, deliver react hist vs fin = hist ++ vs.map .next ++ fin.toList.map Term.toCall := by
  induction vs with
  | nil => intro hist; simp [deliver]
  | cons v vs ih => intro hist; simp [deliver, hr, ih]

/-- C42 for observers that neither throw nor dispose themselves. -/
theorem C42_publish_passive (cap : Option Nat) (hcap : Fits cap 1) (ov : ε)
    (react : Nat → List (Call α ε) → Reaction ε) (before after : List (Int × Op α ε)) (t : Int) (k : Nat)
    (hk : Fresh k before) (hp : ∀ l, react k l = {}) :
    evsOf ((run ⟨cap, ov, react, publish⟩ (before ++ (t, .subscribe k) :: after)).obs k).log =
      (told k before after).vals.map .next ++ (told k before after).fin.toList.map Term.toCall := by
  rw [C42_publish cap hcap ov react before after t k hk, deliver_passive _ hp]; rfl

/-- C42: nobody else hears anything. -/
theorem C42_only_subscribers (C : Cfg α ε σ) (h : List (Int × Op α ε)) (k : Nat) (hk : Fresh k h) :
    ((run C h).obs k).log = [] := by
  obtain ⟨hs, _, hsub⟩ := run_facts C h
  rw [hs.inv.fresh k fun hm => by obtain ⟨t, ht⟩ := (hsub k).1 hm; exact hk t ht]

-- Non-vacuity: observer 1 comes late and is disposed early, observer 2 disposes itself at its second value.
example :
    let react : Nat → List (Call Nat Nat) → Reaction Nat := fun k l => { dispose := decide (k = 2 ∧ l.length = 2) }
    let s := run ⟨some 1, 0, react, publish⟩ [(0, .subscribe 2), (0, .next 10), (1, .subscribe 1), (2, .next 11),
      (3, .next 12), (4, .dispose 1), (5, .next 13), (6, .subscribe 3), (7, .error 9), (8, .subscribe 4)]
    evsOf (s.obs 1).log = [.next 11, .next 12] ∧ evsOf (s.obs 2).log = [.next 10, .next 11] ∧
    evsOf (s.obs 3).log = [.error 9] ∧ evsOf (s.obs 4).log = [.error 9] := by decide

/-! ## C43 -/

/-- The most recent value: the last one emitted, or the constructor's. -/
def latest (v0 : α) (h : List (Int × Op α ε)) : α := ((emitted h).getLast?.map (·.2)).getD v0

theorem behavior_store (cap : Option Nat) (ov : ε) (react : Nat → List (Call α ε) → Reaction ε) (v0 : α)
    (h : List (Int × Op α ε)) : (run ⟨cap, ov, react, behavior v0⟩ h).store = latest v0 h := by
  induction h using snoc_ind with
  | h0 => rfl
  | h1 h o ih =>
    rw [step_store, latest, emitted_snoc, ih]
    obtain ⟨t, o⟩ := o
    generalize (run ⟨cap, ov, react, behavior v0⟩ h).subs = subs
    cases o <;> (dsimp only [behavior]; cases ending h <;> simp [latest])

/-- C43: a new observer of a behavior_subject is first shown the most recent value (unless the subject has ended),
then it is told what a publish_subject would tell it. -/
theorem C43_behavior (cap : Option Nat) (hcap : Fits cap 1) (ov : ε) (react : Nat → List (Call α ε) → Reaction ε)
    (v0 : α) (before after : List (Int × Op α ε)) (t : Int) (k : Nat) (hk : Fresh k before) :
    evsOf ((run ⟨cap, ov, react, behavior v0⟩ (before ++ (t, .subscribe k) :: after)).obs k).log =
      deliver (react k) []
        ((if ending before = none then [latest v0 before] else []) ++ (told k before after).vals)
        (told k before after).fin := by
  rw [heard_by ⟨cap, ov, react, behavior v0⟩ hcap before after t k hk, behavior_store]
  cases h : ending before <;> rfl

example :
    let s := run ⟨some 1, 0, fun _ _ => {}, behavior 5⟩ [(0, .subscribe 2), (0, .next 10), (1, .subscribe 1),
      (2, .next 11), (3, .completed), (4, .subscribe 3)]
    evsOf (s.obs 2).log = ([.next 5, .next 10, .next 11, .completed] : List (Call Nat Nat)) ∧
    evsOf (s.obs 1).log = [.next 10, .next 11, .completed] ∧ evsOf (s.obs 3).log = [.completed] := by decide

/-! ## C44 -/

omit [DecidableEq α] in
theorem prune_eq (w now : Int) (l : List (Int × α)) (hl : (l.map (·.1)).Pairwise (· ≤ ·)) :
    prune w now l = l.filter (fun p => decide (now - p.1 ≤ w)) := by
  induction l with
  | nil => rfl
  | cons p l ih =>
    rw [List.map_cons, List.pairwise_cons] at hl
    simp only [prune]
    split
    · rename_i h
      rw [ih hl.2, List.filter_cons_of_neg (by simp; omega)]
    · rename_i h
      symm
      apply List.filter_eq_self.2
      intro q hq
      rcases List.mem_cons.1 hq with e | hq
      · subst e; simp; omega
      · have := hl.1 q.1 (List.mem_map_of_mem hq); simp; omega

/-- The values a replay_subject with this bound keeps: the most recent `max 1 n`, or all. -/
def kept (count : Option Nat) (vals : List (Int × α)) : List (Int × α) :=
  match count with
  | none => vals
  | some n => lastN (max 1 n) vals

/-- What it has to show at time `now`: of those the ones not older than the window. -/
def recent (count : Option Nat) (window : Option Int) (now : Int) (vals : List (Int × α)) : List α :=
  match window with
  | none => (kept count vals).map (·.2)
  | some w => ((kept count vals).filter (fun p => decide (now - p.1 ≤ w))).map (·.2)

omit [DecidableEq α] in
theorem prune_split (w now : Int) (l : List (Int × α)) :
    ∃ P, l = P ++ prune w now l ∧ ∀ e ∈ P, now - e.1 > w := by
  induction l with
  | nil => exact ⟨[], rfl, fun _ h => by cases h⟩
  | cons p l ih =>
    simp only [prune]
    split
    · rename_i h
      obtain ⟨P, h1, h2⟩ := ih
      refine ⟨p :: P, by rw [List.cons_append, ← h1], fun e he => ?_⟩
      rcases List.mem_cons.1 he with e' | he
      · subst e'; exact h
      · exact h2 e he
    · exact ⟨[], rfl, fun _ h => by cases h⟩

/-- The state after the loop of `add_value`. -/
def shrunk (count : Option Nat) (s : List (Int × α)) : List (Int × α) :=
  match count with
  | none => s
  | some n => shrink (max 1 n) s

omit [DecidableEq α] in
theorem kept_snoc (count : Option Nat) (E D S : List (Int × α)) (h : kept count E = D ++ S) (x : Int × α) :
    ∃ D', (∀ e ∈ D', e ∈ D) ∧ kept count (E ++ [x]) = D' ++ shrunk count S ++ [x] := by
  cases count with
  | none => exact ⟨D, fun _ h => h, by simp only [kept] at *; simp [h, shrunk]⟩
  | some n =>
    simp only [kept, lastN, shrunk, shrink] at *
    generalize hm : max 1 n = m at *
    have hm1 : 1 ≤ m := by omega
    have hlen : (E.drop (E.length - m)).length = min m E.length := by rw [List.length_drop]; omega
    rw [h, List.length_append] at hlen
    by_cases hE : E.length < m
    · have h0 : E.length - m = 0 := by omega
      refine ⟨D, fun _ h => h, ?_⟩
      rw [h0, List.drop_zero] at h
      rw [List.length_append, List.length_singleton, show E.length + 1 - m = 0 by omega, List.drop_zero, h,
        show S.length + 1 - m = 0 by omega, List.drop_zero]
    · have h1 : (E ++ [x]).drop ((E ++ [x]).length - m) = (D ++ S).drop 1 ++ [x] := by
        rw [List.length_append, List.length_singleton, List.drop_append_of_le_length (by omega), ← h, List.drop_drop]
        congr 2; omega
      rw [h1]
      cases D with
      | nil =>
        refine ⟨[], fun _ h => h, ?_⟩
        simp only [List.nil_append, List.length_nil] at *
        rw [show S.length + 1 - m = 1 by omega]
      | cons d D =>
        refine ⟨D, fun _ h => List.mem_cons_of_mem _ h, ?_⟩
        simp only [List.length_cons] at hlen
        rw [show S.length + 1 - m = 0 by omega]
        simp

omit [DecidableEq α] [DecidableEq ε] in
theorem emitted_sorted (h : List (Int × Op α ε)) (hc : Clocked h) :
    ((emitted h).map (·.1)).Pairwise (· ≤ ·) ∧ ∀ e ∈ emitted h, ∃ p ∈ h, p.1 = e.1 := by
  induction h with
  | nil => exact ⟨.nil, fun _ h => by cases h⟩
  | cons o h ih =>
    obtain ⟨t, o⟩ := o
    have hc' : Clocked h ∧ ∀ p ∈ h, t ≤ p.1 := by
      simp only [Clocked, List.map_cons, List.pairwise_cons] at hc
      exact ⟨hc.2, fun p hp => hc.1 _ (List.mem_map_of_mem hp)⟩
    obtain ⟨h1, h2⟩ := ih hc'.1
    have h2' : ∀ e ∈ emitted h, ∃ p ∈ (t, o) :: h, p.1 = e.1 := fun e he => by
      obtain ⟨p, hp, e'⟩ := h2 e he; exact ⟨p, List.mem_cons_of_mem _ hp, e'⟩
    cases o with
    | next v =>
      refine ⟨?_, fun e he => ?_⟩
      · simp only [emitted, List.map_cons, List.pairwise_cons]
        refine ⟨fun x hx => ?_, h1⟩
        obtain ⟨e, he, rfl⟩ := List.mem_map.1 hx
        obtain ⟨p, hp, e'⟩ := h2 e he
        rw [← e']; exact hc'.2 p hp
      · rcases List.mem_cons.1 he with e' | he
        · subst e'; exact ⟨_, List.mem_cons_self, rfl⟩
        · exact h2' e he
    | subscribe k => exact ⟨h1, h2'⟩
    | dispose k => exact ⟨h1, h2'⟩
    | _ => exact ⟨.nil, fun _ h => by cases h⟩

omit [DecidableEq α] in
theorem kept_sorted (count : Option Nat) (E : List (Int × α)) (h : (E.map (·.1)).Pairwise (· ≤ ·)) :
    ((kept count E).map (·.1)).Pairwise (· ≤ ·) := by
  cases count with
  | none => exact h
  | some n => simp only [kept, lastN, List.map_drop]; exact h.drop

theorem replay_store_none (cap : Option Nat) (ov : ε) (react : Nat → List (Call α ε) → Reaction ε)
    (count : Option Nat) (h : List (Int × Op α ε)) :
    (run ⟨cap, ov, react, replay count none⟩ h).store.map (·.2) = (kept count (emitted h)).map (·.2) := by
  suffices ∃ D, kept count ((emitted h).map fun p => (0, p.2)) =
      D ++ (run ⟨cap, ov, react, replay count none⟩ h).store ∧ D = [] by
    obtain ⟨D, h1, rfl⟩ := this
    rw [List.nil_append] at h1
    rw [← h1]
    cases count with
    | none => simp [kept]
    | some n => simp [kept, lastN, List.map_drop, Function.comp_def]
  induction h using snoc_ind with
  | h0 => refine ⟨[], ?_, rfl⟩; cases count <;> simp [kept, lastN, emitted, run, replay]
  | h1 h o ih =>
    obtain ⟨D, h1, rfl⟩ := ih
    rw [step_store, emitted_snoc]
    generalize (run ⟨cap, ov, react, replay count none⟩ h).store = S at *
    obtain ⟨t, o⟩ := o
    have hsame : ∃ D, kept count ((emitted h).map fun p => ((0 : Int), p.2)) = D ++ S ∧ D = [] := ⟨[], h1, rfl⟩
    cases o with
    | next v =>
      dsimp only
      cases ending h with
      | some f => exact hsame
      | none =>
        obtain ⟨D', h2, h3⟩ := kept_snoc count _ _ _ h1 ((0 : Int), v)
        have hD' : D' = [] := List.eq_nil_iff_forall_not_mem.2 fun e he => by cases h2 e he
        subst hD'
        refine ⟨[], ?_, rfl⟩
        rw [List.map_append]
        simp only [List.map_cons, List.map_nil, h3]
        cases count <;> rfl
    | subscribe k =>
      dsimp only
      have : ∀ b, ((replay count none).get b t S).2 = S := fun _ => rfl
      rw [this, ite_self]
      cases ending h <;> exact hsame
    | _ => all_goals (dsimp only; cases ending h <;> exact hsame)

theorem replay_store_some (cap : Option Nat) (ov : ε) (react : Nat → List (Call α ε) → Reaction ε)
    (count : Option Nat) (w : Int) (h : List (Int × Op α ε)) (hc : Clocked h) :
    ∃ D, kept count (emitted h) = D ++ (run ⟨cap, ov, react, replay count (some w)⟩ h).store ∧
      ∀ now, (∀ p ∈ h, p.1 ≤ now) → ∀ e ∈ D, now - e.1 > w := by
  induction h using snoc_ind with
  | h0 => refine ⟨[], ?_, fun _ _ _ h => by cases h⟩; cases count <;> simp [kept, lastN, emitted, run, replay]
  | h1 h o ih =>
    have hc' : Clocked h := by
      simp only [Clocked, List.map_append] at hc ⊢
      exact (List.pairwise_append.1 hc).1
    obtain ⟨D, h1, hD⟩ := ih hc'
    rw [step_store, emitted_snoc]
    generalize (run ⟨cap, ov, react, replay count (some w)⟩ h).store = S at *
    obtain ⟨t, o⟩ := o
    have hlt : ∀ now, (∀ p ∈ h ++ [(t, o)], p.1 ≤ now) → (∀ p ∈ h, p.1 ≤ now) ∧ t ≤ now := fun now hn =>
      ⟨fun p hp => hn p (List.mem_append_left _ hp), hn (t, o) (by simp)⟩
    have hsame : ∃ D, kept count (emitted h) = D ++ S ∧
        ∀ now, (∀ p ∈ h ++ [(t, o)], p.1 ≤ now) → ∀ e ∈ D, now - e.1 > w :=
      ⟨D, h1, fun now hn => hD now (hlt now hn).1⟩
    cases o with
    | next v =>
      dsimp only
      cases ending h with
      | some f => exact hsame
      | none =>
        obtain ⟨D', h2, h3⟩ := kept_snoc count _ _ _ h1 (t, v)
        obtain ⟨P, h4, h5⟩ := prune_split w t (shrunk count S)
        refine ⟨D' ++ P, ?_, fun now hn e he => ?_⟩
        · dsimp only
          rw [h3]
          conv => lhs; rw [h4]
          cases count <;> simp [replay, shrunk]
        · rcases List.mem_append.1 he with he | he
          · exact hD now (hlt now hn).1 e (h2 e he)
          · have := h5 e he; have := (hlt now hn).2; omega
    | subscribe k =>
      dsimp only
      have hget : ∃ D, kept count (emitted h) = D ++ prune w t S ∧
          ∀ now, (∀ p ∈ h ++ [(t, Op.subscribe k)], p.1 ≤ now) → ∀ e ∈ D, now - e.1 > w := by
        obtain ⟨P, h4, h5⟩ := prune_split w t S
        refine ⟨D ++ P, ?_, fun now hn e he => ?_⟩
        · rw [h1]; conv => lhs; rw [h4]
          simp
        · rcases List.mem_append.1 he with he | he
          · exact hD now (hlt now hn).1 e he
          · have := h5 e he; have := (hlt now hn).2; omega
      have hb : ∀ b, ((replay count (some w)).get b t S).2 = prune w t S := fun _ => rfl
      rw [hb]
      have : ∃ D, kept count (emitted h) = D ++
          (if k ∈ (run ⟨cap, ov, react, replay count (some w)⟩ h).subs then S else prune w t S) ∧
          ∀ now, (∀ p ∈ h ++ [(t, Op.subscribe k)], p.1 ≤ now) → ∀ e ∈ D, now - e.1 > w := by
        split
        · exact hsame
        · exact hget
      cases ending h <;> exact this
    | _ => all_goals (dsimp only; cases ending h <;> exact hsame)

/-- C44: a new observer of `replay_subject(count, window)` is first shown, in order, exactly the most recent
`max 1 count` emitted values that are not older than the window, then it is told what a publish_subject would tell
it. -/
theorem C44_replay (cap : Option Nat) (hcap : Fits cap 1) (ov : ε) (react : Nat → List (Call α ε) → Reaction ε)
    (count : Option Nat) (window : Option Int) (before after : List (Int × Op α ε)) (now : Int) (k : Nat)
    (hk : Fresh k before) (hc : Clocked (before ++ [(now, .subscribe k)])) :
    evsOf ((run ⟨cap, ov, react, replay count window⟩ (before ++ (now, .subscribe k) :: after)).obs k).log =
      deliver (react k) [] (recent count window now (emitted before) ++ (told k before after).vals)
        (told k before after).fin := by
  rw [heard_by ⟨cap, ov, react, replay count window⟩ hcap before after now k hk]
  congr 2
  cases window with
  | none => exact replay_store_none cap ov react count before
  | some w =>
    simp only [Clocked, List.map_append, List.map_cons, List.map_nil] at hc
    obtain ⟨hc1, _, hc2⟩ := List.pairwise_append.1 hc
    obtain ⟨D, h1, h2⟩ := replay_store_some cap ov react count w before hc1
    have h2 := h2 now fun p hp => hc2 p.1 (List.mem_map_of_mem hp) now (by simp)
    have hs := kept_sorted count _ (emitted_sorted before hc1).1
    dsimp only [recent]
    rw [h1] at hs ⊢
    rw [List.map_append] at hs
    generalize (run ⟨cap, ov, react, replay count (some w)⟩ before).store = S at *
    show (prune w now S).map _ = _
    have hD : D.filter (fun e => decide (now - e.1 ≤ w)) = [] :=
      List.filter_eq_nil_iff.2 fun e he => by have := h2 e he; simp; omega
    rw [prune_eq w now _ (List.pairwise_append.1 hs).2.1, List.filter_append, hD, List.nil_append]

/-- C44: never more than `max 1 n` values are shown. -/
theorem C44_bound (n : Nat) (window : Option Int) (now : Int) (vals : List (Int × α)) :
    (recent (some n) window now vals).length ≤ max 1 n := by
  have : (kept (some n) vals).length ≤ max 1 n := by simp only [kept, lastN, List.length_drop]; omega
  cases window with
  | none => simpa [recent] using this
  | some w =>
    simp only [recent, List.length_map]
    exact Nat.le_trans (List.length_filter_le _ _) this

example :
    let s := run ⟨some 1, 0, fun _ _ => {}, replay (some 2) (some 10)⟩ [(0, .next 1), (3, .next 2), (5, .next 3),
      (6, .subscribe 1), (14, .subscribe 2), (15, .next 4), (16, .completed), (24, .subscribe 3)]
    evsOf (s.obs 1).log = ([.next 2, .next 3, .next 4, .completed] : List (Call Nat Nat)) ∧
    evsOf (s.obs 2).log = [.next 3, .next 4, .completed] ∧ evsOf (s.obs 3).log = [.next 4, .completed] := by decide

end Rpp.Subj
