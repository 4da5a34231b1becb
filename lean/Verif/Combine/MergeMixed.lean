import Verif.Combine.MergeEndlessProps

/-!
# C129: any number of finite and endless sources merged on current_thread

As `MergeEndless`, where each of the containers may also be finite (or empty): its source completes with the last value and leaves the queue.
-/

namespace Rpp.MergeMixed

/-- `itr != end` at this index of a container of this length, `none` if it has no end. (sources/from.hpp 59-65) -/
def has : Option Nat → Nat → Bool
  | none, _ => true
  | some n, i => decide (i < n)

/-- The queue of `current_thread` (the numbers of the sources whose tasks wait), the `index` of each task, merge's `m_on_completed_needed`, and the observer. (merge.hpp 45-48) -/
structure St (σ : Type) where
  queue : List Nat
  idx : Nat → Nat := fun _ => 0
  need : Nat
  obs : σ

/-- One turn of `drain_queue`: a task whose observer is disposed is dropped before and after it runs.
The task hands over a value if there is one; if there is another one it goes to the end of the queue, otherwise the source completes, and so does merge if it was the last one; a disposed observer is not told.
Simplifications as for `MergeEndless.step`. (schedulers/current_thread.hpp 104-137, sources/from.hpp 53-79, merge.hpp 80-93, 105-109) -/
def step (O : Obs δ ε σ) (len : Nat → Option Nat) (x : Nat → Nat → δ) (s : St σ) : St σ :=
  match s.queue with
  | [] => s
  | b :: q =>
    if O.isDisposed s.obs then { s with queue := q }
    else
      let o := if has (len b) (s.idx b) then O.onNext (x b (s.idx b)) s.obs else s.obs
      if O.isDisposed o then { s with queue := q, obs := o }
      else if has (len b) (s.idx b) && has (len b) (s.idx b + 1) then
        { s with queue := q ++ [b], obs := o, idx := fun c => if c = b then s.idx b + 1 else s.idx c }
      else { s with queue := q, need := s.need - 1, obs := if s.need = 1 then O.onCompleted o else o }

/-- `k` turns after all sources have been subscribed to, the main one (number 0) first, then the `m` others in order. (merge.hpp 29-33, 121-126, 166-185, schedulers/current_thread.hpp 145-166) -/
def exec (O : Obs δ ε σ) (m : Nat) (len : Nat → Option Nat) (x : Nat → Nat → δ) (s : σ) (k : Nat) : St σ :=
  Nat.repeat (step O len x) k { queue := if O.isDisposed (O.call (.up 0) s) then [] else List.range (m + 1), need := m + 1, obs := O.call (.up 0) s }

/-! ## Specification -/

/-- A container of this length, `none` if it has no end, has a value number `r`, counted from 0.  Specification; models no code. -/
def longer (l : Option Nat) (r : Nat) : Bool := match l with
  | none => true
  | some n => decide (r + 1 ≤ n)

/-- What the sources `l` show in round `r`: those that are long enough their value number `r`, in this order.  Specification; models no code. -/
def round (len : Nat → Option Nat) (x : Nat → Nat → δ) (l : List Nat) (r : Nat) : List δ :=
  l.flatMap fun b => if longer (len b) r then [x b r] else []

/-- What `R` rounds of `n` sources show: all values up to there, and a completion if no source has any further value.  Specification; models no code. -/
def shown (n : Nat) (len : Nat → Option Nat) (x : Nat → Nat → δ) (R : Nat) : Trace δ ε :=
  ⟨(List.range R).flatMap (round len x (List.range n)), if 0 < R ∧ ∀ b ∈ List.range n, longer (len b) R = false then some .completed else none⟩

/-! ## Proofs -/

theorem has_eq (l : Option Nat) (r : Nat) : has l r = longer l r := by cases l <;> rfl

theorem has_le {l : Option Nat} {i : Nat} (h : longer l (i + 1) = true) : longer l i = true := by
  cases l with
  | none => rfl
  | some n => simp only [longer, decide_eq_true_eq] at *; omega

/-- The sources which still have a value. -/
def alive (len : Nat → Option Nat) (l : List Nat) (r : Nat) : List Nat := l.filter fun b => longer (len b) r

/-- The calls of a round in which `d` have been served. -/
def told (len : Nat → Option Nat) (x : Nat → Nat → δ) (l d : List Nat) (r : Nat) : List (Call δ ε) :=
  (round len x l r).map .next ++ if l ≠ [] ∧ d ++ alive len l (r + 1) = [] then [.completed] else []

section
variable {O : Obs δ ε σ} {m : Nat} {len : Nat → Option Nat} {x : Nat → Nat → δ}

theorem empty_stays (k : Nat) {s : St σ} (h : s.queue = []) : Nat.repeat (step O len x) k s = s := by
  induction k with
  | zero => rfl
  | succ k ih => show step O len x (Nat.repeat _ k s) = s; rw [ih]; simp only [step, h]

/-- The tasks of a disposed observer are dropped one after the other. -/
theorem drops (q : List Nat) : ∀ {s : St σ}, O.isDisposed s.obs = true → s.queue = q → Nat.repeat (step O len x) q.length s = { s with queue := [] } := by
  induction q with
  | nil => intro s _ hq; cases s; cases hq; rfl
  | cons b q ih =>
    intro s hd hq
    rw [List.length_cons, Nat.add_comm, SyncPair.repeat_add]
    have h1 : Nat.repeat (step O len x) 1 s = { s with queue := q } := by
      show step O len x s = _
      unfold step
      rw [hq]
      simp only [hd]
      rfl
    rw [h1, ih (s := { s with queue := q }) hd rfl]

theorem told_gone (hl : Lawful O) {o : σ} (hd : O.isDisposed o = true) (l d : List Nat) (r : Nat) : O.run o (told len x l d r) = o := by
  unfold told
  rw [Obs.run_append, SyncResub.nexts_gone hl hd]
  split
  · exact hl.ignore o .completed hd rfl
  · rfl

/-- What is left of a round. -/
def Ends (O : Obs δ ε σ) (len : Nat → Option Nat) (x : Nat → Nat → δ) (r : Nat) (s : St σ) (l d : List Nat) : Prop :=
  ∃ t, l.length ≤ t ∧ (Nat.repeat (step O len x) t s).obs = O.run s.obs (told len x l d r) ∧
    ((O.isDisposed (O.run s.obs (told len x l d r)) = true ∧ (Nat.repeat (step O len x) t s).queue = []) ∨
     (O.isDisposed (O.run s.obs (told len x l d r)) = false ∧ (Nat.repeat (step O len x) t s).queue = d ++ alive len l (r + 1) ∧
      (Nat.repeat (step O len x) t s).need = (d ++ alive len l (r + 1)).length ∧ ∀ b ∈ d ++ alive len l (r + 1), (Nat.repeat (step O len x) t s).idx b = r + 1))

theorem a_round (hl : Lawful O) (r : Nat) (l : List Nat) : ∀ (d : List Nat) (s : St σ), s.queue = l ++ d → l.Nodup → (∀ b ∈ l, b ∉ d) → (∀ b ∈ l, s.idx b = r) → (∀ b ∈ d, s.idx b = r + 1) →
    s.need = (l ++ d).length → O.isDisposed s.obs = false → Ends O len x r s l d := by
  induction l with
  | nil =>
    intro d s hq _ _ _ hi hn hd
    have e : told (ε := ε) len x [] d r = [] := by simp [told, round]
    have e2 : d ++ alive len [] (r + 1) = d := by simp [alive]
    refine ⟨0, Nat.le_refl _, by rw [e]; rfl, .inr ?_⟩
    rw [e, e2]
    exact ⟨hd, hq, hn, hi⟩
  | cons b l ih =>
    intro d s hq hnd hbd hil hid hn hd
    have hib := hil b (List.mem_cons_self ..)
    have hbl : b ∉ l := (List.nodup_cons.1 hnd).1
    -- the value of `b`
    have hround : round len x (b :: l) r = (if longer (len b) r then [x b r] else []) ++ round len x l r := rfl
    generalize ho : (if longer (len b) r then O.onNext (x b r) s.obs else s.obs) = o
    have hrun : ∀ cs : List (Call δ ε), O.run s.obs ((if longer (len b) r then [x b r] else []).map .next ++ cs) = O.run o cs := by
      intro cs
      rw [← ho]
      by_cases h : longer (len b) r = true <;> simp [h, Obs.call]
    have hst : step O len x s = if O.isDisposed o then { s with queue := l ++ d, obs := o }
      else if longer (len b) r && longer (len b) (r + 1) then
        { s with queue := l ++ d ++ [b], obs := o, idx := fun c => if c = b then r + 1 else s.idx c }
      else { s with queue := l ++ d, need := s.need - 1, obs := if s.need = 1 then O.onCompleted o else o } := by
      unfold step
      rw [hq]
      simp only [List.cons_append, hd, hib, has_eq, ho]
      rfl
    by_cases hod : O.isDisposed o = true
    · rw [if_pos hod] at hst
      have hobs : O.run s.obs (told len x (b :: l) d r) = o := by
        unfold told
        rw [hround, List.map_append, List.append_assoc, hrun, Obs.run_append, SyncResub.nexts_gone hl hod]
        split
        · exact hl.ignore o .completed hod rfl
        · rfl
      have h2 := drops (O := O) (len := len) (x := x) (l ++ d) (s := { s with queue := l ++ d, obs := o }) hod rfl
      refine ⟨1 + (l ++ d).length, by simp; omega, ?_, .inl ⟨by rw [hobs]; exact hod, ?_⟩⟩
      · rw [SyncPair.repeat_add]
        show (Nat.repeat (step O len x) _ (step O len x s)).obs = _
        rw [hst, h2, hobs]
      · rw [SyncPair.repeat_add]
        show (Nat.repeat (step O len x) _ (step O len x s)).queue = _
        rw [hst, h2]
    · have hod' : O.isDisposed o = false := Bool.eq_false_iff.2 hod
      rw [if_neg hod] at hst
      by_cases ha : longer (len b) (r + 1) = true
      · -- there is another value
        rw [if_pos (by rw [has_le ha, ha]; rfl)] at hst
        have hal : d ++ alive len (b :: l) (r + 1) = d ++ [b] ++ alive len l (r + 1) := by simp [alive, ha]
        have htold : O.run s.obs (told len x (b :: l) d r) = O.run o (told len x l (d ++ [b]) r) := by
          unfold told
          rw [hround, List.map_append, List.append_assoc, hrun, hal]
          simp
        obtain ⟨t, h0, h1, h2⟩ := ih (d ++ [b]) { s with queue := l ++ d ++ [b], obs := o, idx := fun c => if c = b then r + 1 else s.idx c }
          (List.append_assoc ..) (List.nodup_cons.1 hnd).2
          (by intro c hc hcd
              rcases List.mem_append.1 hcd with h | h
              · exact hbd c (List.mem_cons_of_mem _ hc) h
              · exact hbl (List.mem_singleton.1 h ▸ hc))
          (by intro c hc
              have hcb : c ≠ b := fun h => hbl (h ▸ hc)
              show (if c = b then r + 1 else s.idx c) = r
              rw [if_neg hcb]
              exact hil c (List.mem_cons_of_mem _ hc))
          (by intro c hc
              show (if c = b then r + 1 else s.idx c) = r + 1
              by_cases h : c = b
              · rw [if_pos h]
              · rw [if_neg h]
                rcases List.mem_append.1 hc with hc | hc
                · exact hid c hc
                · exact absurd (List.mem_singleton.1 hc) h)
          (by show s.need = _; rw [hn]; simp; omega) hod'
        refine ⟨1 + t, by rw [List.length_cons]; omega, ?_, ?_⟩
        · rw [SyncPair.repeat_add]
          show (Nat.repeat (step O len x) _ (step O len x s)).obs = _
          rw [hst, htold]; exact h1
        · rw [SyncPair.repeat_add, htold, hal]
          show (_ ∧ (Nat.repeat (step O len x) _ (step O len x s)).queue = _) ∨ (_ ∧ (Nat.repeat (step O len x) _ (step O len x s)).queue = _ ∧ (Nat.repeat (step O len x) _ (step O len x s)).need = _ ∧ ∀ c ∈ _, (Nat.repeat (step O len x) _ (step O len x s)).idx c = _)
          rw [hst]; exact h2
      · -- it was the last one
        have ha' : longer (len b) (r + 1) = false := Bool.eq_false_iff.2 ha
        rw [if_neg (by rw [ha', Bool.and_false]; exact Bool.false_ne_true)] at hst
        have hal : d ++ alive len (b :: l) (r + 1) = d ++ alive len l (r + 1) := by simp [alive, ha']
        by_cases hn1 : s.need = 1
        · -- of all
          have hld : (l ++ d).length = 0 := by rw [hn] at hn1; simpa using hn1
          have hld' := List.eq_nil_of_length_eq_zero hld
          obtain ⟨rfl, rfl⟩ := List.append_eq_nil_iff.1 hld'
          have htold : O.run s.obs (told len x [b] [] r) = O.onCompleted o := by
            unfold told
            rw [hround, List.map_append, List.append_assoc, hrun, hal]
            simp [round, alive, Obs.call]
          rw [if_pos hn1] at hst
          have hdc : O.isDisposed (O.onCompleted o) = true := hl.term o .completed rfl
          refine ⟨1, Nat.le_refl _, ?_, .inl ⟨by rw [htold]; exact hdc, ?_⟩⟩
          · show (step O len x s).obs = _
            rw [hst, htold]
          · show (step O len x s).queue = _
            rw [hst]; rfl
        · rw [if_neg hn1] at hst
          have hne : l ++ d ≠ [] := by
            intro h
            apply hn1
            rw [hn, List.cons_append, h]
            rfl
          by_cases hl0 : l = []
          · subst hl0
            have hdne : d ≠ [] := by simpa using hne
            have htold : O.run s.obs (told len x [b] d r) = O.run o (told len x [] d r) := by
              unfold told
              rw [hround, List.map_append, List.append_assoc, hrun, hal]
              simp [alive, hdne]
            obtain ⟨t, h0, h1, h2⟩ := ih d { s with queue := [] ++ d, need := s.need - 1, obs := o } rfl (List.nodup_cons.1 hnd).2
              (fun c hc => hbd c (List.mem_cons_of_mem _ hc)) (fun c hc => hil c (List.mem_cons_of_mem _ hc)) hid
              (by show s.need - 1 = _; rw [hn]; simp) hod'
            refine ⟨1 + t, by rw [List.length_cons]; omega, ?_, ?_⟩
            · rw [SyncPair.repeat_add]
              show (Nat.repeat (step O len x) _ (step O len x s)).obs = _
              rw [hst, htold]; exact h1
            · rw [SyncPair.repeat_add, htold, hal]
              show (_ ∧ (Nat.repeat (step O len x) _ (step O len x s)).queue = _) ∨ (_ ∧ (Nat.repeat (step O len x) _ (step O len x s)).queue = _ ∧ (Nat.repeat (step O len x) _ (step O len x s)).need = _ ∧ ∀ c ∈ _, (Nat.repeat (step O len x) _ (step O len x s)).idx c = _)
              rw [hst]; exact h2
          · have htold : O.run s.obs (told len x (b :: l) d r) = O.run o (told len x l d r) := by
              unfold told
              rw [hround, List.map_append, List.append_assoc, hrun, hal]
              simp [hl0]
            obtain ⟨t, h0, h1, h2⟩ := ih d { s with queue := l ++ d, need := s.need - 1, obs := o } rfl (List.nodup_cons.1 hnd).2
              (fun c hc => hbd c (List.mem_cons_of_mem _ hc)) (fun c hc => hil c (List.mem_cons_of_mem _ hc)) hid
              (by show s.need - 1 = _; rw [hn]; simp) hod'
            refine ⟨1 + t, by rw [List.length_cons]; omega, ?_, ?_⟩
            · rw [SyncPair.repeat_add]
              show (Nat.repeat (step O len x) _ (step O len x s)).obs = _
              rw [hst, htold]; exact h1
            · rw [SyncPair.repeat_add, htold, hal]
              show (_ ∧ (Nat.repeat (step O len x) _ (step O len x s)).queue = _) ∨ (_ ∧ (Nat.repeat (step O len x) _ (step O len x s)).queue = _ ∧ (Nat.repeat (step O len x) _ (step O len x s)).need = _ ∧ ∀ c ∈ _, (Nat.repeat (step O len x) _ (step O len x s)).idx c = _)
              rw [hst]; exact h2

/-- The queue at the start of round `r`: at first all sources, the empty ones too. -/
def parts (n : Nat) (len : Nat → Option Nat) (r : Nat) : List Nat := if r = 0 then List.range n else alive len (List.range n) r

theorem alive_parts (n r : Nat) : alive len (parts n len r) (r + 1) = alive len (List.range n) (r + 1) := by
  unfold parts
  split
  · rfl
  · unfold alive
    rw [List.filter_filter]
    congr 1
    funext b
    cases h : longer (len b) (r + 1) with
    | false => rfl
    | true => rw [has_le h]; rfl

theorem round_parts (n r : Nat) : round len x (parts n len r) r = round len x (List.range n) r := by
  unfold parts
  split
  · rfl
  · unfold alive round
    generalize List.range n = l
    induction l with
    | nil => rfl
    | cons b l ih =>
      cases h : longer (len b) r with
      | false => rw [List.filter_cons_of_neg (by simp [h]), ih]; simp [h]
      | true => rw [List.filter_cons_of_pos (by simp [h])]; simp [h, ih]

theorem calls_succ {R : Nat} (n : Nat) (hR : parts n len R ≠ []) (hf : (shown (ε := ε) n len x R).fin = none) :
    SyncPair.calls (shown (ε := ε) n len x (R + 1)) = SyncPair.calls (shown n len x R) ++ told len x (parts n len R) [] R := by
  unfold SyncPair.calls told
  rw [hf, round_parts, List.nil_append, alive_parts]
  have hv : (shown (ε := ε) n len x (R + 1)).vals = (shown (ε := ε) n len x R).vals ++ round len x (List.range n) R := by
    simp only [shown]
    rw [List.range_succ, List.flatMap_append, List.flatMap_singleton]
  rw [hv, List.map_append]
  simp only [SyncResub.finCalls, List.append_nil, List.append_assoc]
  congr 2
  by_cases h : ∀ b ∈ List.range n, longer (len b) (R + 1) = false
  · have ha : alive len (List.range n) (R + 1) = [] := List.filter_eq_nil_iff.2 fun b hb => by rw [h b hb]; exact Bool.false_ne_true
    rw [if_pos ⟨hR, ha⟩]
    simp only [shown]
    rw [if_pos ⟨Nat.succ_pos _, h⟩]
  · have ha : ¬ alive len (List.range n) (R + 1) = [] := fun ha => h fun b hb => Bool.eq_false_iff.2 (List.filter_eq_nil_iff.1 ha b hb)
    rw [if_neg fun h => ha h.2]
    simp only [shown]
    rw [if_neg fun h' => h h'.2]

/-- Round after round. -/
theorem rounds (hl : Lawful O) {s : σ} (R : Nat) (hmin : ∀ j < R, O.isDisposed (O.run (O.call (.up 0) s) (SyncPair.calls (shown (m + 1) len x j))) = false) :
    ∃ t, R ≤ t ∧ (exec O m len x s t).obs = O.run (O.call (.up 0) s) (SyncPair.calls (shown (m + 1) len x R)) ∧
      ((O.isDisposed (O.run (O.call (.up 0) s) (SyncPair.calls (shown (m + 1) len x R))) = true ∧ (exec O m len x s t).queue = []) ∨
       (O.isDisposed (O.run (O.call (.up 0) s) (SyncPair.calls (shown (m + 1) len x R))) = false ∧ parts (m + 1) len R ≠ [] ∧ (exec O m len x s t).queue = parts (m + 1) len R ∧
        (exec O m len x s t).need = (parts (m + 1) len R).length ∧ ∀ b ∈ parts (m + 1) len R, (exec O m len x s t).idx b = R)) := by
  induction R with
  | zero =>
    refine ⟨0, Nat.le_refl _, rfl, ?_⟩
    have e : O.run (O.call (.up 0) s) (SyncPair.calls (shown (m + 1) len x 0)) = O.call (.up 0) s := by simp [SyncPair.calls, shown, SyncResub.finCalls]
    rw [e]
    cases hd : O.isDisposed (O.call (.up 0) s) with
    | true => exact .inl ⟨rfl, by show (if O.isDisposed (O.call (.up 0) s) then [] else List.range (m + 1)) = _; rw [hd]; rfl⟩
    | false =>
      refine .inr ⟨rfl, ?_, by show (if O.isDisposed (O.call (.up 0) s) then [] else List.range (m + 1)) = _; rw [hd]; rfl, ?_, fun _ _ => rfl⟩
      · show List.range (m + 1) ≠ []
        simp
      · show m + 1 = (List.range (m + 1)).length
        simp
  | succ R ih =>
    have hR := hmin R (by omega)
    obtain ⟨t, ht, h1, h2⟩ := ih fun j hj => hmin j (by omega)
    rcases h2 with ⟨h2, _⟩ | ⟨_, h3, h4, h5, h6⟩
    · rw [hR] at h2; cases h2
    · have hf : (shown (ε := ε) (m + 1) len x R).fin = none := by
        by_cases h : 0 < R ∧ ∀ b ∈ List.range (m + 1), longer (len b) R = false
        · exfalso
          apply h3
          unfold parts
          rw [if_neg (by omega)]
          exact List.filter_eq_nil_iff.2 fun b hb => by rw [h.2 b hb]; exact Bool.false_ne_true
        · simp only [shown]
          rw [if_neg h]
      have hnd : (parts (m + 1) len R).Nodup := by
        unfold parts
        split
        · exact List.nodup_range
        · exact List.nodup_range.filter _
      obtain ⟨t', h0', h1', h2'⟩ := a_round (O := O) (len := len) (x := x) hl R (parts (m + 1) len R) [] (exec O m len x s t) (by rw [List.append_nil]; exact h4) hnd
        (fun _ _ h => by cases h) h6 (fun _ h => by cases h) (by rw [List.append_nil]; exact h5) (by rw [h1]; exact hR)
      have hlen : 0 < (parts (m + 1) len R).length := List.length_pos_iff.2 h3
      have hex : exec O m len x s (t + t') = Nat.repeat (step O len x) t' (exec O m len x s t) := SyncPair.repeat_add _ t t' _
      rw [calls_succ _ h3 hf, Obs.run_append, ← h1]
      refine ⟨t + t', by omega, by rw [hex]; exact h1', ?_⟩
      rw [hex]
      rcases h2' with h | ⟨g1, g2, g3, g4⟩
      · exact .inl h
      · rw [List.nil_append, alive_parts] at g2 g3 g4
        have hp : parts (m + 1) len (R + 1) = alive len (List.range (m + 1)) (R + 1) := if_neg (by omega)
        rw [hp]
        refine .inr ⟨g1, fun h => ?_, g2, g3, g4⟩
        have hc : told (ε := ε) len x (parts (m + 1) len R) [] R = (round len x (parts (m + 1) len R) R).map .next ++ [.completed] := by
          unfold told
          rw [if_pos ⟨h3, by rw [List.nil_append, alive_parts]; exact h⟩]
        rw [hc, Obs.run_append] at g1
        have h9 := hl.term (O.run (exec O m len x s t).obs ((round len x (parts (m + 1) len R) R).map .next)) .completed rfl
        have h10 : O.isDisposed (O.call .completed (O.run (exec O m len x s t).obs ((round len x (parts (m + 1) len R) R).map .next))) = false := g1
        rw [h9] at h10
        cases h10

/-- Those that wait longest have had the fewest turns, and nobody is more than one turn ahead of them. -/
def Even (s : St σ) : Prop :=
  s.queue.Nodup ∧ s.queue.Pairwise (fun a b => s.idx a ≤ s.idx b) ∧ ∀ c, ∀ b ∈ s.queue, s.idx c ≤ s.idx b + 1

theorem Even.step {s : St σ} (h : Even s) : Even (step O len x s) := by
  obtain ⟨hn, hp, hg⟩ := h
  unfold MergeMixed.step
  cases hq : s.queue with
  | nil => simp only; exact ⟨hn, hp, hg⟩
  | cons b q =>
    rw [hq] at hn hp hg
    have hn' := List.nodup_cons.1 hn
    have hp' := List.pairwise_cons.1 hp
    have hg' : ∀ c, ∀ b' ∈ q, s.idx c ≤ s.idx b' + 1 := fun c b' hb => hg c b' (List.mem_cons_of_mem _ hb)
    simp only
    generalize (if has (len b) (s.idx b) = true then O.onNext (x b (s.idx b)) s.obs else s.obs) = o
    split
    · exact ⟨hn'.2, hp'.2, hg'⟩
    · split
      · exact ⟨hn'.2, hp'.2, hg'⟩
      · split
        · have hne : ∀ c ∈ q, c ≠ b := fun c hc h => hn'.1 (h ▸ hc)
          refine ⟨?_, ?_, ?_⟩
          · show (q ++ [b]).Nodup
            refine List.nodup_append.2 ⟨hn'.2, by simp, fun a ha c hc => ?_⟩
            rw [List.mem_singleton.1 hc]
            exact hne a ha
          · show (q ++ [b]).Pairwise fun a c => (if a = b then s.idx b + 1 else s.idx a) ≤ (if c = b then s.idx b + 1 else s.idx c)
            refine List.pairwise_append.2 ⟨?_, List.pairwise_singleton .., fun a ha c hc => ?_⟩
            · refine hp'.2.imp_of_mem fun {a c} ha hc h => ?_
              rw [if_neg (hne a ha), if_neg (hne c hc)]
              exact h
            · rw [List.mem_singleton.1 hc, if_neg (hne a ha), if_pos rfl]
              exact hg a b (List.mem_cons_self ..)
          · intro c b' hb'
            show (if c = b then s.idx b + 1 else s.idx c) ≤ (if b' = b then s.idx b + 1 else s.idx b') + 1
            have h1 := hg c b (List.mem_cons_self ..)
            rcases List.mem_append.1 hb' with h | h
            · rw [if_neg (hne b' h)]
              have h2 := hp'.1 b' h
              have h3 := hg' c b' h
              split <;> omega
            · rw [List.mem_singleton.1 h, if_pos rfl]
              split <;> omega
        · exact ⟨hn'.2, hp'.2, hg'⟩

theorem even (s : σ) (k : Nat) : Even (exec O m len x s k) := by
  induction k with
  | zero =>
    refine ⟨?_, ?_, fun _ _ _ => Nat.zero_le _⟩
    · show (if O.isDisposed (O.call (.up 0) s) then [] else List.range (m + 1)).Nodup
      split
      · exact List.nodup_nil
      · exact List.nodup_range
    · show List.Pairwise (fun _ _ => 0 ≤ 0) _
      exact List.pairwise_of_forall fun _ _ => Nat.le_refl _
  | succ k ih => exact ih.step

end

end Rpp.MergeMixed
