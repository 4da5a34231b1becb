import Verif.Combine.ConcatVals

/-!
# C28, C29: concat

Source 0 is the outer source; `arrive k`: it emits the inner source `k`; `opened k`: the operator subscribes `k`.
Every theorem speaks of all interleavings of the threads of all sources, at the granularity of single atomic operations.
-/

namespace Rpp.Cat

open Rpp.Comb (Sig Res)

variable {α ε : Type}

/-- What is always true at the moment of an event. -/
def Ok (pre : List (Ev α ε)) : Ev α ε → Prop
  | .opened k => (∀ i, .opened i ∈ pre → .recv i (.term .completed) ∈ pre) ∧ .arrive k ∈ pre ∧ .opened k ∉ pre
  | .beg i (.next v) => busy pre = false ∧ .gone ∉ pre ∧ ¬ Ended pre ∧ values pre ++ [v] = joined pre ∧ (openings pre).getLast? = some i
  | .beg _ (.term .completed) => busy pre = false ∧ .gone ∉ pre ∧ ¬ Ended pre ∧ values pre = joined pre ∧ .recv 0 (.term .completed) ∈ pre ∧
      ∀ i, .opened i ∈ pre → .recv i (.term .completed) ∈ pre
  | .beg _ (.term (.error _)) | .own _ _ => busy pre = false ∧ .gone ∉ pre ∧ ¬ Ended pre
  | .recv i _ => (i = 0 ∨ .opened i ∈ pre) ∧ ∀ t, .recv i (.term t) ∉ pre
  | .arrive k => .arrive k ∉ pre ∧ ∀ t, .recv 0 (.term t) ∉ pre
  | _ => True

/-- What the logs satisfy (for the proofs); models no code. -/
def Legal (log : List (Ev α ε)) : Prop := ∀ pre ev post, log = pre ++ ev :: post → Ok pre ev

theorem Legal.snoc {log : List (Ev α ε)} {ev : Ev α ε} (h : Legal log) (ho : Ok log ev) : Legal (log ++ [ev]) := by
  intro pre e post he
  rcases List.eq_nil_or_concat post with rfl | ⟨post', x, rfl⟩
  · obtain ⟨rfl, h2⟩ := List.append_inj' he rfl
    cases h2; exact ho
  · rw [List.concat_eq_append, ← List.cons_append, ← List.append_assoc] at he
    exact h pre e post' (List.append_inj_left' he rfl)

theorem Inv1.open_call {s : St α ε} (h : Inv1 s) {i : Nat} (hi : (s.calls i).holds = true) (hn : (s.calls i).inCb = false) (hg : s.gone = false)
    (he : (s.calls i).ending = false) : Cat.busy s.log = false ∧ .gone ∉ s.log ∧ ¬ Ended s.log := by
  have uniq : ∀ j, (s.calls j).holds = true → j = i := fun j hj => by
    have h1 := (h.lock i).mpr hi; have h2 := (h.lock j).mpr hj
    rw [h1] at h2; cases h2; rfl
  refine ⟨?_, fun hh => (by rw [h.gone hh] at hg; cases hg), fun hh => ?_⟩
  · cases hb : Cat.busy s.log with
    | false => rfl
    | true =>
      obtain ⟨j, hj⟩ := h.busy.mp hb
      obtain rfl := uniq j (holds_of_inCb hj)
      rw [hn] at hj; cases hj
  · rcases h.ended hh with h | ⟨j, hj⟩
    · rw [hg] at h; cases h
    · obtain rfl := uniq j (holds_of_ending hj)
      rw [he] at hj; cases hj

/-- All opened sources have completed when the reference count is zero. -/
theorem all_done {s : St α ε} {own cur : Option Nat} {lv : Bool} {ds : List Nat} (h2 : Inv2 s own cur) (h4 : Inv4 s lv ds) (hr : s.refs = 0) :
    cur = none ∧ own = none ∧ s.stage = .none ∧ .recv 0 (.term .completed) ∈ s.log := by
  have h := h4.refs
  rw [hr] at h
  have hs : s.stage = .none := by
    cases hh : s.stage with
    | none => rfl
    | _ => rw [hh] at h; simp at h; omega
  have hl : lv = false := by cases lv with
    | false => rfl
    | true => simp at h; omega
  have := h2.sNone hs
  refine ⟨this.2, this.1, hs, ?_⟩
  have h6 := h4.live
  rw [hl] at h6
  simp only [Bool.false_eq_true, false_iff, not_or, Classical.not_not] at h6
  exact h6.1

theorem done_of_cur {s : St α ε} {own : Option Nat} (h2 : Inv2 s own none) {i : Nat} (h : .opened i ∈ s.log) : .recv i (.term .completed) ∈ s.log := by
  refine h2.closed i (Classical.byContradiction fun hc => ?_)
  have := (h2.curr i).mp ⟨h, hc⟩
  cases this

theorem ok_tr {s s' : St α ε} {own cur : Option Nat} {lv : Bool} {ds : List Nat} (h1 : Inv1 s) (h2 : Inv2 s own cur) (h3 : Inv3 s own)
    (h4 : Inv4 s lv ds) (h5 : Inv5 s cur) (t : Tr s s') (hL : Legal s.log) : Legal s'.log := by
  cases t with
  | recv i c hc ha hd hs hn =>
    refine hL.snoc ⟨(h1.active i).mp ha, fun t ht => ?_⟩
    have := (h1.done i).mpr ⟨t, ht⟩
    rw [hd] at this; cases this
  | arrive k hc hd hs hk =>
    refine hL.snoc ⟨fun hh => ?_, fun t ht => ?_⟩
    · have := (h1.seen k).mpr (.inr hh)
      rw [hk] at this; cases this
    · have := (h1.done 0).mpr ⟨t, ht⟩
      rw [hd] at this; cases this
  | sub i k hc =>
    have hcur := h2.free i (by rw [hc]; rfl)
    subst hcur
    have hf := fresh h1 h2 h3 hc
    refine hL.snoc ⟨fun i hi => done_of_cur h2 hi, ?_, hf.2.1⟩
    have ho := h2.owner i (by rw [hc]; rfl)
    rw [← mem_arrivals]
    refine h3.perm.mem_iff.mp ?_
    rw [line, subOf_mem ho hc]; simp
  | beg i o hc hg =>
    obtain ⟨e1, e2, e3⟩ := h1.open_call (i := i) (by rw [hc]; rfl) (by rw [hc]; rfl) hg (by rw [hc]; rfl)
    rcases o with v | e | _
    · have hw := h5.way i v (.inr hc)
      have hcur : cur = some i := (h2.curr i).mp ⟨((h1.active i).mp hw.2.2).resolve_left hw.1, fun hx => by
        have := (h1.done i).mpr ⟨_, h2.closed i hx⟩
        rw [hw.2.1] at this; cases this⟩
      obtain ⟨p, hp⟩ := h5.last i hcur
      refine hL.snoc ⟨e1, e2, e3, ?_, by rw [hp]; simp⟩
      have := h5.exact hg
      rw [hcur] at this
      simpa [wayOf, hc, Pc.way] using this
    · exact hL.snoc ⟨e1, e2, e3⟩
    · have hr : s.refs = 0 := (h4.comp i (.inr hc)).resolve_left (by rw [hg]; simp)
      obtain ⟨rfl, rfl, _, h0⟩ := all_done h2 h4 hr
      refine hL.snoc ⟨e1, e2, e3, ?_, h0, fun i hi => done_of_cur h2 hi⟩
      simpa [wayOf] using h5.exact hg
  | own i e hc hg =>
    exact hL.snoc (h1.open_call (i := i) (by rw [hc]; rfl) (by rw [hc]; rfl) hg (by rw [hc]; rfl))
  | casCOk => exact hL.snoc trivial
  | casCNo => exact hL.snoc trivial
  | gone => exact hL.snoc trivial
  | finNext => exact hL.snoc trivial
  | finTerm => exact hL.snoc trivial
  | _ => exact hL

theorem legal (ls : List (Lbl α ε)) : Legal (exec ls).log := by
  have : Inv1 (exec ls) ∧ (∃ own cur lv ds, Inv2 (exec ls) own cur ∧ Inv3 (exec ls) own ∧ Inv4 (exec ls) lv ds ∧ Inv5 (exec ls) cur) ∧ Legal (exec ls).log := by
    refine exec_induct (P := fun s => Inv1 s ∧ (∃ own cur lv ds, Inv2 s own cur ∧ Inv3 s own ∧ Inv4 s lv ds ∧ Inv5 s cur) ∧ Legal s.log)
      ⟨.init, ⟨none, none, true, [], .init, .init, .init, .init⟩, fun pre ev post h => by simp at h⟩ ?_ ls
    rintro s s' ⟨h1, ⟨own, cur, lv, ds, h2, h3, h4, h5⟩, hL⟩ t
    obtain ⟨own', cur', h2', m⟩ := h2.tr h1 h3 t
    obtain ⟨lv', ds', h4'⟩ := h4.tr h1 h2 t
    exact ⟨h1.tr t, ⟨own', cur', lv', ds', h2', h3.tr h1 m, h4', h5.tr h1 (h1.tr t) h2 h3 h2' t⟩, ok_tr h1 h2 h3 h4 h5 t hL⟩
  exact this.2.2

/-- What the logs satisfy (for the proofs); models no code. -/
def Quiet (s : St α ε) : Prop := ∀ i, s.calls i = .idle

theorem not_gone (ls : List (Lbl α ε)) (hg : .gone ∉ (exec ls).log) (he : ¬ Ended (exec ls).log) : (exec ls).gone = false := by
  cases h : (exec ls).gone with
  | false => rfl
  | true => rcases (inv1 ls).why h with h | h
            · exact absurd h hg
            · exact absurd h he

/-! ## C28 -/

/-- One at a time: an inner source is subscribed only after every inner source subscribed before has completed.  It has arrived and is subscribed once. -/
theorem C28_one_at_a_time (ls : List (Lbl α ε)) (pre post : List (Ev α ε)) (k : Nat) (h : (exec ls).log = pre ++ .opened k :: post) :
    (∀ i, .opened i ∈ pre → .recv i (.term .completed) ∈ pre) ∧ .arrive k ∈ pre ∧ .opened k ∉ pre := legal ls pre _ post h

/-- Every value delivered is the next one of the concatenation of the subscribed sources' values; it comes from the last one subscribed. -/
theorem C28_next (ls : List (Lbl α ε)) (pre post : List (Ev α ε)) (i : Nat) (v : α) (h : (exec ls).log = pre ++ .beg i (.next v) :: post) :
    values pre ++ [v] = (openings pre).flatMap (fun k => sent k pre) ∧ (openings pre).getLast? = some i :=
  let h := legal ls pre _ post h; ⟨h.2.2.2.1, h.2.2.2.2⟩

/-- The output is always a prefix of that concatenation … -/
theorem C28_prefix (ls : List (Lbl α ε)) :
    values (exec ls).log <+: (openings (exec ls).log).flatMap fun k => sent k (exec ls).log := by
  obtain ⟨own, cur, lv, ds, h2, h3, h4, h5⟩ := inv5 ls
  exact h5.pre

/-- … and all of it when no call is under way (and the downstream observer is neither disposed nor ended). -/
theorem C28_concatenation (ls : List (Lbl α ε)) (hq : Quiet (exec ls)) (hg : .gone ∉ (exec ls).log) (he : ¬ Ended (exec ls).log) :
    values (exec ls).log = (openings (exec ls).log).flatMap fun k => sent k (exec ls).log := by
  obtain ⟨own, cur, lv, ds, h2, h3, h4, h5⟩ := inv5 ls
  have := h5.exact (not_gone ls hg he)
  have hw : wayOf cur (exec ls).calls = [] := by
    cases cur with
    | none => rfl
    | some i => simp [wayOf, hq i, Pc.way]
  rw [hw, List.append_nil] at this
  exact this

/-- It completes only after the outer source and every subscribed inner source have completed, having delivered all their values. -/
theorem C28_completes_last (ls : List (Lbl α ε)) (pre post : List (Ev α ε)) (i : Nat) (h : (exec ls).log = pre ++ .beg i (.term .completed) :: post) :
    .recv 0 (.term .completed) ∈ pre ∧ (∀ k, .opened k ∈ pre → .recv k (.term .completed) ∈ pre) ∧
    values pre = (openings pre).flatMap fun k => sent k pre :=
  let h := legal ls pre _ post h; ⟨h.2.2.2.2.1, h.2.2.2.2.2, h.2.2.2.1⟩

/-- It does complete once the outer source and all subscribed inner ones have. -/
theorem C28_completes (ls : List (Lbl α ε)) (hq : Quiet (exec ls)) (h0 : .recv 0 (.term .completed) ∈ (exec ls).log)
    (hk : ∀ k, .opened k ∈ (exec ls).log → .recv k (.term .completed) ∈ (exec ls).log) : .gone ∈ (exec ls).log ∨ Ended (exec ls).log := by
  obtain ⟨own, cur, lv, ds, h2, h3, h4, h5⟩ := inv5 ls
  have h1 := inv1 ls
  by_cases hg : (exec ls).gone = true
  · exact h1.why hg
  simp only [Bool.not_eq_true] at hg
  have hcur : cur = none := by
    cases hc : cur with
    | none => rfl
    | some k =>
      obtain ⟨ho, hx⟩ := (h2.curr k).mpr hc
      have hk0 : k ≠ 0 := by
        rintro rfl
        have := h3.perm.mem_iff.mp (show 0 ∈ line own (exec ls) from by simp [line, mem_openings.mpr ho])
        exact h3.zero this
      rcases h2.noted k (hk k ho) hk0 with h | h
      · exact absurd h hx
      · rw [hq k] at h; cases h
  have hds : ds = [] := by
    cases ds with
    | nil => rfl
    | cons j l => have := (h4.mem j).mp (by simp); rw [hq j] at this; cases this
  have hlv : lv = false := by
    cases hl : lv with
    | false => rfl
    | true => rcases h4.live.mp hl with h | h
              · exact absurd h0 h
              · rw [hq 0] at h; cases h
  have hr := h4.refs
  rw [hds, hlv] at hr
  have hdead : ∀ j, own = some j → (exec ls).dead = true := fun j hj => (h2.owned j hj).resolve_left (by rw [hq j]; simp [Pc.owner])
  by_cases hs : (exec ls).stage = .none
  · have h0 : (exec ls).refs = 0 := by rw [hr]; simp [hs]
    rcases h4.told h0 with h | h | ⟨j, h⟩
    · rw [hg] at h; cases h
    · exact .inr h
    · rw [hq j] at h; simp at h
  · exfalso
    have hown : own ≠ none := by
      cases hh : (exec ls).stage with
      | none => exact absurd hh hs
      | draining => exact h2.sDraining hh
      | completed => exact (h2.sCompleted hh).1
      | processing => rcases h2.sProcessing hh with h | h
                      · exact absurd hcur h.2
                      · exact h.1
    obtain ⟨j, hj⟩ := Option.ne_none_iff_exists'.mp hown
    rcases h4.dead (hdead j hj) with h | h
    · rw [hg] at h; cases h
    · rw [hr] at h; simp [hs] at h

/-- An error of any source ends the downstream observer … -/
theorem C28_error_ends (ls : List (Lbl α ε)) (i : Nat) (e : ε) (h : .recv i (.term (.error e)) ∈ (exec ls).log) (hi : (exec ls).calls i = .idle) :
    .gone ∈ (exec ls).log ∨ Ended (exec ls).log := by
  obtain ⟨own, cur, lv, ds, h2, h3, h4, h5⟩ := inv5 ls
  rcases h5.err i e h with h | h | h | h
  · exact (inv1 ls).why h
  · exact .inr h
  · rw [hi] at h; cases h
  · rw [hi] at h; cases h

/-- … and an error delivered is one that source has notified. -/
theorem C28_error_origin (ls : List (Lbl α ε)) (i : Nat) (e : ε) (h : .beg i (.term (.error e)) ∈ (exec ls).log) :
    .recv i (.term (.error e)) ∈ (exec ls).log := by
  obtain ⟨own, cur, lv, ds, h2, h3, h4, h5⟩ := inv5 ls
  exact h5.begE i e h

theorem C28_serialized (ls : List (Lbl α ε)) (pre post : List (Ev α ε)) (i : Nat) (o : Sig α ε) (h : (exec ls).log = pre ++ .beg i o :: post) :
    busy pre = false ∧ .gone ∉ pre ∧ ¬ Ended pre := by
  have := legal ls pre _ post h
  rcases o with v | e | _
  · exact ⟨this.1, this.2.1, this.2.2.1⟩
  · exact this
  · exact ⟨this.1, this.2.1, this.2.2.1⟩

/-- The assertion of `concat_inner_observer_strategy::on_completed` (157) never fails: a completion that is not seen while draining is seen while processing. -/
theorem C28_assertion (ls : List (Lbl α ε)) (i : Nat) (h : (exec ls).calls i = .casC) (hs : (exec ls).stage ≠ .draining) :
    (exec ls).stage = .processing := by
  obtain ⟨own, cur, lv, ds, h2, h3, h4, h5⟩ := inv5 ls
  have h1 := h2.casC i h
  have hcur : cur = some i := (h2.curr i).mp ⟨(((inv1 ls).active i).mp (h2.heard i _ h1.1)).resolve_left h1.2.2, h1.2.1⟩
  cases hh : (exec ls).stage with
  | none => have := h2.sNone hh; rw [hcur] at this; cases this.2
  | draining => exact absurd hh hs
  | completed => have := h2.sCompleted hh; rw [hcur] at this; cases this.2
  | processing => rfl

/-- In arrival order: missing is the race of `NoRace`, see `C28_race_refutes`. -/
theorem C28_order_partial (ls : List (Lbl α ε)) (hr : NoRace ls) : openings (exec ls).log <+: arrivals (exec ls).log := by
  obtain ⟨own, cur, lv, ds, h2, h3, h4, h5, h6⟩ := inv6 ls hr
  rw [← h6.line]
  simp only [line, List.append_assoc]
  exact List.prefix_append _ _

/-! ## C29 -/

/-- No inner source is lost: when no call is under way and every subscribed source has completed, every source that has arrived has been subscribed
(or the downstream observer is disposed or ended).  Missing is the race of `NoRace`, see `C29_refutes`. -/
theorem C29_partial (ls : List (Lbl α ε)) (hr : NoRace ls) (hq : Quiet (exec ls))
    (hk : ∀ k, .opened k ∈ (exec ls).log → .recv k (.term .completed) ∈ (exec ls).log) (hg : .gone ∉ (exec ls).log) (he : ¬ Ended (exec ls).log) :
    openings (exec ls).log = arrivals (exec ls).log := by
  obtain ⟨own, cur, lv, ds, h2, h3, h4, h5, h6⟩ := inv6 ls hr
  have h1 := inv1 ls
  have hgone := not_gone ls hg he
  have hcur : cur = none := by
    cases hc : cur with
    | none => rfl
    | some k =>
      obtain ⟨ho, hx⟩ := (h2.curr k).mpr hc
      have hk0 : k ≠ 0 := by
        rintro rfl
        exact h3.zero (h3.perm.mem_iff.mp (show 0 ∈ line own (exec ls) from by simp [line, mem_openings.mpr ho]))
      rcases h2.noted k (hk k ho) hk0 with h | h
      · exact absurd h hx
      · rw [hq k] at h; cases h
  have hown : own = none := by
    cases hh : own with
    | none => rfl
    | some j =>
      have hd := (h2.owned j hh).resolve_left (by rw [hq j]; simp [Pc.owner])
      rcases h4.dead hd with h | h
      · rw [hgone] at h; cases h
      · have := (all_done h2 h4 h).2.1; rw [hh] at this; cases this
  have hs : (exec ls).stage = .none := by
    cases hh : (exec ls).stage with
    | none => rfl
    | draining => exact absurd hown (h2.sDraining hh)
    | completed => exact absurd hown (h2.sCompleted hh).1
    | processing => rcases h2.sProcessing hh with h | h
                    · exact absurd hcur h.2
                    · exact absurd hown h.1
  have := h6.line
  rw [line, h6.none hs, hown, hq 0] at this
  simpa [subOf, Pc.pend] using this

/-- … and at its completion every source that has arrived has been subscribed and has completed. -/
theorem C29_complete_partial (ls : List (Lbl α ε)) (hr : NoRace ls) (i : Nat) (h : .beg i (.term .completed) ∈ (exec ls).log) (k : Nat)
    (hk : .arrive k ∈ (exec ls).log) : .opened k ∈ (exec ls).log ∧ .recv k (.term .completed) ∈ (exec ls).log := by
  obtain ⟨own, cur, lv, ds, h2, h3, h4, h5, h6⟩ := inv6 ls hr
  have hz := h4.beg i h
  obtain ⟨rfl, rfl, hs, h0⟩ := all_done h2 h4 hz
  have hp : ((exec ls).calls 0).pend = [] := by
    cases hh : (exec ls).calls 0 with
    | cas k => exact absurd h0 (h4.arr 0 k (.inl hh))
    | push k => exact absurd h0 (h4.arr 0 k (.inr hh))
    | _ => rfl
  have hl := h6.line
  rw [line, h6.none hs, hp] at hl
  simp [subOf] at hl
  have ho : Ev.opened k ∈ (exec ls).log := by rw [← mem_openings, hl, mem_arrivals]; exact hk
  exact ⟨ho, done_of_cur h2 ho⟩

/-! ## Concrete runs -/

/-- A value from `i` to the end of its callback. -/
def whole (i : Nat) (v : Nat) : List (Lbl Nat Nat) := [.next i v, .run i, .run i, .ret i .ok, .run i]
/-- The outer source emits `k`, and the operator subscribes it. -/
def subscribeNow (k : Nat) : List (Lbl Nat Nat) := [.arrive k, .run 0, .run 0, .run 0, .run 0]

/-- Source 1 is running when 2 (which completes while being subscribed) and 3 arrive; then the outer source completes. -/
def demo : List (Lbl Nat Nat) :=
  subscribeNow 1 ++ whole 1 10 ++ [.arrive 2, .run 0, .run 0, .arrive 3, .run 0, .run 0] ++ whole 1 11 ++
  [.term 1 .completed, .run 1, .run 1, .run 1, .run 1] ++ whole 2 20 ++ [.term 2 .completed, .run 2, .run 1, .run 1, .run 1, .run 1, .run 1, .run 1, .run 1] ++
  whole 3 30 ++ [.term 0 .completed, .run 0, .run 0] ++ whole 3 31 ++
  [.term 3 .completed, .run 3, .run 3, .run 3, .run 3, .run 3, .run 3, .run 3, .run 3, .ret 3 .ok, .run 3, .run 3]

set_option maxRecDepth 100000 in
example : arrivals (exec demo).log = [1, 2, 3] ∧ openings (exec demo).log = [1, 2, 3] ∧ values (exec demo).log = [10, 11, 20, 30, 31] ∧
    .beg 3 (.term .completed) ∈ (exec demo).log ∧ .gone ∉ (exec demo).log := by decide

/-- The race: 1's thread has found the queue empty (58) when 2 arrives; 2 is queued after that, and then 1's thread publishes that nothing is running (61). -/
def lost : List (Lbl Nat Nat) :=
  subscribeNow 1 ++ [.term 1 .completed, .run 1, .run 1, .run 1, .arrive 2, .run 0, .run 1, .run 0, .run 1, .run 1]

/-- Used in the statements and proofs of this file; models no code. -/
def Lbl.src : Lbl α ε → Nat
  | .next i _ | .term i _ | .run i | .ret i _ => i
  | _ => 0

theorem idle_beyond {ls : List (Lbl α ε)} {n : Nat} (hn : ls.all (fun l => l.src < n) = true) (h0 : 0 < n) : ∀ i, n ≤ i → (exec ls).calls i = .idle := by
  rw [List.all_eq_true] at hn
  suffices h : ∀ (s : St α ε), (∀ i, n ≤ i → s.calls i = .idle) → ∀ i, n ≤ i → (ls.foldl step s).calls i = .idle from
    h {} (fun _ _ => rfl)
  induction ls with
  | nil => exact fun s h => h
  | cons l ls ih =>
    intro s hs
    refine ih (fun l' hl' => hn l' (List.mem_cons_of_mem _ hl')) (step s l) fun i hi => ?_
    have hl := hn l (by simp)
    have ne : ∀ j, j < n → i ≠ j := fun j hj => by omega
    cases l with
    | next j v => have := ne j (of_decide_eq_true hl); simp only [step]; split <;> simp [St.goto, St.emit, this, hs i hi]
    | term j t => have := ne j (of_decide_eq_true hl); simp only [step]; split <;> simp [St.goto, St.emit, this, hs i hi]
    | arrive k => have := ne 0 h0; simp only [step]; split <;> simp [St.goto, St.emit, this, hs i hi]
    | run j =>
      have := ne j (of_decide_eq_true hl)
      simp only [step]
      unfold St.advance
      split <;> (try split) <;> simp [St.goto, St.emit, this, hs i hi]
    | ret j r =>
      have := ne j (of_decide_eq_true hl)
      simp only [step]
      split <;> simp [St.goto, St.emit, this, hs i hi]
    | gone => simp only [step]; split <;> simp [St.emit, hs i hi]
    | shut => simp only [step]; split <;> simp [hs i hi]

theorem quiet_check {ls : List (Lbl α ε)} (n : Nat) (hn : ls.all (fun l => l.src < n) = true) (h0 : 0 < n)
    (h : (List.range n).all (fun i => ((exec ls).calls i).isIdle) = true) : Quiet (exec ls) := by
  intro i
  by_cases hi : n ≤ i
  · exact idle_beyond hn h0 i hi
  · exact isIdle_eq (List.all_eq_true.mp h i (by simp; omega))

/-- A test on the constructor; models no code. -/
def Pc.isPush : Pc α ε → Bool
  | .push _ => true
  | _ => false
/-- A test on the constructor; models no code. -/
def Pc.isEmpty : Pc α ε → Bool
  | .empty => true
  | _ => false

theorem noRace_check {ls : List (Lbl α ε)} (n : Nat) (hn : ls.all (fun l => l.src < n) = true) (h0 : 0 < n)
    (h : (List.range (ls.length + 1)).all (fun m => !((exec (ls.take m)).calls 0).isPush || (List.range n).all fun i => !((exec (ls.take m)).calls i).isEmpty) = true) :
    NoRace ls := by
  rintro m j k ⟨h1, h2⟩
  have hm : ∃ m', m' < ls.length + 1 ∧ ls.take m = ls.take m' := by
    by_cases hm : m < ls.length + 1
    · exact ⟨m, hm, rfl⟩
    · exact ⟨ls.length, by omega, by rw [List.take_of_length_le (by omega), List.take_length]⟩
  obtain ⟨m', hm', e⟩ := hm
  rw [e] at h1 h2
  have hh := List.all_eq_true.mp h m' (by simpa using hm')
  rw [h1] at hh
  simp only [Pc.isPush, Bool.not_true, Bool.false_or] at hh
  by_cases hj : n ≤ j
  · have : (ls.take m').all (fun l => l.src < n) = true := by
      rw [List.all_eq_true] at hn ⊢
      exact fun l hl => hn l (List.mem_of_mem_take hl)
    rw [idle_beyond this h0 j hj] at h2; cases h2
  · have := List.all_eq_true.mp hh j (by simp; omega)
    rw [h2] at this; cases this

set_option maxRecDepth 100000 in
/-- The hypotheses of the partial theorems are met by `demo`, which ends quiet with everything delivered … -/
example : NoRace demo ∧ Quiet (exec demo) := ⟨noRace_check 4 (by decide) (by decide) (by decide), quiet_check 4 (by decide) (by decide) (by decide)⟩
set_option maxRecDepth 100000 in
/-- … and by a run whose outer source has not completed yet. -/
example : NoRace (subscribeNow 1 ++ whole 1 10 ++ [.term 1 .completed, .run 1, .run 1, .run 1, .run 1, .run 1, .run 1]) ∧
    Quiet (exec (subscribeNow 1 ++ whole 1 10 ++ [.term 1 .completed, .run 1, .run 1, .run 1, .run 1, .run 1, .run 1])) :=
  ⟨noRace_check 2 (by decide) (by decide) (by decide), quiet_check 2 (by decide) (by decide) (by decide)⟩

theorem not_ended {log : List (Ev α ε)} (h : log.all (fun | .beg _ (.term _) | .own _ _ => false | _ => true) = true) : ¬ Ended log := by
  rw [List.all_eq_true] at h
  rintro (⟨i, t, hh⟩ | ⟨i, e, hh⟩)
  · have := h _ hh; simp at this
  · have := h _ hh; simp at this

set_option maxRecDepth 100000 in
/-- C29 fails: source 2 has arrived, nothing is running, and 2 has not been subscribed; the operator waits for the next arrival. -/
theorem C29_refutes : ∃ ls : List (Lbl Nat Nat), Quiet (exec ls) ∧ .gone ∉ (exec ls).log ∧ ¬ Ended (exec ls).log ∧
    arrivals (exec ls).log = [1, 2] ∧ openings (exec ls).log = [1] ∧ .recv 1 (.term .completed) ∈ (exec ls).log :=
  ⟨lost, quiet_check 2 (by decide) (by decide) (by decide), by decide, not_ended (by decide), by decide, by decide, by decide⟩

set_option maxRecDepth 100000 in
/-- … and if the outer source completes now, the operator completes without ever subscribing 2. -/
theorem C29_completes_refutes : ∃ ls : List (Lbl Nat Nat), .beg 0 (.term .completed) ∈ (exec ls).log ∧ .gone ∉ (exec ls).log ∧
    .arrive 2 ∈ (exec ls).log ∧ .opened 2 ∉ (exec ls).log :=
  ⟨lost ++ [.term 0 .completed, .run 0, .run 0, .run 0, .run 0], by decide, by decide, by decide, by decide⟩

set_option maxRecDepth 100000 in
/-- The order fails in the same race: the next arrival overtakes the forgotten source. -/
theorem C28_race_refutes : ∃ ls : List (Lbl Nat Nat), arrivals (exec ls).log = [1, 2, 3] ∧ openings (exec ls).log = [1, 3, 2] :=
  ⟨lost ++ subscribeNow 3 ++ [.term 3 .completed, .run 3, .run 3, .run 3, .run 3], by decide, by decide⟩

end Rpp.Cat
