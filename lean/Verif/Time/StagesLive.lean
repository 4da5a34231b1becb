import Verif.Time.StagesProofs

/-!
# Proofs about pipelines cut into stages: nothing gets stuck
-/

namespace Rpp.Stages
open Rpp.Time (Delay.St Delay.Item Delay.CPc Delay.TPc)

/-! ## One cut -/

section
variable {α ε : Type}

/-- Steps a call still has to make; models no code. -/
def wc : Delay.CPc α ε → Nat
  | .idle => 0
  | .inErr _ => 1
  | .sched _ => 1
  | .clearing _ => 2
  | .checked _ => 3

/-- Steps a task still has to make, besides those for the items in the queue; models no code. -/
def wt : Delay.TPc α ε → Nat
  | .none => 0
  | .over => 0
  | .loop => 1
  | .waiting _ => 2
  | .inCall _ => 2
  | .hold .. => 3

theorem wc_call (clr d) (s : Delay.St α ε) (hm : s.mutex = none ∨ (s.calls 0).locks = true)
    (hc : s.calls 0 ≠ .idle) : wc ((Time.Delay.step clr d s (.call 0)).calls 0) < wc (s.calls 0) := by
  simp only [Time.Delay.step, Time.Delay.stepCall]
  split
  · next h => exact absurd h hc
  · next x h =>
    rw [h] at hm
    have hm : s.mutex = none := by rcases hm with h | h; exact h; cases h
    rw [hm]
    split
    · next h => cases h
    · split
      · simp [Time.Delay.St.emit, Time.Delay.St.setCall, h, wc]
      · simp only [Time.Delay.St.emplace]
        split <;> simp [Time.Delay.St.emit, Time.Delay.St.setCall, h, wc]
  · next h => simp [Time.Delay.St.setTask, Time.Delay.St.setCall, h, wc]
  · next h => split <;> simp [Time.Delay.St.emit, Time.Delay.St.setCall, h, wc]
  · next h => simp [Time.Delay.St.emit, Time.Delay.St.setCall, h, wc]

/-- The weight of a draining task; models no code. -/
def weight (s : Delay.St α ε) (t : Nat) : Nat :=
  match s.tasks t with
  | .none => 0
  | .over => 0
  | p => wt p + 4 * s.queue.length

/-- All items in the queue are due; models no code. -/
def Ripe (s : Delay.St α ε) : Prop := ∀ b ∈ s.queue, b.2 ≤ s.now

theorem task_step (clr d) (s : Delay.St α ε) (t : Nat) (hm : s.mutex = none) (hr : Ripe s)
    (ht : (s.tasks t).live = true) :
    weight (Time.Delay.step clr d s (.task t)) t < weight s t ∧
    Ripe (Time.Delay.step clr d s (.task t)) ∧
    (Time.Delay.step clr d s (.task t)).calls = s.calls ∧
    (Time.Delay.step clr d s (.task t)).mutex = none ∧
    ∀ u, u ≠ t → (Time.Delay.step clr d s (.task t)).tasks u = s.tasks u := by
  simp only [Time.Delay.step, Time.Delay.stepTask]
  split
  · next h => rw [h] at ht; cases ht
  · next h => rw [h] at ht; cases ht
  · next h =>
    refine ⟨?_, hr, rfl, hm, fun u hu => by simp [Time.Delay.St.setTask, hu]⟩
    cases s.disposed <;> simp [weight, Time.Delay.St.setTask, h, wt] <;> omega
  · next h =>
    split
    · next h' => rw [hm] at h'; cases h'
    · split
      · next hq =>
        refine ⟨?_, hr, rfl, hm, fun u hu => by simp [Time.Delay.St.setTask, hu]⟩
        simp [weight, Time.Delay.St.setTask, h, wt, hq]
      · next x tp q hq =>
        split
        · next hn =>
          have := hr (x, tp) (by rw [hq]; simp)
          simp only at this
          omega
        · refine ⟨?_, ?_, rfl, hm, fun u hu => by simp [Time.Delay.St.setTask, Time.Delay.St.emit, hu]⟩
          · simp [weight, Time.Delay.St.setTask, Time.Delay.St.emit, h, hq, wt]; omega
          · intro b hb
            exact hr b (by rw [hq]; exact List.mem_cons_of_mem _ hb)
  · next h =>
    split
    · refine ⟨?_, hr, rfl, hm, fun u hu => by simp [Time.Delay.St.setTask, Time.Delay.St.emit, hu]⟩
      simp [weight, Time.Delay.St.setTask, Time.Delay.St.emit, h, wt]
    · refine ⟨?_, hr, rfl, hm, fun u hu => by simp [Time.Delay.St.setTask, Time.Delay.St.emit, hu]⟩
      simp [weight, Time.Delay.St.setTask, Time.Delay.St.emit, h, wt]
  · next h =>
    refine ⟨?_, hr, rfl, hm, fun u hu => by simp [Time.Delay.St.setTask, Time.Delay.St.emit, hu]⟩
    simp [weight, Time.Delay.St.setTask, Time.Delay.St.emit, h, wt]

end

/-! ## Reaching a state -/

section
variable {ε : Type} [DecidableEq ε] {ov : ε}

/-- Some steps at the cuts, none of them an outside disposal, lead to a state with `P`; models no code. -/
def Can {α γ : Type} (ov : ε) [DecidableEq γ] (react : List (Call γ ε) → Reaction ε) (c : Chain ε α γ) (s : c.State)
    (P : c.State → Prop) : Prop :=
  ∃ l : List (Nat × Act), (∀ x ∈ l, x.2 ≠ .dispose) ∧ P (l.foldl (fun s x => c.act ov react s x.1 x.2) s)

variable {α β γ : Type} [DecidableEq γ] {react : List (Call γ ε) → Reaction ε}

theorem Can.here {c : Chain ε α γ} {s : c.State} {P : c.State → Prop} (h : P s) : Can ov react c s P :=
  ⟨[], (fun _ h => by cases h), h⟩

theorem Can.step {c : Chain ε α γ} {s : c.State} {P : c.State → Prop} (n : Nat) (a : Act) (ha : a ≠ .dispose)
    (h : Can ov react c (c.act ov react s n a) P) : Can ov react c s P := by
  obtain ⟨l, hl, h⟩ := h
  refine ⟨(n, a) :: l, ?_, h⟩
  intro x hx
  rcases List.mem_cons.1 hx with rfl | hx
  · exact ha
  · exact hl x hx

theorem Can.bind {c : Chain ε α γ} {s : c.State} {P Q : c.State → Prop} (h : Can ov react c s P)
    (hq : ∀ s', P s' → Can ov react c s' Q) : Can ov react c s Q := by
  obtain ⟨l, hl, h⟩ := h
  obtain ⟨m, hm, h'⟩ := hq _ h
  refine ⟨l ++ m, ?_, by rw [List.foldl_append]; exact h'⟩
  intro x hx
  rcases List.mem_append.1 hx with hx | hx
  · exact hl x hx
  · exact hm x hx

theorem Can.rest {p : Pipe ε α β} {clr : Bool} {d : Nat} {rest : Chain ε β γ} {k : Link α β ε} {r : rest.State}
    {P : rest.State → Prop} (h : Can ov react rest r P) :
    Can ov react (.stage p clr d rest) (k, r) (fun s => s.1 = k ∧ P s.2) := by
  obtain ⟨l, hl, h⟩ := h
  refine ⟨l.map (fun x => (x.1 + 1, x.2)), ?_, ?_⟩
  · intro x hx
    obtain ⟨y, hy, rfl⟩ := List.mem_map.1 hx
    exact hl y hy
  · have : ∀ (l : List (Nat × Act)) (r : rest.State),
        (l.map (fun x => (x.1 + 1, x.2))).foldl (fun s x => (Chain.stage p clr d rest).act ov react s x.1 x.2)
          ((k, r) : (Chain.stage p clr d rest).State) = (k, l.foldl (fun s x => rest.act ov react s x.1 x.2) r) := by
      intro l
      induction l with
      | nil => intro r; rfl
      | cons x l ih => intro r; exact ih _
    rw [this]
    exact ⟨rfl, h⟩

theorem quiet_busy : {α γ : Type} → (c : Chain ε α γ) → (s : c.State) → c.Quiet s → c.busy s = false
  | _, _, .last _, _, _ => rfl
  | _, _, .stage p _ _ _, s, h => by
    show (!(pending p s.1).isEmpty || !isIdle (s.1.st.calls 0)) = false
    rw [h.1, h.2.1.1 0]; rfl

/-- A step of a cut, when the chain behind it is not busy. -/
theorem advance_eq {clr : Bool} {d : Nat} {rest : Chain ε β γ} {s : Link α β ε × rest.State} (l : Time.Delay.Lbl β ε)
    (hb : rest.busy s.2 = false) :
    (advance clr d rest s l).1 = { s.1 with st := Time.Delay.step clr d s.1.st l } := by
  unfold advance
  rw [hb, Bool.and_false]
  rfl

/-- From here on, for one cut: the chain behind it can always be brought to rest. -/
theorem can_stage {u : Bool} (p : Pipe ε α β) (clr : Bool) (d : Nat) (rest : Chain ε β γ)
    (ih : ∀ r, rest.Good ov u react r → Can ov react rest r (fun r' => rest.Good ov u react r' ∧ rest.Quiet r'))
    (s : (Chain.stage p clr d rest).State) (hg : (Chain.stage p clr d rest).Good ov u react s) :
    Can ov react (.stage p clr d rest) s
      (fun s' => (Chain.stage p clr d rest).Good ov u react s' ∧ (Chain.stage p clr d rest).Quiet s') := by
  -- bring the chain behind the cut to rest
  have quiet : ∀ s : (Chain.stage p clr d rest).State, (Chain.stage p clr d rest).Good ov u react s →
      Can ov react (.stage p clr d rest) s (fun s' => (Chain.stage p clr d rest).Good ov u react s' ∧ s'.1 = s.1 ∧ rest.Quiet s'.2) := by
    intro s hg
    obtain ⟨l, hl, h⟩ := Can.rest (p := p) (clr := clr) (d := d) (k := s.1) (ih s.2 hg.2.2.2)
    refine ⟨l, hl, ?_, h.1, h.2.2⟩
    have : ∀ (l : List (Nat × Act)) (s : (Chain.stage p clr d rest).State), (∀ x ∈ l, x.2 ≠ .dispose) →
        (Chain.stage p clr d rest).Good ov u react s →
        (Chain.stage p clr d rest).Good ov u react (l.foldl (fun s x => (Chain.stage p clr d rest).act ov react s x.1 x.2) s) := by
      intro l
      induction l with
      | nil => exact fun s _ h => h
      | cons x l ihl =>
        intro s hl h
        exact ihl _ (fun y hy => hl y (List.mem_cons_of_mem _ hy))
          (Chain.good_act _ s x.1 x.2 (.inl (hl x List.mem_cons_self)) h)
    exact this l s hl hg
  have act : ∀ (s : (Chain.stage p clr d rest).State) (a : Act), a ≠ .dispose →
      (Chain.stage p clr d rest).Good ov u react s → (Chain.stage p clr d rest).Good ov u react
        ((Chain.stage p clr d rest).act ov react s 0 a) :=
    fun s a ha h => Chain.good_act _ s 0 a (.inl ha) h
  -- let the call in progress return
  have idle : ∀ (n : Nat) (s : (Chain.stage p clr d rest).State), wc (s.1.st.calls 0) = n →
      (Chain.stage p clr d rest).Good ov u react s →
      Can ov react (.stage p clr d rest) s (fun s' => (Chain.stage p clr d rest).Good ov u react s' ∧ 
        pending p s'.1 = pending p s.1 ∧ s'.1.st.calls 0 = .idle) := by
    intro n
    induction n using Nat.strongRecOn with
    | ind n ihn =>
      intro s hn hg
      by_cases hc : s.1.st.calls 0 = .idle
      · exact .here ⟨hg, rfl, hc⟩
      · refine (quiet s hg).bind ?_
        rintro ⟨k, r⟩ ⟨hg', hk, hq⟩
        have hk : k = s.1 := hk
        subst hk
        refine .step 0 .call (by simp) ?_
        have hadv : ((Chain.stage p clr d rest).act ov react (s.1, r) 0 .call).1 =
            { s.1 with st := Time.Delay.step clr d s.1.st (.call 0) } :=
          advance_eq (s := (s.1, r)) _ (quiet_busy rest r hq)
        obtain ⟨ls, hr⟩ := hg.1.reach
        obtain ⟨-, ⟨own, ho⟩, -⟩ := Time.Delay.all_inv clr d ls
        rw [← hr] at ho
        have hm : s.1.st.mutex = none ∨ (s.1.st.calls 0).locks = true := by
          cases hm : s.1.st.mutex with
          | none => exact .inl rfl
          | some i =>
            have h1 := ho.mtx' i hm
            by_cases hi : i = 0
            · subst hi; exact .inr h1
            · rw [hg.1.one i hi] at h1; cases h1
        have hlt := wc_call clr d s.1.st hm hc
        have := ihn (wc (((Chain.stage p clr d rest).act ov react (s.1, r) 0 .call).1.st.calls 0)) (by rw [hadv, ← hn]; exact hlt)
          _ rfl (act _ .call (by simp) hg')
        refine this.bind fun s' h => .here ⟨h.1, ?_, h.2.2⟩
        rw [h.2.1, hadv]
        rfl
  -- let the piece hand over everything
  have empty : ∀ (n : Nat) (s : (Chain.stage p clr d rest).State), (pending p s.1).length = n →
      (Chain.stage p clr d rest).Good ov u react s →
      Can ov react (.stage p clr d rest) s (fun s' => (Chain.stage p clr d rest).Good ov u react s' ∧ 
        pending p s'.1 = [] ∧ s'.1.st.calls 0 = .idle) := by
    intro n
    induction n with
    | zero =>
      intro s hn hg
      refine (idle _ s rfl hg).bind fun s' h => .here ⟨h.1, ?_, h.2.2⟩
      rw [h.2.1]; exact List.eq_nil_of_length_eq_zero hn
    | succ n ihn =>
      intro s hn hg
      refine (idle _ s rfl hg).bind fun s' h => ?_
      obtain ⟨hg', hp', hc'⟩ := h
      refine .step 0 .push (by simp) (ihn _ ?_ (act _ .push (by simp) hg'))
      show (pending p (cutAct ov react p clr d rest s' .push).1).length = n
      cases hp : pending p s'.1 with
      | nil => rw [← hp', hp] at hn; cases hn
      | cons y m =>
        have : (cutAct ov react p clr d rest s' .push).1 =
            { s'.1 with sent := s'.1.sent + 1, st := Time.Delay.step clr d s'.1.st (.arrive 0 y) } := by
          simp only [cutAct, hp, hc', isIdle]; rfl
        rw [this]
        have h1 : pending p s'.1 = pending p s.1 := hp'
        rw [← h1] at hn
        simp only [pending, List.length_drop] at hn ⊢
        omega
  -- let the task run dry
  have dry : ∀ (n : Nat) (s : (Chain.stage p clr d rest).State) (t : Nat), weight s.1.st t = n →
      (Chain.stage p clr d rest).Good ov u react s → pending p s.1 = [] → (∀ i, s.1.st.calls i = .idle) →
      s.1.st.mutex = none → Ripe s.1.st → (∀ v, v ≠ t → (s.1.st.tasks v).live = false) →
      Can ov react (.stage p clr d rest) s (fun s' => (Chain.stage p clr d rest).Good ov u react s' ∧ 
        pending p s'.1 = [] ∧ Time.Delay.Quiescent s'.1.st) := by
    intro n
    induction n using Nat.strongRecOn with
    | ind n ihn =>
      intro s t hn hg hp hc hm hr hv
      cases ht : (s.1.st.tasks t).live with
      | false =>
        refine .here ⟨hg, hp, hc, fun v => ?_⟩
        have : (s.1.st.tasks v).live = false := by
          by_cases hvt : v = t
          · rw [hvt]; exact ht
          · exact hv v hvt
        revert this
        cases s.1.st.tasks v <;> simp [Time.Delay.TPc.live]
      | true =>
        refine (quiet s hg).bind ?_
        rintro ⟨k, r⟩ ⟨hg', hk, hq⟩
        have hk : k = s.1 := hk
        subst hk
        refine .step 0 (.task t) (by simp) ?_
        have hadv : ((Chain.stage p clr d rest).act ov react (s.1, r) 0 (.task t)).1 =
            { s.1 with st := Time.Delay.step clr d s.1.st (.task t) } :=
          advance_eq (s := (s.1, r)) _ (quiet_busy rest r hq)
        obtain ⟨h1, h2, h3, h4, h5⟩ := task_step clr d s.1.st t hm hr ht
        refine ihn _ ?_ _ t rfl (act _ (.task t) (by simp) hg') ?_ ?_ ?_ ?_ ?_
        · rw [hadv, ← hn]; exact h1
        · rw [hadv]; exact hp
        · rw [hadv]; intro i; show (Time.Delay.step clr d s.1.st (.task t)).calls i = _; rw [h3]; exact hc i
        · rw [hadv]; exact h4
        · rw [hadv]; exact h2
        · rw [hadv]; intro v hvt; show ((Time.Delay.step clr d s.1.st (.task t)).tasks v).live = _; rw [h5 v hvt]; exact hv v hvt
  refine (empty _ s rfl hg).bind ?_
  intro s1 ⟨hg1, hp1, hc1⟩
  obtain ⟨ls, hr⟩ := hg1.1.reach
  obtain ⟨-, ⟨own, ho⟩, -⟩ := Time.Delay.all_inv clr d ls
  rw [← hr] at ho
  have hcall : ∀ i, s1.1.st.calls i = .idle := fun i => by
    by_cases hi : i = 0
    · rw [hi]; exact hc1
    · exact hg1.1.one i hi
  have hm : s1.1.st.mutex = none := by
    cases hm : s1.1.st.mutex with
    | none => rfl
    | some i => have := ho.mtx' i hm; rw [hcall i] at this; cases this
  have hK : ∀ q : List (Delay.Item β ε × Nat), ∃ K, ∀ b ∈ q, b.2 ≤ K := by
    intro q
    induction q with
    | nil => exact ⟨0, fun _ h => by cases h⟩
    | cons b q ih =>
      obtain ⟨K, hK⟩ := ih
      refine ⟨K + b.2, fun c hc => ?_⟩
      rcases List.mem_cons.1 hc with rfl | hc
      · omega
      · have := hK c hc; omega
  obtain ⟨K, hK⟩ := hK s1.1.st.queue
  refine .step 0 (.tick K) (by simp) ?_
  have hex : ∃ t, ∀ v, v ≠ t → (s1.1.st.tasks v).live = false := by
    by_cases hh : ∃ t, (s1.1.st.tasks t).live = true
    · obtain ⟨t, ht⟩ := hh
      refine ⟨t, fun v hv => ?_⟩
      cases hl : (s1.1.st.tasks v).live with
      | false => rfl
      | true =>
        have h1 := ho.live t ht
        have h2 := ho.live v hl
        rw [h1] at h2
        cases h2
        exact absurd rfl hv
    · refine ⟨0, fun v _ => ?_⟩
      cases hl : (s1.1.st.tasks v).live with
      | false => rfl
      | true => exact absurd ⟨v, hl⟩ hh
  obtain ⟨t, ht⟩ := hex
  have := dry _ ((Chain.stage p clr d rest).act ov react s1 0 (.tick K)) t rfl (act _ (.tick K) (by simp) hg1) hp1 hcall hm
    (fun b hb => by
      have := hK b hb
      show b.2 ≤ s1.1.st.now + K
      omega) ht
  refine this.bind ?_
  intro s2 ⟨hg2, hp2, hq2⟩
  refine (quiet s2 hg2).bind ?_
  rintro s3 ⟨hg3, hk3, hq3⟩
  refine .here ⟨hg3, ?_, ?_, hq3⟩
  · rw [hk3]; exact hp2
  · rw [hk3]; exact hq2

theorem can_quiet {u : Bool} : {α γ : Type} → [DecidableEq γ] → {react : List (Call γ ε) → Reaction ε} →
    (c : Chain ε α γ) → (s : c.State) → c.Good ov u react s →
    Can ov react c s (fun s' => c.Good ov u react s' ∧ c.Quiet s')
  | _, _, _, _, .last _, s, _ => .here ⟨trivial, trivial⟩
  | _, _, _, _, .stage p clr d rest, s, h => can_stage p clr d rest (fun r hr => can_quiet rest r hr) s h

end

theorem noError_of_delays {ε : Type} [DecidableEq ε] {ov : ε} {u : Bool} : {α γ : Type} → [DecidableEq γ] →
    {react : List (Call γ ε) → Reaction ε} → (c : Chain ε α γ) → c.delays → (s : c.State) → c.Good ov u react s → c.NoError s
  | _, _, _, _, .last _, _, _, _ => trivial
  | _, _, _, _, .stage p clr d rest, hc, s, hg => by
    obtain ⟨hk, -, -, hrest⟩ := hg
    refine ⟨?_, noError_of_delays rest hc.2 s.2 hrest⟩
    obtain ⟨ls, hr⟩ := hk.reach
    rw [hr, hc.1]
    refine Time.Delay.exec_induct false d (P := fun s => ∀ e t, .failed e t ∉ s.log) (fun _ _ h => by cases h) ?_ ls
    intro s s' h t e u hm
    cases t with
    | clear i e hi hm hc => cases hc
    | _ => simp_all

end Rpp.Stages
