import Verif.Ext.StrandSteps

/-!
# The asio strand scheduler: what the log looks like
-/

namespace Rpp.Strand

/-- The function entered and not yet left. -/
def after : Option Nat → List Ev → Option Nat
  | c, [] => c
  | _, .began id .. :: l => after (some id) l
  | _, .ended .. :: l => after none l
  | c, _ :: l => after c l

theorem serial_append (c : Option Nat) (l l' : List Ev) :
    serial c (l ++ l') = (serial c l && serial (after c l) l') := by
  induction l generalizing c with
  | nil => simp [serial, after]
  | cons e l ih =>
    cases e <;> cases c <;> simp [serial, after, ih, Bool.and_assoc]

theorem after_append (c : Option Nat) (l l' : List Ev) : after c (l ++ l') = after (after c l) l' := by
  induction l generalizing c with
  | nil => simp [after]
  | cons e l ih => cases e <;> simp [after, ih]

theorem posted_append (l l' : List Ev) : posted (l ++ l') = l'.foldl postStep (posted l) := by simp [posted]

theorem served_append (l l' : List Ev) : served (l ++ l') = served l ++ served l' := by
  fun_induction served l <;> simp_all [served]

theorem errors_append (id : Nat) (l l' : List Ev) : errors id (l ++ l') = errors id l ++ errors id l' := by
  fun_induction errors id l <;> simp_all [errors]

theorem throwsOf_append (id : Nat) (l l' : List Ev) : throwsOf id (l ++ l') = throwsOf id l + throwsOf id l' := by
  fun_induction throwsOf id l <;> simp_all [throwsOf] <;> omega

/-- Reschedulings. -/
def Per (log : List Ev) : Prop :=
  ∀ pre post id at' w, log = pre ++ .ended id at' (.again w) :: post →
    ∃ h due post', post = .asked id h due .timed :: post' ∧ (∃ d0 how, Ev.asked id h d0 how ∈ pre) ∧
      ((OnCurrent id pre ∨ ∀ d, w ≠ .fromThis d) → ∃ D, lastDue id pre = some D ∧ due = wanted at' D w)

theorem Per.snoc {log : List Ev} (p : Per log) {e : Ev} (he : ∀ id a w, e ≠ .ended id a (.again w)) : Per (log ++ [e]) := by
  intro pre post id at' w hx
  rcases split_snoc hx with ⟨_, h, _⟩ | ⟨l2', h1, h2⟩
  · exact absurd h.symm (he id at' w)
  · obtain ⟨h, due, post', e1, e2⟩ := p _ _ _ _ _ h2
    exact ⟨h, due, post' ++ [e], by rw [h1, e1]; rfl, e2⟩

theorem Per.pair {log : List Ev} (p : Per log) {id : Nat} {at' : Int} {w : Delay} {h : Nat} {due : Int}
    (h1 : ∃ d0 how, Ev.asked id h d0 how ∈ log)
    (h2 : (OnCurrent id log ∨ ∀ d, w ≠ .fromThis d) → ∃ D, lastDue id log = some D ∧ due = wanted at' D w) :
    Per ((log ++ [.ended id at' (.again w)]) ++ [.asked id h due .timed]) := by
  intro pre post id' a' w' hx
  rcases split_snoc hx with ⟨_, h, _⟩ | ⟨l2', e1, e2⟩
  · simp at h
  · rcases split_snoc e2 with ⟨f1, f2, f3⟩ | ⟨l3', f1, f2⟩
    · simp at f2
      obtain ⟨rfl, rfl, rfl⟩ := f2
      subst f3
      exact ⟨h, due, [], by rw [e1, f1]; rfl, h1, h2⟩
    · obtain ⟨g, d', post', g1, g2⟩ := p _ _ _ _ _ f2
      exact ⟨g, d', post' ++ [.ended id at' (.again w)] ++ [.asked id h due .timed], by rw [e1, f1, g1]; rfl, g2⟩

/-- Events that none of the specifications counts. -/
def Quiet (e : Ev) : Prop :=
  (∃ id, e = .handed id) ∨ (∃ id, e = .dropped id .queued) ∨ (∃ id, e = .dropped id .timed) ∨ (∃ id, e = .refused id .timed) ∨
    (∃ id, e = .refused id .queued) ∨ (∃ id, e = .outer id) ∨ (∃ h, e = .disposed h) ∨ (∃ id, e = .escaped id)

/-- What the logs satisfy (for the proofs); models no code. -/
structure Logs (s : St) : Prop where
  ser : serial none s.log = true
  aft : after none s.log = (s.live.head?).map Job.id
  fifo : posted s.log = served s.log ++ (s.ready.filter (·.how = .posted)).map Job.id
  err : ∀ id, OnCurrent id s.log → (errors id s.log).length = throwsOf id s.log
  per : Per s.log
  link : ∀ a b, s.link a = some b → OnCurrent b s.log

theorem OnCurrent.app {id : Nat} {log : List Ev} (h : OnCurrent id log) (l : List Ev) : OnCurrent id (log ++ l) := by
  obtain ⟨g, d, hm⟩ := h
  exact ⟨g, d, by simp [hm]⟩

/-- A quiet event, and fields `Logs` looks at unchanged but for links. -/
theorem Logs.quiet {s s' : St} (p : Logs s) {e : Ev} (he : Quiet e) (hl : s'.log = s.log ++ [e]) (hr : s'.run = s.run)
    (hrd : s'.ready.filter (·.how = .posted) = s.ready.filter (·.how = .posted))
    (hk : ∀ a b, s'.link a = some b → OnCurrent b s.log) : Logs s' := by
  have hq : ∀ id, OnCurrent id (s.log ++ [e]) ↔ OnCurrent id s.log := fun id => onCurrent_snoc (by
    rcases he with ⟨_, rfl⟩ | ⟨_, rfl⟩ | ⟨_, rfl⟩ | ⟨_, rfl⟩ | ⟨_, rfl⟩ | ⟨_, rfl⟩ | ⟨_, rfl⟩ | ⟨_, rfl⟩ <;> simp)
  have hlive : s'.live = s.live := by simp [St.live, hr]
  refine ⟨?_, ?_, ?_, ?_, ?_, ?_⟩
  · rw [hl, serial_append, p.ser, p.aft]
    rcases he with ⟨_, rfl⟩ | ⟨_, rfl⟩ | ⟨_, rfl⟩ | ⟨_, rfl⟩ | ⟨_, rfl⟩ | ⟨_, rfl⟩ | ⟨_, rfl⟩ | ⟨_, rfl⟩ <;>
      cases (s.live.head?).map Job.id <;> rfl
  · rw [hl, after_append, p.aft, hlive]
    rcases he with ⟨_, rfl⟩ | ⟨_, rfl⟩ | ⟨_, rfl⟩ | ⟨_, rfl⟩ | ⟨_, rfl⟩ | ⟨_, rfl⟩ | ⟨_, rfl⟩ | ⟨_, rfl⟩ <;> rfl
  · rw [hl, hrd, posted_append, served_append, p.fifo]
    rcases he with ⟨_, rfl⟩ | ⟨_, rfl⟩ | ⟨_, rfl⟩ | ⟨_, rfl⟩ | ⟨_, rfl⟩ | ⟨_, rfl⟩ | ⟨_, rfl⟩ | ⟨_, rfl⟩ <;>
      simp [postStep, served]
  · intro id hc
    rw [hl] at hc ⊢
    rw [errors_append, throwsOf_append, List.length_append, p.err id ((hq id).1 hc)]
    rcases he with ⟨_, rfl⟩ | ⟨_, rfl⟩ | ⟨_, rfl⟩ | ⟨_, rfl⟩ | ⟨_, rfl⟩ | ⟨_, rfl⟩ | ⟨_, rfl⟩ | ⟨_, rfl⟩ <;>
      simp [errors, throwsOf]
  · rw [hl]
    exact p.per.snoc (by
      rcases he with ⟨_, rfl⟩ | ⟨_, rfl⟩ | ⟨_, rfl⟩ | ⟨_, rfl⟩ | ⟨_, rfl⟩ | ⟨_, rfl⟩ | ⟨_, rfl⟩ | ⟨_, rfl⟩ <;> simp)
  · intro a b h
    rw [hl]
    exact (hk a b h).app _

/-- Nothing `Logs` looks at changed. -/
theorem Logs.same {s s' : St} (p : Logs s) (hl : s'.log = s.log) (hr : s'.run = s.run)
    (hrd : s'.ready.filter (·.how = .posted) = s.ready.filter (·.how = .posted))
    (hk : ∀ a b, s'.link a = some b → OnCurrent b s.log) : Logs s' := by
  have hlive : s'.live = s.live := by simp [St.live, hr]
  exact ⟨by rw [hl]; exact p.ser, by rw [hl, hlive]; exact p.aft, by rw [hl, hrd]; exact p.fifo, by rw [hl]; exact p.err,
    by rw [hl]; exact p.per, by rw [hl]; exact hk⟩

theorem noEvents {id : Nat} {log : List Ev} (h : ∀ e ∈ log, e.about ≠ some id) :
    errors id log = [] ∧ throwsOf id log = 0 := by
  induction log with
  | nil => simp [errors, throwsOf]
  | cons e log ih =>
    have h1 := h e (by simp)
    have ih := ih (fun x hx => h x (by simp [hx]))
    cases e with
    | onError i g =>
      simp [Ev.about] at h1
      simp [errors, throwsOf, ih, h1]
    | ended i a r =>
      simp [Ev.about] at h1
      cases r <;> simp [errors, throwsOf, ih, h1]
    | _ => simpa [errors, throwsOf] using ih

/-- A request by timer or on the guard's queue, first or renewed. -/
theorem Logs.asked {s s' : St} (p : Logs s) {id g : Nat} {due : Int} {how : How} (hh : how ≠ .posted)
    (hnew : how = .queued → ∀ e ∈ s.log, e.about ≠ some id)
    (hl : s'.log = s.log ++ [.asked id g due how]) (hr : s'.run = s.run)
    (hrd : s'.ready.filter (·.how = .posted) = s.ready.filter (·.how = .posted))
    (hk : s'.link = s.link) : Logs s' := by
  have hlive : s'.live = s.live := by simp [St.live, hr]
  refine ⟨?_, ?_, ?_, ?_, ?_, ?_⟩
  · rw [hl, serial_append, p.ser, p.aft]
    cases (s.live.head?).map Job.id <;> rfl
  · rw [hl, after_append, p.aft, hlive]; rfl
  · rw [hl, hrd, posted_append, served_append, p.fifo]
    cases how <;> simp_all [postStep, served]
  · intro i hc
    rw [hl] at hc ⊢
    rw [errors_append, throwsOf_append, List.length_append]
    by_cases hi : OnCurrent i s.log
    · rw [p.err i hi]; simp [errors, throwsOf]
    · obtain ⟨g', d', hm⟩ := hc
      simp only [List.mem_append, List.mem_singleton] at hm
      rcases hm with hm | hm
      · exact absurd ⟨g', d', hm⟩ hi
      · simp at hm
        have := noEvents (id := id) (hnew hm.2.2.2.symm)
        simp [errors, throwsOf, hm.1, this]
  · rw [hl]; exact p.per.snoc (by simp)
  · intro a b h
    rw [hl]
    rw [hk] at h
    exact (p.link a b h).app _

theorem Logs.timed {s : St} (p : Logs s) {k : Job} (hk : k.how = .timed) : Logs (deferWithTime s k) := by
  unfold deferWithTime
  split
  · refine p.quiet (e := .refused k.id .timed) (by simp [Quiet]) ?_ rfl rfl p.link
    rw [← hk]; rfl
  · exact p.same rfl rfl rfl p.link

theorem fresh {s : St} (b : s.Book) : ∀ e ∈ s.log, e.about ≠ some (s.count + 1) := by
  intro e he ha
  have := b.evle e he _ ha
  omega

theorem logs_deferFor {s : St} (b : s.Book) (p : Logs s) (h : Nat) (d : Int) : Logs (deferFor s h d) := by
  unfold deferFor
  simp only
  split
  · -- posted
    have hf := fresh b
    have hx : ∀ x ∈ posted s.log, x ≠ s.count + 1 := by
      intro x hx
      rw [p.fifo] at hx
      simp only [List.mem_append, List.mem_map, List.mem_filter] at hx
      rcases hx with hx | ⟨j, ⟨hj, _⟩, rfl⟩
      · have : ∃ e ∈ s.log, e.about = some x := by
          clear hf p b
          generalize s.log = l at hx
          fun_induction served l with
          | case1 => simp at hx
          | case2 id _ _ l ih =>
            rcases List.mem_cons.1 hx with rfl | hx
            · exact ⟨_, List.mem_cons_self .., rfl⟩
            · obtain ⟨e, he, ha⟩ := ih hx; exact ⟨e, by simp [he], ha⟩
          | case3 id l ih =>
            rcases List.mem_cons.1 hx with rfl | hx
            · exact ⟨_, List.mem_cons_self .., rfl⟩
            · obtain ⟨e, he, ha⟩ := ih hx; exact ⟨e, by simp [he], ha⟩
          | case4 e l _ _ ih => obtain ⟨e, he, ha⟩ := ih hx; exact ⟨e, by simp [he], ha⟩
        obtain ⟨e, he, ha⟩ := this
        rintro rfl
        exact hf e he ha
      · have := b.le j (by simp [St.pend, hj])
        omega
    unfold defer
    split
    · refine ⟨?_, ?_, ?_, ?_, ?_, ?_⟩
      · simp only [St.say]
        rw [serial_append, serial_append, p.ser, p.aft]
        rw [after_append, p.aft]
        cases (s.live.head?).map Job.id <;> rfl
      · simp only [St.say]
        rw [after_append, after_append, p.aft]; rfl
      · simp only [St.say]
        rw [posted_append, posted_append, served_append, served_append]
        simp only [List.foldl_cons, List.foldl_nil, postStep, served, List.append_nil, List.filter_append]
        rw [List.filter_eq_self.2 (by simpa using hx)]
        rw [p.fifo]
        simp
      · intro i hc
        simp only [St.say] at hc ⊢
        rw [onCurrent_snoc (by simp), onCurrent_snoc (by simp)] at hc
        rw [errors_append, throwsOf_append, errors_append, throwsOf_append]
        simp [errors, throwsOf, p.err i hc]
      · exact (p.per.snoc (by simp)).snoc (by simp)
      · intro a c hc
        simp only [St.say]
        exact ((p.link a c hc).app _).app _
    · refine ⟨?_, ?_, ?_, ?_, ?_, ?_⟩
      · simp only [St.say]
        rw [serial_append, p.ser, p.aft]
        cases (s.live.head?).map Job.id <;> rfl
      · simp only [St.say]
        rw [after_append, p.aft]; rfl
      · simp only [St.say]
        rw [posted_append, served_append]
        simp [postStep, served, p.fifo]
      · intro i hc
        simp only [St.say] at hc ⊢
        rw [onCurrent_snoc (by simp)] at hc
        rw [errors_append, throwsOf_append]
        simp [errors, throwsOf, p.err i hc]
      · exact p.per.snoc (by simp)
      · intro a c hc
        simp only [St.say]
        exact (p.link a c hc).app _
  · have q : Logs ({ s with count := s.count + 1 }.say (.asked (s.count + 1) h (s.now + d) .timed)) :=
      p.asked (how := .timed) (by simp) (by simp) rfl rfl rfl rfl
    exact q.timed (k := ⟨s.count + 1, h, s.now + d, .timed, false⟩) rfl

theorem logs_deferTo {s : St} (p : Logs s) (h : Nat) (tp : Int) : Logs (deferTo s h tp) := by
  have q : Logs ({ s with count := s.count + 1 }.say (.asked (s.count + 1) h tp .timed)) :=
    p.asked (how := .timed) (by simp) (by simp) rfl rfl rfl rfl
  exact q.timed (k := ⟨s.count + 1, h, tp, .timed, false⟩) rfl

theorem logs_ctDefer {s : St} (b : s.Book) (c : Ctl s) (p : Logs s) (h : Nat) (tp : Int) : Logs (ctDefer s h tp) := by
  unfold ctDefer
  split
  · exact p
  · rename_i f fs hr
    simp only
    have p' : Logs ({ s with count := s.count + 1 }.say (.asked (s.count + 1) h tp .queued)) :=
      p.asked (how := .queued) (by simp) (fun _ => fresh b) rfl rfl rfl rfl
    split
    · exact p'.quiet (e := .refused (s.count + 1) .queued) (by simp [Quiet]) rfl rfl rfl p'.link
    · have hf : f ∈ s.run := by simp [hr]
      split
      · exact p'.same rfl rfl rfl p'.link
      · exact p'.quiet (e := .outer (s.count + 1)) (by simp [Quiet]) rfl rfl rfl p'.link
      · rename_i ht
        exfalso
        change s.tls f.tid = none at ht
        cases ho : f.own with
        | true => have := c.guard f hf ho; simp [ht] at this
        | false => have := (c.away f hf ho).1; simp [ht] at this

theorem logs_start {s : St} (c : Ctl s) (p : Logs s) (t : Nat) : Logs (start s t) := by
  unfold start
  split
  · rename_i j rest hrun hready
    have hlive : s.live = [] := by simp [St.live, hrun]
    have hj := c.unq j (by simp [hready])
    simp only
    split
    · cases hhow : j.how with
      | queued => exact absurd hhow hj
      | timed =>
        exact p.quiet (e := .dropped j.id .timed) (by simp [Quiet]) (by simp [St.say]) rfl
          (by simp [St.say, hready, hhow]) p.link
      | posted =>
        refine ⟨?_, ?_, ?_, ?_, ?_, ?_⟩
        · simp only [St.say]
          rw [serial_append, p.ser, p.aft]
          cases (s.live.head?).map Job.id <;> rfl
        · simp only [St.say]
          rw [after_append, p.aft]; rfl
        · simp only [St.say]
          rw [posted_append, served_append, p.fifo]
          simp [postStep, served, hready, hhow]
        · intro i hc
          simp only [St.say] at hc ⊢
          rw [onCurrent_snoc (by simp)] at hc
          rw [errors_append, throwsOf_append]
          simp [errors, throwsOf, p.err i hc]
        · exact p.per.snoc (by simp)
        · intro a c hc
          simp only [St.say]
          exact (p.link a c hc).app _
    · have key : ∀ s' : St, s'.log = s.log → s'.link = s.link → s'.ready = rest →
          Logs ({ s' with run := [⟨j, t, (s.tls t).isNone⟩] }.say (.began j.id t s.now j.how)) := by
        intro s' e1 e2 e3
        refine ⟨?_, ?_, ?_, ?_, ?_, ?_⟩
        · simp only [St.say, e1]
          rw [serial_append, p.ser, p.aft, hlive]
          rfl
        · simp only [St.say, e1]
          rw [after_append, p.aft, hlive]; rfl
        · simp only [St.say, e1, e3]
          rw [posted_append, served_append, p.fifo, hready]
          cases hhow : j.how <;> simp [postStep, served, hhow]
        · intro i hc
          simp only [St.say, e1] at hc ⊢
          rw [onCurrent_snoc (by simp)] at hc
          rw [errors_append, throwsOf_append]
          simp [errors, throwsOf, p.err i hc]
        · simp only [St.say, e1]
          exact p.per.snoc (by simp)
        · intro a c hc
          simp only [St.say, e1, e2] at hc ⊢
          exact (p.link a c hc).app _
      split
      · exact key _ rfl rfl rfl
      · exact key _ rfl rfl rfl
  · exact p

theorem handOver_logs {s : St} {q : List Job} (p : Logs s) (hq : ∀ j ∈ q, OnCurrent j.id s.log ∧ j.how = .queued) :
    Logs (handOver s q) := by
  induction q generalizing s with
  | nil => exact p
  | cons j q ih =>
    have hlink : ∀ a b, (if a = j.id then q.head?.map Job.id else s.link a) = some b → OnCurrent b s.log := by
      intro a b
      split
      · cases q with
        | nil => simp
        | cons k q => intro h; simp at h; subst h; exact (hq k (by simp)).1
      · exact p.link a b
    simp only [handOver]
    have hhow := (hq j (by simp)).2
    split
    · refine ih (p.quiet (e := .dropped j.id .queued) (by simp [Quiet]) (by simp [St.say, hhow]) rfl rfl hlink) ?_
      intro k hk
      exact ⟨(hq k (by simp [hk])).1.app _, (hq k (by simp [hk])).2⟩
    · have p2 : Logs (({ s with link := fun i => if i = j.id then q.head?.map Job.id else s.link i }).say (.handed j.id)) :=
        p.quiet (e := .handed j.id) (by simp [Quiet]) rfl rfl rfl hlink
      refine ih (p2.timed rfl) ?_
      intro k hk
      refine ⟨?_, (hq k (by simp [hk])).2⟩
      have h1 := (hq k (by simp [hk])).1
      unfold deferWithTime
      split
      · exact (h1.app [.handed j.id]).app _
      · exact h1.app [.handed j.id]

theorem ending_logs {s : St} {f : Frame} (b : s.Book) (p : Logs s) (h : s.run = [f]) (r : Res) :
    Logs (ending s f [] r) := by
  have hlive : s.live = [f.job] := by simp [St.live, h]
  have hb : ∀ {P : Job → Prop}, (∀ j ∈ s.live ++ s.pend, P j) → P f.job := fun hp => hp _ (by simp [hlive])
  have hlast := hb b.last
  have hkind := hb b.kind
  have hhand := hb b.hand
  unfold ending
  cases r with
  | done =>
    refine ⟨?_, ?_, ?_, ?_, ?_, ?_⟩
    · simp only [St.say]
      rw [serial_append, p.ser, p.aft, hlive]
      simp [serial]
    · simp only [St.say]
      rw [after_append]; rfl
    · simp only [St.say]
      rw [posted_append, served_append, p.fifo]
      simp [postStep, served]
    · intro i hc
      simp only [St.say] at hc ⊢
      rw [onCurrent_snoc (by simp)] at hc
      rw [errors_append, throwsOf_append]
      simp [errors, throwsOf, p.err i hc]
    · exact p.per.snoc (by simp)
    · intro a c hc
      simp only [St.say]
      exact (p.link a c hc).app _
  | again w =>
    simp only
    refine Logs.timed ?_ rfl
    refine ⟨?_, ?_, ?_, ?_, ?_, ?_⟩
    · simp only [St.say]
      rw [serial_append, serial_append, p.ser, p.aft, hlive]
      simp [serial, after_append, after]
    · simp only [St.say]
      rw [after_append, after_append]; rfl
    · simp only [St.say]
      rw [posted_append, posted_append, served_append, served_append, p.fifo]
      simp [postStep, served]
    · intro i hc
      simp only [St.say] at hc ⊢
      rw [onCurrent_snoc (by simp), onCurrent_snoc (by simp)] at hc
      rw [errors_append, throwsOf_append, errors_append, throwsOf_append]
      simp [errors, throwsOf, p.err i hc]
    · refine p.per.pair hhand ?_
      intro hor
      refine ⟨_, hlast, ?_⟩
      cases hv : f.job.via with
      | true => cases w <;> rfl
      | false =>
        have hn : ¬ OnCurrent f.job.id s.log := fun hc => by rw [← hkind, hv] at hc; simp at hc
        rcases hor with hc | hc
        · exact absurd hc hn
        · cases w with
          | fromThis d => exact absurd rfl (hc d)
          | _ => rfl
    · intro a c hc
      simp only [St.say]
      exact ((p.link a c hc).app _).app _
  | throws =>
    simp only
    split
    · refine ⟨?_, ?_, ?_, ?_, ?_, ?_⟩
      · simp only [St.say]
        rw [serial_append, serial_append, p.ser, p.aft, hlive]
        simp [serial, after_append, p.aft, hlive, after]
      · simp only [St.say]
        rw [after_append]; rfl
      · simp only [St.say]
        rw [posted_append, posted_append, served_append, served_append, p.fifo]
        simp [postStep, served]
      · intro i hc
        simp only [St.say] at hc ⊢
        rw [onCurrent_snoc (by simp), onCurrent_snoc (by simp)] at hc
        rw [errors_append, throwsOf_append, errors_append, throwsOf_append]
        simp only [errors, throwsOf, List.length_append, p.err i hc]
        split <;> simp
      · exact (p.per.snoc (by simp)).snoc (by simp)
      · intro a c hc
        simp only [St.say]
        exact ((p.link a c hc).app _).app _
    · rename_i hv
      have hn : ¬ OnCurrent f.job.id s.log := fun hc => hv (hkind.2 hc)
      refine ⟨?_, ?_, ?_, ?_, ?_, ?_⟩
      · simp only [St.say]
        rw [serial_append, serial_append, p.ser, p.aft, hlive]
        simp [serial, after_append, after]
      · simp only [St.say]
        rw [after_append, after_append]; rfl
      · simp only [St.say]
        rw [posted_append, posted_append, served_append, served_append, p.fifo]
        simp [postStep, served]
      · intro i hc
        simp only [St.say] at hc ⊢
        rw [onCurrent_snoc (by simp), onCurrent_snoc (by simp)] at hc
        rw [errors_append, throwsOf_append, errors_append, throwsOf_append]
        have hne : f.job.id ≠ i := by rintro rfl; exact hn hc
        simp [errors, throwsOf, p.err i hc, hne]
      · exact (p.per.snoc (by simp)).snoc (by simp)
      · intro a c hc
        simp only [St.say]
        exact ((p.link a c hc).app _).app _

theorem logs_finish {s : St} (b : s.Book) (c : Ctl s) (p : Logs s) (r : Res) : Logs (finish s r) := by
  cases hr : s.run with
  | nil => unfold finish; rw [hr]; exact p
  | cons f fs =>
    have hfs : fs = [] := by
      have := c.one
      rw [hr] at this
      cases fs with
      | nil => rfl
      | cons _ _ => simp at this
    subst hfs
    rw [finish_eq hr]
    have p2 := ending_logs b p hr r
    have b2 := ending_book b hr r
    have hq : (ending s f [] r).queue = s.queue := by
      unfold ending
      cases r with
      | done => rfl
      | again w => exact (timed_same _ _).2.2.2.2.2.2.1
      | throws => simp only; split <;> rfl
    unfold unguard
    split
    · have p3 := handOver_logs (q := (ending s f [] r).queue) p2 (by
        intro j hj
        have hv := c.via j (hq ▸ hj)
        exact ⟨(b2.kind j (by simp [St.pend, hj])).1 hv.1, hv.2⟩)
      exact p3.same rfl rfl rfl p3.link
    · exact p2

theorem step_logs {s : St} (b : s.Book) (c : Ctl s) (p : Logs s) (l : Lbl) : Logs (step s l) := by
  cases l with
  | schedule h d => exact logs_deferFor b p h d
  | scheduleTo h tp => exact logs_deferTo p h tp
  | current h d => exact logs_ctDefer b c p h _
  | currentTo h tp => exact logs_ctDefer b c p h tp
  | dispose h => exact p.quiet (e := .disposed h) (by simp [Quiet]) rfl rfl rfl p.link
  | tick k => exact p.same rfl rfl rfl p.link
  | expire i =>
    simp only [step]
    split
    · rename_i j hj
      have hm := c.tim j (List.mem_of_getElem? hj)
      split
      · exact p.same rfl rfl (by simp [hm]) p.link
      · exact p
    · exact p
  | start t => exact logs_start c p t
  | finish r => exact logs_finish b c p r
  | own t =>
    simp only [step]
    split
    · exact p.same rfl rfl rfl p.link
    · exact p

theorem exec_logs (ls : List Lbl) : Logs (exec ls) := by
  refine Sched.snoc_ind (P := fun ls => Logs (exec ls)) ?_ ?_ ls
  · refine ⟨rfl, rfl, rfl, ?_, ?_, ?_⟩
    · rintro id ⟨_, _, hm⟩; simp [exec] at hm
    · intro pre post id a w h; simp [exec] at h
    · intro a b h; simp [exec] at h
  · intro ls l p
    rw [exec_snoc]
    exact step_logs (exec_inv ls).1 (exec_inv ls).2 p l

end Rpp.Strand
