import Verif.Subject.ConnectProofs

/-!
# connect(): properties C86, C87

`exec ls` is any execution of any number of `connect` calls, with the source emitting and attaching disposables, connections being
disposed, and the subject ending, in any order.
-/

namespace Rpp.Connect

/-- A concrete run: call 0 connects, call 1 joins, the source attaches a disposable and emits; the connection is disposed; call 2
connects anew; the source completes; call 3 is refused. -/
def demo : List Lbl :=
  [.connect 0 (some 10), .subscribe 0, .connect 1 (some 11), .upstream 0 100, .emit 0 false, .done 0, .dispose 10,
   .connect 2 (some 12), .subscribe 2, .upstream 2 101, .emit 2 true, .done 2, .connect 3 (some 13), .subscribe 3]

theorem demo_log : (exec demo).log =
    [.opened 0 (some 10), .subscribed 0 10, .joined 1 10, .took 0 100, .began 0, .ended 0, .down 10, .freed 100,
     .opened 2 (some 12), .subscribed 2 12, .took 2 101, .began 2, .ended 2, .closed, .freed 101, .down 12, .refused 3] := by decide

/-- **C86** (one at a time): the source is subscribed only when every earlier subscription of it is disposed; the subscription's
own disposable is not; and once per call. -/
theorem C86_single (ls : List Lbl) (pre post : List Ev) (c w : Nat) (h : (exec ls).log = pre ++ .subscribed c w :: post) :
    .down w ∉ pre ∧ (∀ c' w', .subscribed c' w' ∈ pre → .down w' ∈ pre) ∧ ∀ w', .subscribed c w' ∉ pre :=
  ((exec_inv ls).ok pre _ post h).2

example : ∃ pre post, (exec demo).log = pre ++ .subscribed 2 12 :: post ∧ Ev.subscribed 0 10 ∈ pre :=
  ⟨(exec demo).log.take 9, _, by rw [demo_log]; rfl, by decide⟩

/-- **C86** (the result): `connect()` opens a connection only if there is none that is not disposed, … -/
theorem C86_opened (ls : List Lbl) (pre post : List Ev) (c : Nat) (w : Option Nat)
    (h : (exec ls).log = pre ++ .opened c w :: post) :
    .closed ∉ pre ∧ ∀ c' w', .opened c' (some w') ∈ pre → .down w' ∈ pre :=
  ⟨((exec_inv ls).ok pre _ post h).1, ((exec_inv ls).ok pre _ post h).2.1⟩

/-- … gives the disposable of the one that is otherwise, … -/
theorem C86_joined (ls : List Lbl) (pre post : List Ev) (c w : Nat) (h : (exec ls).log = pre ++ .joined c w :: post) :
    .closed ∉ pre ∧ .down w ∉ pre ∧ ∃ c', .opened c' (some w) ∈ pre :=
  have q := (exec_inv ls).ok pre _ post h
  ⟨q.1, q.2.2.1, q.2.1⟩

/-- … and an empty one exactly when the subject has ended. -/
theorem C86_refused (ls : List Lbl) (pre post : List Ev) (c : Nat) (h : (exec ls).log = pre ++ .refused c :: post) :
    .closed ∈ pre := ((exec_inv ls).ok pre _ post h).1

/-- **C86** (joining changes nothing): a call that joins or is refused never subscribes the source, whatever follows. -/
theorem C86_no_effect (ls : List Lbl) (c w : Nat) (h : (∃ w', .joined c w' ∈ (exec ls).log) ∨ .refused c ∈ (exec ls).log) :
    .subscribed c w ∉ (exec ls).log := by
  intro hs
  have ho := (exec_inv ls).subo c w hs
  obtain ⟨p, q, e⟩ := List.append_of_mem ho
  have hok := (exec_inv ls).ok p _ q e
  obtain ⟨_, _, o1, o2, o3⟩ := hok
  have key : ∀ x, (x = .refused c ∨ ∃ w', x = .joined c w') → x ∈ (exec ls).log → False := by
    intro x hx hm
    rw [e] at hm
    simp only [List.mem_append, List.mem_cons] at hm
    rcases hm with hm | hm | hm
    · rcases hx with rfl | ⟨w', rfl⟩
      · exact o3 hm
      · exact o2 _ hm
    · rcases hx with rfl | ⟨w', rfl⟩ <;> cases hm
    · obtain ⟨p2, q2, e2⟩ := List.append_of_mem hm
      have hok2 := (exec_inv ls).ok (p ++ .opened c (some w) :: p2) x q2 (by rw [e, e2]; simp)
      rcases hx with rfl | ⟨w', rfl⟩
      · exact hok2.2.1 (some w) (by simp)
      · exact hok2.2.2.2.1 (some w) (by simp)
  rcases h with ⟨w', h⟩ | h
  · exact key _ (.inr ⟨w', rfl⟩) h
  · exact key _ (.inl rfl) h

example : (∃ w', .joined 1 w' ∈ (exec demo).log) ∧ .refused 3 ∈ (exec demo).log :=
  ⟨⟨10, by rw [demo_log]; simp⟩, by rw [demo_log]; simp⟩

/-- **C86** (it does connect): once a call that opened a connection has returned, the source is subscribed with it, unless it was
disposed. -/
theorem C86_connected (ls : List Lbl) (c w : Nat) (ho : .opened c (some w) ∈ (exec ls).log) (hf : (exec ls).calls c = .fin)
    (hd : .down w ∉ (exec ls).log) : .subscribed c w ∈ (exec ls).log := by
  rcases (exec_inv ls).opn c w ho with h | h | h
  · rw [hf] at h; cases h
  · exact h
  · exact absurd h hd

example : Ev.opened 0 (some 10) ∈ (exec (demo.take 5)).log ∧ (exec (demo.take 5)).calls 0 = .fin ∧
    Ev.down 10 ∉ (exec (demo.take 5)).log := by decide

/-- **C86** (after the end): a call made after the subject has ended does not subscribe the source. -/
theorem C86_after_end (ls ls' : List Lbl) (c w : Nat) (h : .closed ∈ (exec ls).log) (hi : (exec ls).calls c = .idle) :
    .subscribed c w ∉ (exec (ls ++ ls')).log := by
  intro hs
  have ho := (exec_inv (ls ++ ls')).subo c w hs
  obtain ⟨p, q, e⟩ := List.append_of_mem ho
  have hok := (exec_inv (ls ++ ls')).ok p _ q e
  have hpre : ∃ r, (exec (ls ++ ls')).log = (exec ls).log ++ r := prefix_append ls ls'
  obtain ⟨r, hr⟩ := hpre
  have hno := ((exec_inv ls).idle c hi).1 (some w)
  rw [hr] at e
  rcases List.append_eq_append_iff.1 e with ⟨a, e1, e2⟩ | ⟨a, e1, e2⟩
  · exact hok.1 (by rw [e1]; simp [h])
  · cases a with
    | nil => simp at e1; exact hok.1 (by rw [← e1]; exact h)
    | cons x a =>
      simp at e2
      exact hno (by rw [e1, ← e2.1]; simp)
where
  free_prefix (ds : List Nat) (log : List Ev) : ∃ r, freeAll log ds = log ++ r := by
    induction ds generalizing log with
    | nil => exact ⟨[], by simp [freeAll]⟩
    | cons d ds ih =>
      simp only [freeAll]
      split
      · exact ih log
      · obtain ⟨r, hr⟩ := ih (log ++ [.freed d])
        exact ⟨[.freed d] ++ r, by rw [hr]; simp⟩
  dispose_prefix (s : St) (w : Nat) : ∃ r, (disposeW s w).log = s.log ++ r := by
    unfold disposeW
    split
    · exact ⟨[], by simp⟩
    · obtain ⟨r, hr⟩ := free_prefix (s.kids w) (s.log ++ [.down w])
      exact ⟨[.down w] ++ r, by simp [hr]⟩
  close_prefix (s : St) : ∃ r, (close s).log = s.log ++ r := by
    unfold close
    split
    · exact ⟨[], by simp⟩
    · obtain ⟨r, hr⟩ := free_prefix s.keeps (s.log ++ [.closed])
      exact ⟨[.closed] ++ r, by simp [hr]⟩
  step_prefix (s : St) (l : Lbl) : ∃ r, (step s l).log = s.log ++ r := by
    cases l with
    | dispose w => exact dispose_prefix s w
    | shut => exact close_prefix s
    | done c =>
      simp only [step]
      split
      · exact ⟨[.ended c], rfl⟩
      · rename_i w _ _
        obtain ⟨r1, h1⟩ := close_prefix ({ s with flight := set s.flight c none }.say (.ended c))
        obtain ⟨r2, h2⟩ := dispose_prefix (close ({ s with flight := set s.flight c none }.say (.ended c))) w
        exact ⟨[.ended c] ++ r1 ++ r2, by rw [h2, h1]; simp [St.say]⟩
      · exact ⟨[], by simp⟩
    | connect c w =>
      simp only [step]
      split
      · split
        · exact ⟨_, rfl⟩
        · split
          · exact ⟨_, rfl⟩
          · exact ⟨_, rfl⟩
      · exact ⟨[], by simp⟩
    | subscribe c =>
      simp only [step]
      split
      · split
        · exact ⟨[], by simp⟩
        · exact ⟨_, rfl⟩
      · exact ⟨[], by simp⟩
      · exact ⟨[], by simp⟩
    | upstream c d =>
      simp only [step]
      split
      · exact ⟨[], by simp⟩
      · split
        · exact ⟨[], by simp⟩
        · split
          · exact ⟨_, rfl⟩
          · exact ⟨_, rfl⟩
    | emit c last =>
      simp only [step]
      split
      · split
        · exact ⟨[], by simp⟩
        · exact ⟨_, rfl⟩
      · exact ⟨[], by simp⟩
  prefix_append (ls ls' : List Lbl) : ∃ r, (exec (ls ++ ls')).log = (exec ls).log ++ r := by
    refine Sched.snoc_ind (P := fun ls' => ∃ r, (exec (ls ++ ls')).log = (exec ls).log ++ r) ?_ ?_ ls'
    · exact ⟨[], by simp⟩
    · rintro ls' l ⟨r, hr⟩
      rw [← List.append_assoc, exec_snoc]
      obtain ⟨r2, h2⟩ := step_prefix (exec (ls ++ ls')) l
      exact ⟨r ++ r2, by rw [h2, hr]; simp⟩

example : Ev.closed ∈ (exec (demo.take 12)).log ∧ (exec (demo.take 12)).calls 3 = .idle := by decide

/-- **C86** (what comes through): an emission reaches the subject only from a subscription that is not disposed, and not after the
subject has ended. -/
theorem C86_values (ls : List Lbl) (pre post : List Ev) (c : Nat) (h : (exec ls).log = pre ++ .began c :: post) :
    (∃ w, .subscribed c w ∈ pre ∧ .down w ∉ pre) ∧ .closed ∉ pre := (exec_inv ls).ok pre _ post h

/-! ### Emissions one at a time -/

/-- Used in the statements and proofs of this file; models no code. -/
def after : Option Nat → List Ev → Option Nat
  | c, [] => c
  | _, .began id :: l => after (some id) l
  | _, .ended .. :: l => after none l
  | c, _ :: l => after c l

theorem serial_append (c : Option Nat) (l l' : List Ev) :
    serial c (l ++ l') = (serial c l && serial (after c l) l') := by
  induction l generalizing c with
  | nil => simp [serial, after]
  | cons e l ih => cases e <;> cases c <;> simp [serial, after, ih, Bool.and_assoc]

theorem after_append (c : Option Nat) (l l' : List Ev) : after c (l ++ l') = after (after c l) l' := by
  induction l generalizing c with
  | nil => simp [after]
  | cons e l ih => cases e <;> simp [after, ih]

theorem free_serial (ds : List Nat) (log : List Ev) : serial none (freeAll log ds) = serial none log ∧
    after none (freeAll log ds) = after none log := by
  induction ds generalizing log with
  | nil => exact ⟨rfl, rfl⟩
  | cons d ds ih =>
    simp only [freeAll]
    split
    · exact ih log
    · obtain ⟨a, b⟩ := ih (log ++ [.freed d])
      rw [a, b, serial_append, after_append]
      refine ⟨?_, rfl⟩
      cases after none log <;> simp [serial]

/-- Used in the statements and proofs of this file; models no code. -/
structure Ser (s : St) : Prop where
  ser : serial none s.log = true
  aft : ∀ c, after none s.log = some c ↔ s.flight c ≠ none
  up : ∀ c w, s.flight c ≠ none → s.src c = some w → w ∉ s.down

theorem Ser.plain {s s' : St} (p : Ser s) {e : Ev} (he : (∀ c, e ≠ .began c) ∧ ∀ c, e ≠ .ended c)
    (hl : s'.log = s.log ++ [e]) (hf : s'.flight = s.flight)
    (hu : ∀ c w, s.flight c ≠ none → s'.src c = some w → w ∉ s'.down) : Ser s' := by
  refine ⟨?_, ?_, by rw [hf]; exact hu⟩
  · rw [hl, serial_append, p.ser]
    cases e with
    | began c => exact absurd rfl (he.1 c)
    | ended c => exact absurd rfl (he.2 c)
    | _ => cases after none s.log <;> rfl
  · intro c
    rw [hl, hf, after_append, ← p.aft c]
    cases e with
    | began c => exact absurd rfl (he.1 c)
    | ended c => exact absurd rfl (he.2 c)
    | _ => rfl

theorem Ser.dispose {s : St} (p : Ser s) (w : Nat) (hc : ∀ c, s.src c = some w → s.flight c = none) : Ser (disposeW s w) := by
  unfold disposeW
  split
  · exact p
  · have q : Ser { s with down := w :: s.down, kids := set s.kids w [], log := s.log ++ [.down w] } := by
      refine p.plain (e := .down w) ⟨by simp, by simp⟩ rfl rfl ?_
      intro c x hf hs hx
      rcases List.mem_cons.1 hx with rfl | hx
      · exact hf (hc c hs)
      · exact p.up c x hf hs hx
    obtain ⟨a, b⟩ := free_serial (s.kids w) (s.log ++ [.down w])
    exact ⟨by simp only [a]; exact q.ser, fun c => by simp only [b]; exact q.aft c, q.up⟩

theorem Ser.close {s : St} (p : Ser s) : Ser (close s) := by
  unfold Connect.close
  split
  · exact p
  · have q : Ser { s with closed := true, keeps := [], log := s.log ++ [.closed] } :=
      p.plain (e := .closed) ⟨by simp, by simp⟩ rfl rfl p.up
    obtain ⟨a, b⟩ := free_serial s.keeps (s.log ++ [.closed])
    exact ⟨by simp only [a]; exact q.ser, fun c => by simp only [b]; exact q.aft c, q.up⟩

/-- Of the subscriptions whose disposable is not disposed there is one at most. -/
theorem live_unique {s : St} (h : Inv s) {c c' w w' : Nat} (hc : s.src c = some w) (hc' : s.src c' = some w')
    (hw : w ∉ s.down) (hw' : w' ∉ s.down) : c = c' := by
  have o := h.subo _ _ ((h.src c w).1 hc)
  have o' := h.subo _ _ ((h.src c' w').1 hc')
  have d : Ev.down w ∉ s.log := fun x => hw ((h.dwn w).2 x)
  have d' : Ev.down w' ∉ s.log := fun x => hw' ((h.dwn w').2 x)
  have e := h.cur _ _ o d
  rw [h.cur _ _ o' d'] at e
  cases e
  exact h.uniq _ _ _ o o' d

theorem step_ser {s : St} (h : Inv s) (p : Ser s) (l : Lbl)
    (hl : ∀ w, l = .dispose w → ∀ c, s.src c = some w → s.flight c = none) : Ser (step s l) := by
  cases l with
  | dispose w => exact p.dispose w (hl w rfl)
  | shut => exact p.close
  | connect c w =>
    simp only [step]
    split
    · split
      · exact p.plain (e := .refused c) ⟨by simp, by simp⟩ rfl rfl p.up
      · split
        · exact p.plain (e := .joined c _) ⟨by simp, by simp⟩ rfl rfl p.up
        · exact p.plain (e := .opened c w) ⟨by simp, by simp⟩ rfl rfl p.up
    · exact p
  | subscribe c =>
    simp only [step]
    split
    · rename_i w _
      split
      · exact ⟨p.ser, p.aft, p.up⟩
      · rename_i hd
        refine p.plain (e := .subscribed c w) ⟨by simp, by simp⟩ rfl rfl ?_
        intro c' w' hf hs
        simp only [St.say, set] at hs
        split at hs
        · cases hs; exact hd
        · exact p.up c' w' hf hs
    · exact ⟨p.ser, p.aft, p.up⟩
    · exact p
  | upstream c d =>
    simp only [step]
    split
    · exact p
    · split
      · exact p
      · split
        · exact p.plain (e := .freed d) ⟨by simp, by simp⟩ rfl rfl p.up
        · exact p.plain (e := .took c d) ⟨by simp, by simp⟩ rfl rfl p.up
  | emit c last =>
    simp only [step]
    split
    · rename_i w hw hf
      split
      · exact p
      · rename_i hdeaf
        have hdown : w ∉ s.down := by simp [St.deaf, hw, St.isDown] at hdeaf; exact hdeaf.1
        have hnone : after none s.log = none := by
          cases ha : after none s.log with
          | none => rfl
          | some c' =>
            have hf' := (p.aft c').1 ha
            obtain ⟨w', hw'⟩ := h.fl c' hf'
            have := live_unique h hw hw' hdown (p.up c' w' hf' hw')
            subst this
            exact absurd hf hf'
        refine ⟨?_, ?_, ?_⟩
        · simp only [St.say]
          rw [serial_append, p.ser, hnone]; rfl
        · intro x
          simp only [St.say]
          rw [after_append, hnone]
          simp only [after, set]
          have := p.aft x
          rw [hnone] at this
          by_cases hx : x = c
          · subst hx; simp
          · simp only [if_neg hx]
            constructor
            · intro e; cases e; exact absurd rfl hx
            · intro e; exact absurd (this.2 e) (by simp)
        · intro x w' hf' hs
          simp only [St.say, set] at hf' hs ⊢
          split at hf'
          · rename_i e; subst e; rw [hw] at hs; cases hs; exact hdown
          · exact p.up x w' hf' hs
    · exact p
  | done c =>
    simp only [step]
    have key : ∀ b, s.flight c = some b → Ser ({ s with flight := set s.flight c none }.say (.ended c)) ∧
        ∀ x, set s.flight c none x = none := by
      intro b hb
      have ha : after none s.log = some c := (p.aft c).2 (by simp [hb])
      have hall : ∀ x, set s.flight c none x = none := by
        intro x
        simp only [set]
        split
        · rfl
        · rename_i hx
          apply Classical.byContradiction
          intro hf
          have := (p.aft x).2 hf
          rw [ha] at this
          cases this
          exact hx rfl
      refine ⟨⟨?_, ?_, ?_⟩, hall⟩
      · simp only [St.say]
        rw [serial_append, p.ser, ha]; simp [serial]
      · intro x
        simp only [St.say]
        rw [after_append, hall x]
        simp [after]
      · intro x w' hf
        exact absurd (hall x) hf
    split
    · rename_i hb; exact (key _ hb).1
    · rename_i w hw hb
      obtain ⟨k1, k2⟩ := key _ hb
      refine k1.close.dispose w ?_
      intro x _
      have : (close ({ s with flight := set s.flight c none }.say (.ended c))).flight = set s.flight c none := by
        unfold close; split <;> rfl
      rw [this]; exact k2 x
    · exact p

theorem calm_snoc (s : St) (ls : List Lbl) (l : Lbl) (h : Calm s (ls ++ [l])) :
    Calm s ls ∧ ∀ w, l = .dispose w → ∀ c, (ls.foldl step s).src c = some w → (ls.foldl step s).flight c = none := by
  induction ls generalizing s with
  | nil =>
    refine ⟨trivial, ?_⟩
    rintro w rfl
    exact h.1
  | cons a ls ih =>
    obtain ⟨h1, h2⟩ := h
    obtain ⟨i1, i2⟩ := ih (step s a) h2
    exact ⟨⟨h1, i1⟩, i2⟩

/-- **C86** (in part): if nobody disposes a connection while an emission of its source is under way, the emissions of the successive
connections reach the subject one at a time.  Missing: without that they may overlap (`C86_overlap_refutes`). -/
theorem C86_serial_partial (ls : List Lbl) (h : Calm {} ls) : serial none (exec ls).log = true := by
  have key : Ser (exec ls) := by
    refine Sched.snoc_ind (P := fun ls => Calm {} ls → Ser (exec ls)) ?_ ?_ ls h
    · intro _; exact ⟨rfl, by simp [exec, after], by simp [exec]⟩
    · intro ls l ih hc
      obtain ⟨c1, c2⟩ := calm_snoc {} ls l hc
      rw [exec_snoc]
      exact step_ser (exec_inv ls) (ih c1) l c2
  exact key.ser

example : Calm {} demo := by
  refine ⟨trivial, trivial, trivial, trivial, trivial, trivial, ?_, trivial, trivial, trivial, trivial, trivial, trivial, trivial, trivial⟩
  intro c hc
  simp only [step, set] at hc ⊢
  simp [St.say, St.deaf, St.isDown, set] at hc ⊢

/-- A connection disposed during an emission of its source, and a new one: the subject, which is not serialized, is called by two
threads at once. -/
theorem C86_overlap_refutes : ∃ ls, serial none (exec ls).log = false :=
  ⟨[.connect 0 (some 10), .subscribe 0, .emit 0 false, .dispose 10, .connect 1 (some 11), .subscribe 1, .emit 1 false], by decide⟩

/-- **C87** (in part): what a source attached to its observer is disposed when its connection is, or when the subject ends; and when
the subject ends nothing is kept.  Missing: the subject keeps the disposables of connections that are gone (`C87_refutes`). -/
theorem C87_partial (ls : List Lbl) (c w d : Nat) (ht : .took c d ∈ (exec ls).log) (hs : .subscribed c w ∈ (exec ls).log)
    (h : .down w ∈ (exec ls).log ∨ .closed ∈ (exec ls).log) : .freed d ∈ (exec ls).log := by
  have i := exec_inv ls
  rcases h with h | h
  · rcases i.kid c w d ht hs with k | k
    · rw [i.kidn w ((i.dwn w).2 h)] at k; cases k
    · exact k
  · rcases i.keep c d ht with k | k
    · rw [i.keepn (i.clo.2 h)] at k; cases k
    · exact k

theorem C87_end_partial (ls : List Lbl) (h : .closed ∈ (exec ls).log) : (exec ls).keeps = [] :=
  (exec_inv ls).keepn ((exec_inv ls).clo.2 h)

example : Ev.took 0 100 ∈ (exec demo).log ∧ Ev.subscribed 0 10 ∈ (exec demo).log ∧ Ev.down 10 ∈ (exec demo).log := by
  rw [demo_log]; simp

/-- Used in the statements and proofs of this file; models no code. -/
structure Round (n : Nat) (s : St) : Prop where
  cl : s.closed = false
  cu : s.isDown s.cur = true
  idle : ∀ i, n ≤ i → s.calls i = .idle
  down : ∀ i, n ≤ i → i ∉ s.down
  freed : ∀ i, n ≤ i → .freed i ∉ s.log
  kids : ∀ i, n ≤ i → s.kids i = []
  opened : ∀ c w, .opened c (some w) ∈ s.log → .down w ∈ s.log
  keeps : ∀ d ∈ s.keeps, .freed d ∈ s.log
  len : s.keeps.length = n

theorem round_step {n : Nat} {s : St} (r : Round n s) :
    Round (n + 1) ([.connect n (some n), .subscribe n, .upstream n n, .dispose n].foldl step s) := by
  obtain ⟨r1, r2, r3, r4, r5, r6, r7, r8, r9⟩ := r
  have e1 : step s (.connect n (some n)) =
      { s with cur := some n, calls := set s.calls n (.sub (some n)) }.say (.opened n (some n)) := by
    simp only [step, r3 n (Nat.le_refl _), r1, r2, Bool.false_eq_true, if_false]
    split
    · simp_all
    · rfl
  have e2 : step (step s (.connect n (some n))) (.subscribe n) =
      { s with cur := some n, calls := set (set s.calls n (.sub (some n))) n .fin, src := set s.src n (some n),
               log := s.log ++ [.opened n (some n)] ++ [.subscribed n n] } := by
    rw [e1]
    have : set s.calls n (.sub (some n)) n = .sub (some n) := by simp [set]
    simp only [step, St.say, this, r4 n (Nat.le_refl _), if_false]
  have e3 : step (step (step s (.connect n (some n))) (.subscribe n)) (.upstream n n) =
      { s with cur := some n, calls := set (set s.calls n (.sub (some n))) n .fin, src := set s.src n (some n),
               kids := set s.kids n (n :: s.kids n), keeps := n :: s.keeps,
               log := s.log ++ [.opened n (some n)] ++ [.subscribed n n] ++ [.took n n] } := by
    rw [e2]
    have h1 : set s.src n (some n) n = some n := by simp [set]
    have h2 : Ev.freed n ∉ s.log ++ [.opened n (some n)] ++ [.subscribed n n] := by simp [r5 n (Nat.le_refl _)]
    simp only [step, h1, St.deaf, St.isDown, r4 n (Nat.le_refl _), r1, if_neg h2, decide_false, Bool.or_self, Bool.false_eq_true,
      if_false, St.say]
  have h2 : Ev.freed n ∉ s.log ++ [.opened n (some n)] ++ [.subscribed n n] ++ [.took n n] ++ [.down n] := by
    simp [r5 n (Nat.le_refl _)]
  have e4 : [Lbl.connect n (some n), .subscribe n, .upstream n n, .dispose n].foldl step s =
      { s with cur := some n, calls := set (set s.calls n (.sub (some n))) n .fin, src := set s.src n (some n),
               kids := set (set s.kids n [n]) n [], keeps := n :: s.keeps, down := n :: s.down,
               log := s.log ++ [.opened n (some n)] ++ [.subscribed n n] ++ [.took n n] ++ [.down n] ++ [.freed n] } := by
    simp only [List.foldl_cons, List.foldl_nil, e3]
    have h1 : set s.kids n [n] n = [n] := by simp [set]
    simp only [step, disposeW, r6 n (Nat.le_refl _), r4 n (Nat.le_refl _), if_false, h1, freeAll, if_neg h2]
  rw [e4]
  refine ⟨r1, by simp [St.isDown], ?_, ?_, ?_, ?_, ?_, ?_, by simp [r9]⟩
  · intro i hi
    have : i ≠ n := by omega
    simp only [set, if_neg this]; exact r3 i (by omega)
  · intro i hi
    have : i ≠ n := by omega
    simp [this, r4 i (by omega)]
  · intro i hi
    have : i ≠ n := by omega
    simp [this, r5 i (by omega)]
  · intro i hi
    have : i ≠ n := by omega
    simp only [set, if_neg this]; exact r6 i (by omega)
  · intro c w h
    simp at h ⊢
    rcases h with h | h
    · exact .inl (r7 c w h)
    · exact .inr h.2
  · intro d hd
    rcases List.mem_cons.1 hd with rfl | hd
    · simp
    · simp [r8 d hd]

/-- The number of disposables a subject keeps is unbounded although all connections are disposed, and what they attached with
them: one entry more for every connection made and disposed. -/
theorem C87_refutes (n : Nat) : ∃ ls, (∀ c w, .opened c (some w) ∈ (exec ls).log → .down w ∈ (exec ls).log) ∧
    (∀ d ∈ (exec ls).keeps, .freed d ∈ (exec ls).log) ∧ (exec ls).keeps.length = n := by
  have key : ∃ ls, Round n (exec ls) := by
    induction n with
    | zero => exact ⟨[], by constructor <;> simp [exec, St.isDown]⟩
    | succ n ih =>
      obtain ⟨ls, r⟩ := ih
      refine ⟨ls ++ [.connect n (some n), .subscribe n, .upstream n n, .dispose n], ?_⟩
      have : exec (ls ++ [.connect n (some n), .subscribe n, .upstream n n, .dispose n]) =
          [Lbl.connect n (some n), .subscribe n, .upstream n n, .dispose n].foldl step (exec ls) := by simp [exec]
      rw [this]
      exact round_step r
  obtain ⟨ls, r⟩ := key
  exact ⟨ls, r.opened, r.keeps, r.len⟩

end Rpp.Connect
