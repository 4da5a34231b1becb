import Verif.Ext.Qt
import Verif.Scheduler.CurrentThreadProofs

/-!
# The Qt main thread scheduler: invariants
-/

namespace Rpp.Qt

theorem waiting_snoc (id : Nat) (l : List Ev) (e : Ev) : waiting id (l ++ [e]) = waitStep id (waiting id l) e := by
  simp [waiting]

theorem lastReq_snoc (id : Nat) (l : List Ev) (e : Ev) : lastReq id (l ++ [e]) = lastStep id (lastReq id l) e := by
  simp [lastReq]

theorem split_snoc {γ : Type} {l l1 l2 : List γ} {e x : γ} (h : l ++ [e] = l1 ++ x :: l2) :
    (l2 = [] ∧ x = e ∧ l1 = l) ∨ ∃ l2', l2 = l2' ++ [e] ∧ l = l1 ++ x :: l2' := by
  rcases List.eq_nil_or_concat l2 with rfl | ⟨l2', y, rfl⟩
  · have h2 := List.append_inj' h rfl
    simp at h2
    exact .inl ⟨rfl, h2.2.symm, h2.1.symm⟩
  · have h' : l ++ [e] = (l1 ++ x :: l2') ++ [y] := by simpa using h
    have h2 := List.append_inj' h' rfl
    simp at h2
    exact .inr ⟨l2', by simp [h2.2], h2.1⟩

/-- Used in the proofs; models no code. -/
def Dead (id : Nat) (log : List Ev) : Prop := ∃ at' r, Ev.ended id at' r ∈ log ∧ ∀ w, r ≠ .again w

/-- What the logs satisfy (for the proofs); models no code. -/
def Ok (pre : List Ev) : Ev → Prop
  | .asked id .. => waiting id pre = none ∧ ¬ Dead id pre
  | .began id at' => (∃ r, waiting id pre = some r ∧ r.due - 1000000 < at' ∧ (Whole r → r.due ≤ at') ∧ Ev.disposed r.h ∉ pre) ∧
      ¬ Dead id pre
  | .dropped id => ∃ r, waiting id pre = some r ∧ Ev.disposed r.h ∈ pre
  | .noApp id h => ∃ r, waiting id pre = some r ∧ r.h = h
  | _ => True

/-- What the logs satisfy (for the proofs); models no code. -/
def AllOk (log : List Ev) : Prop := ∀ pre e post, log = pre ++ e :: post → Ok pre e

theorem AllOk.snoc {log : List Ev} {e : Ev} (h : AllOk log) (he : Ok log e) : AllOk (log ++ [e]) := by
  intro pre x post hx
  rcases split_snoc hx with ⟨_, rfl, rfl⟩ | ⟨l2', _, h2⟩
  · exact he
  · exact h _ _ _ h2

/-- Used in the proofs; models no code. -/
def Job.req (j : Job) : Req := ⟨j.h, j.at', j.due⟩

/-- Bookkeeping: `P` the pending calls, `R` the running function. -/
structure Inv (P R : List Job) (n : Nat) (gone : List Nat) (log : List Ev) : Prop where
  nodup : ((R ++ P).map Job.id).Nodup
  le : ∀ j ∈ R ++ P, j.id ≤ n
  wait : ∀ j ∈ P, waiting j.id log = some j.req
  only : ∀ id, waiting id log ≠ none → ∃ j ∈ P, j.id = id
  last : ∀ j ∈ R ++ P, lastReq j.id log = some j.req
  time : ∀ j ∈ P, j.due - 1000000 < j.fire ∧ (Whole j.req → j.due ≤ j.fire)
  evle : ∀ e ∈ log, ∀ id, e.about = some id → id ≤ n
  gones : ∀ h, h ∈ gone ↔ Ev.disposed h ∈ log
  dead : ∀ id, Dead id log → ∀ j ∈ R ++ P, j.id ≠ id
  ok : AllOk log

theorem dead_snoc {id : Nat} {log : List Ev} {e : Ev} (he : ∀ at' r, e = .ended id at' r → ∃ w, r = .again w) :
    Dead id (log ++ [e]) ↔ Dead id log := by
  unfold Dead
  constructor
  · rintro ⟨a, r, hm, hr⟩
    simp only [List.mem_append, List.mem_singleton] at hm
    rcases hm with hm | hm
    · exact ⟨a, r, hm, hr⟩
    · obtain ⟨w, hw⟩ := he a r hm.symm
      exact absurd hw (hr w)
  · rintro ⟨a, r, hm, hr⟩
    exact ⟨a, r, by simp [hm], hr⟩

theorem Inv.perm {P P' R : List Job} {n gone log} (h : Inv P R n gone log) (hp : P.Perm P') : Inv P' R n gone log := by
  have hm : ∀ j, j ∈ P' ↔ j ∈ P := fun j => hp.mem_iff.symm
  have hm' : ∀ j, j ∈ R ++ P' ↔ j ∈ R ++ P := fun j => by simp [hm]
  exact ⟨((hp.append_left R).map Job.id).nodup_iff.1 h.nodup, fun j hj => h.le j ((hm' j).1 hj),
    fun j hj => h.wait j ((hm j).1 hj),
    fun id hw => (h.only id hw).imp fun j hj => ⟨(hm j).2 hj.1, hj.2⟩,
    fun j hj => h.last j ((hm' j).1 hj), fun j hj => h.time j ((hm j).1 hj),
    h.evle, h.gones, fun id hd j hj => h.dead id hd j ((hm' j).1 hj), h.ok⟩

theorem Inv.dispose {P R : List Job} {n gone log} {g : Nat} (h : Inv P R n gone log) :
    Inv P R n (g :: gone) (log ++ [.disposed g]) := by
  refine ⟨h.nodup, h.le, ?_, ?_, ?_, h.time, ?_, ?_, ?_, h.ok.snoc trivial⟩
  · intro j hj; rw [waiting_snoc]; exact h.wait j hj
  · intro id; rw [waiting_snoc]; exact h.only id
  · intro j hj; rw [lastReq_snoc]; exact h.last j hj
  · intro x hx id hi
    simp only [List.mem_append, List.mem_singleton] at hx
    rcases hx with hx | rfl
    · exact h.evle x hx id hi
    · simp [Ev.about] at hi
  · intro g'
    simp [h.gones g']
    constructor <;> rintro (h | h) <;> simp [h]
  · intro id hdd
    rw [dead_snoc (by simp)] at hdd
    exact h.dead id hdd

theorem Inv.tailne {P R : List Job} {n gone log} {j : Job} (h : Inv (j :: P) R n gone log) :
    ∀ k ∈ R ++ P, j.id ≠ k.id := by
  have hp := ((List.perm_middle (a := j) (l₁ := R) (l₂ := P)).map Job.id).nodup_iff.1 h.nodup
  simp only [List.map_cons, List.nodup_cons] at hp
  intro k hk he
  exact hp.1 (he ▸ List.mem_map.2 ⟨k, hk, rfl⟩)

/-- A request for a function that is not under way: a new one, or one that has just ended. -/
theorem Inv.ask {P R : List Job} {n gone log} (h : Inv P R n gone log) (j : Job)
    (hnew : ∀ k ∈ R ++ P, j.id ≠ k.id) (hle : j.id ≤ n) (hnd : ¬ Dead j.id log)
    (ht : j.due - 1000000 < j.fire ∧ (Whole j.req → j.due ≤ j.fire)) :
    Inv (j :: P) R n gone (log ++ [.asked j.id j.h j.at' j.due]) := by
  have hnone : waiting j.id log = none := by
    cases hc : waiting j.id log with
    | none => rfl
    | some w =>
      obtain ⟨k, hk, hid⟩ := h.only j.id (by simp [hc])
      exact absurd hid.symm (hnew k (by simp [hk]))
  refine ⟨?_, ?_, ?_, ?_, ?_, ?_, ?_, ?_, ?_, h.ok.snoc ⟨hnone, hnd⟩⟩
  · rw [((List.perm_middle (a := j) (l₁ := R) (l₂ := P)).map Job.id).nodup_iff]
    simp only [List.map_cons, List.nodup_cons]
    refine ⟨?_, h.nodup⟩
    intro hm
    obtain ⟨k, hk, hid⟩ := List.mem_map.1 hm
    exact hnew k hk hid.symm
  · intro k hk
    simp only [List.mem_append, List.mem_cons] at hk
    rcases hk with hk | rfl | hk
    · exact h.le k (by simp [hk])
    · exact hle
    · exact h.le k (by simp [hk])
  · intro k hk
    rw [waiting_snoc]
    rcases List.mem_cons.1 hk with rfl | hk
    · simp [waitStep, Job.req]
    · simp [waitStep, hnew k (by simp [hk]), h.wait k hk]
  · intro id hw
    rw [waiting_snoc] at hw
    by_cases hid : j.id = id
    · exact ⟨_, List.mem_cons_self .., hid⟩
    · simp [waitStep, hid] at hw
      obtain ⟨k, hk, hki⟩ := h.only id hw
      exact ⟨k, by simp [hk], hki⟩
  · intro k hk
    rw [lastReq_snoc]
    simp only [List.mem_append, List.mem_cons] at hk
    rcases hk with hk | rfl | hk
    · simp [lastStep, hnew k (by simp [hk]), h.last k (by simp [hk])]
    · simp [lastStep, Job.req]
    · simp [lastStep, hnew k (by simp [hk]), h.last k (by simp [hk])]
  · intro k hk
    rcases List.mem_cons.1 hk with rfl | hk
    · exact ht
    · exact h.time k hk
  · intro x hx id hi
    simp only [List.mem_append, List.mem_singleton] at hx
    rcases hx with hx | rfl
    · exact h.evle x hx id hi
    · simp [Ev.about] at hi; omega
  · intro g'; simp [h.gones g']
  · intro id hdd k hk
    rw [dead_snoc (by simp)] at hdd
    simp only [List.mem_append, List.mem_cons] at hk
    rcases hk with hk | rfl | hk
    · exact h.dead id hdd k (by simp [hk])
    · rintro rfl; exact hnd hdd
    · exact h.dead id hdd k (by simp [hk])

/-- A request ends without a run. -/
theorem Inv.leave {P R : List Job} {n gone log} {j : Job} {e : Ev} (h : Inv (j :: P) R n gone log)
    (he : (∃ g, e = .noApp j.id g) ∨ e = .dropped j.id ∨ e = .lost j.id) (hok : Ok log e) :
    Inv P R n gone (log ++ [e]) := by
  have hne := h.tailne
  have hw : ∀ id w, waitStep id w e = if j.id = id then none else w := by
    rintro id w; rcases he with ⟨_, rfl⟩ | rfl | rfl <;> rfl
  have hl : ∀ id w, lastStep id w e = w := by rintro id w; rcases he with ⟨_, rfl⟩ | rfl | rfl <;> rfl
  have hab : e.about = some j.id := by rcases he with ⟨_, rfl⟩ | rfl | rfl <;> rfl
  have hp := ((List.perm_middle (a := j) (l₁ := R) (l₂ := P)).map Job.id).nodup_iff.1 h.nodup
  simp only [List.map_cons, List.nodup_cons] at hp
  have hin : ∀ k, k ∈ R ++ P → k ∈ R ++ j :: P := by simp; grind
  refine ⟨hp.2, fun k hk => h.le k (hin k hk), ?_, ?_, ?_, fun k hk => h.time k (by simp [hk]), ?_, ?_, ?_, h.ok.snoc hok⟩
  · intro k hk
    rw [waiting_snoc, hw, if_neg (hne k (by simp [hk]))]
    exact h.wait k (by simp [hk])
  · intro id
    rw [waiting_snoc, hw]
    split
    · simp
    · intro hc
      obtain ⟨k, hk, hid⟩ := h.only id hc
      rcases List.mem_cons.1 hk with rfl | hk
      · contradiction
      · exact ⟨k, hk, hid⟩
  · intro k hk; rw [lastReq_snoc, hl]; exact h.last k (hin k hk)
  · intro x hx id hi
    simp only [List.mem_append, List.mem_singleton] at hx
    rcases hx with hx | rfl
    · exact h.evle x hx id hi
    · rw [hab] at hi; cases hi; exact h.le j (by simp)
  · intro g
    rw [h.gones g]
    rcases he with ⟨_, rfl⟩ | rfl | rfl <;> simp
  · intro id hdd
    rw [dead_snoc (by rcases he with ⟨_, rfl⟩ | rfl | rfl <;> simp)] at hdd
    exact fun k hk => h.dead id hdd k (hin k hk)

/-- A function is entered. -/
theorem Inv.begin {P R : List Job} {n gone log} {j : Job} (now : Int)
    (h : Inv (j :: P) R n gone log) (hdue : j.fire ≤ now) (hg : j.h ∉ gone) :
    Inv P (j :: R) n gone (log ++ [.began j.id now]) := by
  have hne := h.tailne
  have hnd : ¬ Dead j.id log := fun hd => h.dead _ hd j (by simp) rfl
  have ht := h.time j (by simp)
  have hp := ((List.perm_middle (a := j) (l₁ := R) (l₂ := P)).map Job.id).nodup_iff.1 h.nodup
  have hin : ∀ k, k ∈ (j :: R) ++ P → k ∈ R ++ j :: P := by simp; grind
  refine ⟨hp, fun k hk => h.le k (hin k hk), ?_, ?_, ?_, fun k hk => h.time k (by simp [hk]), ?_, ?_, ?_,
    h.ok.snoc ⟨⟨j.req, h.wait j (by simp), Int.lt_of_lt_of_le ht.1 hdue, fun hwh => Int.le_trans (ht.2 hwh) hdue,
      fun hc => hg ((h.gones _).2 hc)⟩, hnd⟩⟩
  · intro k hk
    rw [waiting_snoc]
    simp only [waitStep, if_neg (hne k (by simp [hk]))]
    exact h.wait k (by simp [hk])
  · intro id
    rw [waiting_snoc]
    simp only [waitStep]
    split
    · simp
    · intro hc
      obtain ⟨k, hk, hid⟩ := h.only id hc
      rcases List.mem_cons.1 hk with rfl | hk
      · contradiction
      · exact ⟨k, hk, hid⟩
  · intro k hk; rw [lastReq_snoc]; exact h.last k (hin k hk)
  · intro x hx id hi
    simp only [List.mem_append, List.mem_singleton] at hx
    rcases hx with hx | rfl
    · exact h.evle x hx id hi
    · simp [Ev.about] at hi; subst hi; exact h.le j (by simp)
  · intro g; simp [h.gones g]
  · intro id hdd
    rw [dead_snoc (by simp)] at hdd
    exact fun k hk => h.dead id hdd k (hin k hk)

/-- A function is left. -/
theorem Inv.end {P R : List Job} {n gone log} {j : Job} (now : Int) (r : Res)
    (h : Inv P (j :: R) n gone log) : Inv P R n gone (log ++ [.ended j.id now r]) ∧
      (∀ k ∈ R ++ P, j.id ≠ k.id) ∧ j.id ≤ n ∧ ((∃ w, r = .again w) → ¬ Dead j.id (log ++ [.ended j.id now r])) := by
  have hp := h.nodup
  simp only [List.cons_append, List.map_cons, List.nodup_cons] at hp
  have hne : ∀ k ∈ R ++ P, k.id ≠ j.id := fun k hk he => hp.1 (he ▸ List.mem_map.2 ⟨k, hk, rfl⟩)
  have hin : ∀ k, k ∈ R ++ P → k ∈ (j :: R) ++ P := by simp; grind
  refine ⟨⟨hp.2, fun k hk => h.le k (hin k hk), ?_, ?_, ?_, h.time, ?_, ?_, ?_, h.ok.snoc trivial⟩,
    fun k hk => (hne k hk).symm, h.le j (by simp), ?_⟩
  · intro k hk; rw [waiting_snoc]; exact h.wait k hk
  · intro id; rw [waiting_snoc]; exact h.only id
  · intro k hk; rw [lastReq_snoc]; exact h.last k (hin k hk)
  · intro x hx id hi
    simp only [List.mem_append, List.mem_singleton] at hx
    rcases hx with hx | rfl
    · exact h.evle x hx id hi
    · simp [Ev.about] at hi; subst hi; exact h.le j (by simp)
  · intro g; simp [h.gones g]
  · intro id hdd k hk
    by_cases hid : id = j.id
    · rw [hid]; exact hne k hk
    · rw [dead_snoc (by intro a r he; simp at he; exact absurd he.1.symm hid)] at hdd
      exact h.dead id hdd k (hin k hk)
  · rintro ⟨w, rfl⟩
    rw [dead_snoc (by intro a r he; simp at he; exact ⟨w, he.2.symm⟩)]
    exact fun hd => h.dead _ hd j (by simp) rfl

theorem Inv.escaped {P R : List Job} {n gone log} (h : Inv P R n gone log) {i : Nat} (hi : i ≤ n) :
    Inv P R n gone (log ++ [.escaped i]) := by
  refine ⟨h.nodup, h.le, ?_, ?_, ?_, h.time, ?_, ?_, ?_, h.ok.snoc trivial⟩
  · intro j hj; rw [waiting_snoc]; exact h.wait j hj
  · intro id; rw [waiting_snoc]; exact h.only id
  · intro j hj; rw [lastReq_snoc]; exact h.last j hj
  · intro x hx id hid
    simp only [List.mem_append, List.mem_singleton] at hx
    rcases hx with hx | rfl
    · exact h.evle x hx id hid
    · simp [Ev.about] at hid; omega
  · intro g'; simp [h.gones g']
  · intro id hdd
    rw [dead_snoc (by simp)] at hdd
    exact h.dead id hdd

/-! ## Steps -/

/-- Used in the proofs; models no code. -/
def St.live (s : St) : List Job := s.run.toList.map Prod.fst

/-- What the logs satisfy (for the proofs); models no code. -/
abbrev St.Book (s : St) : Prop := Inv s.timers s.live s.count s.gone s.log

theorem erase_perm {l : List Job} {i : Nat} {j : Job} (h : l[i]? = some j) : l.Perm (j :: l.eraseIdx i) := by
  induction l generalizing i with
  | nil => simp at h
  | cons a l ih =>
    cases i with
    | zero => simp at h; subst h; simp
    | succ i =>
      simp at h
      simp only [List.eraseIdx_cons_succ]
      exact ((ih h).cons a).trans (List.Perm.swap j a _)

theorem millis_time (now d : Int) (h : Nat) : (now + d) - 1000000 < now + millis d ∧
    (Whole ⟨h, now, now + d⟩ → now + d ≤ now + millis d) := by
  unfold millis Whole
  simp only
  constructor
  · omega
  · intro hw
    rcases hw with hw | hw <;> omega

theorem book_defer {s : St} (b : s.Book) {id h : Nat} (d : Int) (hnew : ∀ k ∈ s.live ++ s.timers, id ≠ k.id)
    (hle : id ≤ s.count) (hnd : ¬ Dead id s.log) : (deferFor s id h d).Book := by
  have b' := b.ask ⟨id, h, s.now, s.now + d, s.now + millis d⟩ hnew hle hnd (millis_time s.now d h)
  unfold deferFor
  simp only
  split
  · exact b'.perm (List.perm_append_singleton _ _).symm
  · refine b'.leave (j := ⟨id, h, s.now, s.now + d, s.now + millis d⟩) (.inl ⟨h, rfl⟩) ?_
    exact ⟨_, b'.wait _ (List.mem_cons_self ..), rfl⟩

theorem Inv.more {P R : List Job} {n gone log} (h : Inv P R n gone log) : Inv P R (n + 1) gone log :=
  ⟨h.nodup, fun j hj => Nat.le_succ_of_le (h.le j hj), h.wait, h.only, h.last, h.time,
    fun e he id hi => Nat.le_succ_of_le (h.evle e he id hi), h.gones, h.dead, h.ok⟩

theorem loseAll_book {s : St} {js : List Job} (b : Inv js s.live s.count s.gone s.log) :
    Inv [] s.live s.count s.gone (loseAll s js).log ∧ (loseAll s js).run = s.run ∧ (loseAll s js).count = s.count ∧
      (loseAll s js).gone = s.gone ∧ (loseAll s js).now = s.now := by
  induction js generalizing s with
  | nil => exact ⟨b, rfl, rfl, rfl, rfl⟩
  | cons j js ih =>
    simp only [loseAll]
    exact ih (s := s.say (.lost j.id)) (b.leave (e := .lost j.id) (.inr (.inr rfl)) trivial)

theorem step_book {s : St} (b : s.Book) (l : Lbl) : (step s l).Book := by
  cases l with
  | schedule h d =>
    refine book_defer (s := { s with count := s.count + 1 }) b.more d ?_ (Nat.le_refl _) ?_
    · intro k hk he
      have := b.le k hk
      omega
    · rintro ⟨a, r, hm, _⟩
      have := b.evle _ hm _ rfl
      omega
  | dispose h => exact b.dispose
  | tick k => exact b
  | fire i =>
    simp only [step, fire]
    split
    · rename_i j hrun hj
      split
      · rename_i hd
        have b' : Inv (j :: s.timers.eraseIdx i) [] s.count s.gone s.log := by
          have := b.perm (erase_perm hj)
          simpa [St.live, hrun] using this
        split
        · rename_i hg
          have := b'.leave (e := .dropped j.id) (.inr (.inl rfl)) ⟨_, b'.wait j (by simp), (b'.gones _).1 hg⟩
          show Inv _ (s.run.toList.map _) _ _ _
          rw [hrun]; exact this
        · rename_i hg
          exact b'.begin s.now hd hg
      · exact b
    · exact b
  | finish r =>
    simp only [step, finish]
    split
    · exact b
    · rename_i j t hrun
      have b' : Inv s.timers [j] s.count s.gone s.log := by
        have := b
        simpa [St.Book, St.live, hrun] using this
      obtain ⟨b2, hne, hle, hnd⟩ := b'.end s.now r
      cases r with
      | done => exact b2
      | throws => exact b2.escaped hle
      | again w =>
        have hnd := hnd ⟨w, rfl⟩
        have b3 : St.Book (St.say { s with run := none } (.ended j.id s.now (.again w))) := b2
        have key : ∀ d, (deferFor (St.say { s with run := none } (.ended j.id s.now (.again w))) j.id j.h d).Book := fun d =>
          book_defer b3 d hne hle hnd
        cases w <;> exact key _
  | quit =>
    obtain ⟨b2, h1, h2, h3, _⟩ := loseAll_book (s := s) (js := s.timers) b
    simp only [step]
    show Inv [] ((loseAll s s.timers).run.toList.map _) (loseAll s s.timers).count (loseAll s s.timers).gone _
    rw [h1, h2, h3]; exact b2
  | launch => exact b

theorem exec_snoc (ls : List Lbl) (l : Lbl) : exec (ls ++ [l]) = step (exec ls) l := by simp [exec]

theorem exec_book (ls : List Lbl) : (exec ls).Book := by
  refine Sched.snoc_ind (P := fun ls => (exec ls).Book) ?_ ?_ ls
  · refine ⟨by simp [exec, St.live], by simp [exec, St.live], by simp [exec], by simp [exec, waiting], by simp [exec, St.live],
      by simp [exec], by simp [exec], by simp [exec], ?_, ?_⟩
    · rintro id ⟨_, _, hm, _⟩; simp [exec] at hm
    · intro pre e post h; simp [exec] at h
  · intro ls l b
    rw [exec_snoc]
    exact step_book b l

/-! ## The log -/

/-- Used in the proofs; models no code. -/
def after : Option Nat → List Ev → Option Nat
  | c, [] => c
  | _, .began id _ :: l => after (some id) l
  | _, .ended .. :: l => after none l
  | c, _ :: l => after c l

theorem serial_append (c : Option Nat) (l l' : List Ev) :
    serial c (l ++ l') = (serial c l && serial (after c l) l') := by
  induction l generalizing c with
  | nil => simp [serial, after]
  | cons e l ih => cases e <;> cases c <;> simp [serial, after, ih, Bool.and_assoc]

theorem after_append (c : Option Nat) (l l' : List Ev) : after c (l ++ l') = after (after c l) l' := by
  induction l generalizing c with
  | nil => simp [after]
  | cons e l ih => cases e <;> simp [after, ih]

/-- When function `id` was entered last. -/
def enteredStep (id : Nat) (w : Option Int) : Ev → Option Int
  | .began i a => if i = id then some a else w
  | _ => w
/-- Used in the proofs; models no code. -/
def entered (id : Nat) (log : List Ev) : Option Int := log.foldl (enteredStep id) none

theorem entered_snoc (id : Nat) (l : List Ev) (e : Ev) : entered id (l ++ [e]) = enteredStep id (entered id l) e := by
  simp [entered]

/-- Used in the proofs; models no code. -/
def nextDue (at' t : Int) : Delay → Int
  | .fromNow d => at' + d
  | .fromThis d => t + d
  | .to tp => tp

/-- Reschedulings: what the code does. -/
def Per (log : List Ev) : Prop :=
  ∀ pre post id at' w, log = pre ++ .ended id at' (.again w) :: post →
    ∃ r t due post', lastReq id pre = some r ∧ entered id pre = some t ∧ (t ≤ at' ∧ r.due - 1000000 < t ∧ (Whole r → r.due ≤ t)) ∧
      post = .asked id r.h at' due :: post' ∧
      due = nextDue at' t w

theorem Per.snoc {log : List Ev} (p : Per log) {e : Ev} (he : ∀ id a w, e ≠ .ended id a (.again w)) : Per (log ++ [e]) := by
  intro pre post id at' w hx
  rcases split_snoc hx with ⟨_, h, _⟩ | ⟨l2', h1, h2⟩
  · exact absurd h.symm (he id at' w)
  · obtain ⟨r, t, due, post', e1, e2, e3, e4, e5⟩ := p _ _ _ _ _ h2
    exact ⟨r, t, due, post' ++ [e], e1, e2, e3, by rw [h1, e4]; rfl, e5⟩

/-- What the logs satisfy (for the proofs); models no code. -/
structure Logs (s : St) : Prop where
  ser : serial none s.log = true
  aft : after none s.log = s.run.map (·.1.id)
  ent : ∀ j t, s.run = some (j, t) → entered j.id s.log = some t ∧ t ≤ s.now ∧ j.due - 1000000 < t ∧ (Whole j.req → j.due ≤ t)
  per : Per s.log

/-- An event that is not an entry or exit. -/
def Plain (e : Ev) : Prop := (∀ id a, e ≠ .began id a) ∧ ∀ id a r, e ≠ .ended id a r

theorem Logs.plain {s s' : St} (p : Logs s) {e : Ev} (he : Plain e) (hl : s'.log = s.log ++ [e]) (hr : s'.run = s.run)
    (hn : s'.now = s.now) : Logs s' := by
  refine ⟨?_, ?_, ?_, ?_⟩
  · rw [hl, serial_append, p.ser, p.aft]
    cases e with
    | began i a => exact absurd rfl (he.1 i a)
    | ended i a r => exact absurd rfl (he.2 i a r)
    | _ => cases s.run <;> rfl
  · rw [hl, after_append, p.aft, hr]
    cases e with
    | began i a => exact absurd rfl (he.1 i a)
    | ended i a r => exact absurd rfl (he.2 i a r)
    | _ => rfl
  · intro j t h
    rw [hr] at h
    rw [hl, hn, entered_snoc]
    have := p.ent j t h
    cases e with
    | began i a => exact absurd rfl (he.1 i a)
    | _ => exact this
  · rw [hl]; exact p.per.snoc fun id a w => he.2 id a _

theorem Logs.same {s s' : St} (p : Logs s) (hl : s'.log = s.log) (hr : s'.run = s.run)
    (hn : s.now ≤ s'.now) : Logs s' :=
  ⟨by rw [hl]; exact p.ser, by rw [hl, hr]; exact p.aft,
    by rw [hl, hr]; exact fun j t h => ⟨(p.ent j t h).1, Int.le_trans (p.ent j t h).2.1 hn, (p.ent j t h).2.2⟩, by rw [hl]; exact p.per⟩

theorem logs_defer {s : St} (id h : Nat) (d : Int)
    (p : Logs (s.say (.asked id h s.now (s.now + d)))) : Logs (deferFor s id h d) := by
  unfold deferFor
  simp only
  split
  · exact p.same rfl rfl (Int.le_refl _)
  · exact p.plain (e := .noApp id h) ⟨by simp, by simp⟩ rfl rfl rfl

theorem loseAll_logs {s : St} {js : List Job} (p : Logs s) : Logs (loseAll s js) := by
  induction js generalizing s with
  | nil => exact p
  | cons j js ih => exact ih (p.plain (e := .lost j.id) ⟨by simp, by simp⟩ rfl rfl rfl)

theorem step_logs {s : St} (b : s.Book) (p : Logs s) (l : Lbl) : Logs (step s l) := by
  cases l with
  | schedule h d =>
    exact logs_defer (s := { s with count := s.count + 1 }) _ _ _
      (p.plain (e := .asked (s.count + 1) h s.now (s.now + d)) ⟨by simp, by simp⟩ rfl rfl rfl)
  | dispose h => exact p.plain (e := .disposed h) ⟨by simp, by simp⟩ rfl rfl rfl
  | tick k => exact p.same rfl rfl (by simp only [step]; omega)
  | fire i =>
    simp only [step, fire]
    split
    · rename_i j hrun hj
      split
      · split
        · exact p.plain (e := .dropped j.id) ⟨by simp, by simp⟩ rfl rfl rfl
        · refine ⟨?_, ?_, ?_, ?_⟩
          · simp only [St.say]
            rw [serial_append, p.ser, p.aft, hrun]; rfl
          · simp only [St.say]
            rw [after_append]; rfl
          · intro k t h
            simp only [St.say] at h ⊢
            simp at h
            obtain ⟨rfl, rfl⟩ := h
            rw [entered_snoc]
            rename_i hd _
            have ht := b.time j (List.mem_of_getElem? hj)
            exact ⟨by simp [enteredStep], Int.le_refl _, Int.lt_of_lt_of_le ht.1 hd, fun hw => Int.le_trans (ht.2 hw) hd⟩
          · exact p.per.snoc (by simp)
      · exact p
    · exact p
  | finish r =>
    simp only [step, finish]
    split
    · exact p
    · rename_i j t hrun
      have hser : serial none (s.log ++ [.ended j.id s.now r]) = true := by
        rw [serial_append, p.ser, p.aft, hrun]; simp [serial]
      have haft : after none (s.log ++ [.ended j.id s.now r]) = none := by rw [after_append]; rfl
      cases r with
      | done =>
        exact ⟨hser, haft, by simp [St.say], p.per.snoc (by simp)⟩
      | throws =>
        have p1 : Logs ({ s with run := none }.say (.ended j.id s.now .throws)) :=
          ⟨hser, haft, by simp [St.say], p.per.snoc (by simp)⟩
        exact p1.plain (e := .escaped j.id) ⟨by simp, by simp⟩ rfl rfl rfl
      | again w =>
        have hlast := b.last j (by simp [St.live, hrun])
        have hent := p.ent j t hrun
        have key : ∀ d, s.now + d = nextDue s.now t w →
            Logs (deferFor ({ s with run := none }.say (.ended j.id s.now (.again w))) j.id j.h d) := by
          intro d hd
          refine logs_defer _ _ _ ⟨?_, ?_, by simp [St.say], ?_⟩
          · simp only [St.say]
            rw [serial_append, hser, haft]; rfl
          · simp only [St.say]
            rw [after_append, haft]; rfl
          · simp only [St.say]
            intro pre post id' a' w' hx
            rcases split_snoc hx with ⟨_, h, _⟩ | ⟨l2', e1, e2⟩
            · simp at h
            · rcases split_snoc e2 with ⟨f1, f2, f3⟩ | ⟨l3', f1, f2⟩
              · simp at f2
                obtain ⟨rfl, rfl, rfl⟩ := f2
                subst f3
                exact ⟨j.req, t, s.now + d, [], hlast, hent.1, hent.2, by rw [e1, f1]; rfl, hd⟩
              · obtain ⟨r, t', due, post', g1, g2, g3, g4, g5⟩ := p.per _ _ _ _ _ f2
                exact ⟨r, t', due, post' ++ [.ended j.id s.now (.again w)] ++ [.asked j.id j.h s.now (s.now + d)], g1, g2, g3,
                  by rw [e1, f1, g4]; rfl, g5⟩
        cases w with
        | fromNow d => exact key d rfl
        | fromThis d => exact key (t + d - s.now) (by simp only [nextDue]; omega)
        | to tp => exact key (tp - s.now) (by simp only [nextDue]; omega)
  | quit =>
    have h1 := (loseAll_book (s := s) (js := s.timers) b)
    exact (loseAll_logs p).same rfl rfl (Int.le_refl _)
  | launch => exact p.same rfl rfl (Int.le_refl _)

theorem exec_logs (ls : List Lbl) : Logs (exec ls) := by
  refine Sched.snoc_ind (P := fun ls => Logs (exec ls)) ?_ ?_ ls
  · refine ⟨rfl, rfl, by simp [exec], ?_⟩
    intro pre post id a w h; simp [exec] at h
  · intro ls l p
    rw [exec_snoc]
    exact step_logs (exec_book ls) p l

/-! ## What is over stays over -/

/-- `id` is neither pending nor running, and not a number still to be given out. -/
def Out (id : Nat) (s : St) : Prop := id ≤ s.count ∧ ∀ j ∈ s.live ++ s.timers, j.id ≠ id

theorem defer_out {s : St} {id i h : Nat} {d : Int} (o : Out id s) (hi : i ≠ id) :
    Out id (deferFor s i h d) ∧ ∀ a, Ev.began id a ∈ (deferFor s i h d).log → Ev.began id a ∈ s.log := by
  unfold deferFor
  simp only
  split
  · refine ⟨⟨o.1, ?_⟩, by simp [St.say]⟩
    intro j hj
    simp only [St.say, St.live, List.mem_append, List.mem_singleton] at hj
    rcases hj with hj | hj | rfl
    · exact o.2 j (by simp [St.live, hj])
    · exact o.2 j (by simp [hj])
    · exact hi
  · exact ⟨o, by simp [St.say]⟩

theorem loseAll_began {s : St} {js : List Job} {id : Nat} {a : Int} (h : Ev.began id a ∈ (loseAll s js).log) :
    Ev.began id a ∈ s.log := by
  induction js generalizing s with
  | nil => exact h
  | cons j js ih => simpa [St.say] using ih h

theorem step_out {s : St} (b : s.Book) {id : Nat} (o : Out id s) (l : Lbl) :
    Out id (step s l) ∧ ∀ a, Ev.began id a ∈ (step s l).log → Ev.began id a ∈ s.log := by
  cases l with
  | schedule h d =>
    have o' : Out id { s with count := s.count + 1 } := ⟨Nat.le_succ_of_le o.1, o.2⟩
    exact defer_out o' (by have := o.1; omega)
  | dispose h => exact ⟨o, by simp [step, St.say]⟩
  | tick k => exact ⟨o, fun _ h => h⟩
  | fire i =>
    simp only [step, fire]
    split
    · rename_i j hrun hj
      have hsub : ∀ k ∈ s.timers.eraseIdx i, k.id ≠ id := fun k hk => o.2 k (by simp [List.mem_of_mem_eraseIdx hk])
      have hj' : j.id ≠ id := o.2 j (by simp [List.mem_of_getElem? hj])
      split
      · split
        · refine ⟨⟨o.1, ?_⟩, by simp [St.say]⟩
          intro k hk
          simp only [St.say, St.live, hrun, List.mem_append, Option.toList_none, List.map_nil, List.not_mem_nil, false_or] at hk
          exact hsub k hk
        · refine ⟨⟨o.1, ?_⟩, by simp [St.say, Ne.symm hj']⟩
          intro k hk
          simp [St.say, St.live] at hk
          rcases hk with rfl | hk
          · exact hj'
          · exact hsub k hk
      · exact ⟨o, fun _ h => h⟩
    · exact ⟨o, fun _ h => h⟩
  | finish r =>
    simp only [step, finish]
    split
    · exact ⟨o, fun _ h => h⟩
    · rename_i j t hrun
      have hj : j.id ≠ id := o.2 j (by simp [St.live, hrun])
      have o' : Out id { s with run := none } := ⟨o.1, fun k hk => o.2 k (by simp [St.live] at hk; simp [hk])⟩
      cases r with
      | done => exact ⟨o', by simp [St.say]⟩
      | throws => exact ⟨o', by simp [St.say]⟩
      | again w =>
        have o2 : Out id (St.say { s with run := none } (.ended j.id s.now (.again w))) := o'
        have key : ∀ d, Out id (deferFor (St.say { s with run := none } (.ended j.id s.now (.again w))) j.id j.h d) ∧
            ∀ a, Ev.began id a ∈ (deferFor (St.say { s with run := none } (.ended j.id s.now (.again w))) j.id j.h d).log →
              Ev.began id a ∈ s.log := by
          intro d
          have q := defer_out (h := j.h) (d := d) o2 hj
          exact ⟨q.1, fun a ha => by simpa [St.say] using q.2 a ha⟩
        cases w <;> exact key _
  | quit =>
    obtain ⟨_, h1, h2, _, _⟩ := loseAll_book (s := s) (js := s.timers) b
    refine ⟨⟨?_, ?_⟩, fun a h => loseAll_began h⟩
    · simp only [step, h2]; exact o.1
    · intro k hk
      simp only [step, St.live, h1, List.append_nil] at hk
      exact o.2 k (by simp only [List.mem_append]; exact .inl hk)
  | launch => exact ⟨o, fun _ h => h⟩

theorem exec_append (ls ls' : List Lbl) : exec (ls ++ ls') = ls'.foldl step (exec ls) := by simp [exec]

theorem out_stays (ls ls' : List Lbl) {id : Nat} (o : Out id (exec ls)) :
    Out id (exec (ls ++ ls')) ∧ ∀ a, Ev.began id a ∈ (exec (ls ++ ls')).log → Ev.began id a ∈ (exec ls).log := by
  refine Sched.snoc_ind (P := fun ls' => Out id (exec (ls ++ ls')) ∧
    ∀ a, Ev.began id a ∈ (exec (ls ++ ls')).log → Ev.began id a ∈ (exec ls).log) ?_ ?_ ls'
  · rw [List.append_nil]; exact ⟨o, fun _ h => h⟩
  · intro ls' l ih
    rw [← List.append_assoc, exec_snoc]
    have q := step_out (exec_book (ls ++ ls')) ih.1 l
    exact ⟨q.1, fun a h => ih.2 a (q.2 a h)⟩

/-- What has been entered was not more often than asked for: nothing is entered that is out of the log. -/
theorem no_began_above (ls : List Lbl) {id : Nat} (h : (exec ls).count < id) (a : Int) : Ev.began id a ∉ (exec ls).log := by
  intro hm
  have := (exec_book ls).evle _ hm id rfl
  omega

end Rpp.Qt
