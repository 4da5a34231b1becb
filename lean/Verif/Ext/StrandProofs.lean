import Verif.Ext.StrandSpec
import Verif.Scheduler.CurrentThreadProofs

/-!
# The asio strand scheduler: invariants
-/

namespace Rpp.Strand

theorem waiting_snoc (id : Nat) (l : List Ev) (e : Ev) : waiting id (l ++ [e]) = waitStep id (waiting id l) e := by
  simp [waiting]

theorem lastDue_snoc (id : Nat) (l : List Ev) (e : Ev) : lastDue id (l ++ [e]) = lastStep id (lastDue id l) e := by
  simp [lastDue]

theorem split_snoc {γ : Type} {l l1 l2 : List γ} {e x : γ} (h : l ++ [e] = l1 ++ x :: l2) :
    (l2 = [] ∧ x = e ∧ l1 = l) ∨ ∃ l2', l2 = l2' ++ [e] ∧ l = l1 ++ x :: l2' := by
  rcases List.eq_nil_or_concat l2 with rfl | ⟨l2', y, rfl⟩
  · have h2 := List.append_inj' h rfl
    simp at h2
    exact .inl ⟨rfl, h2.2.symm, h2.1.symm⟩
  · have h' : l ++ [e] = (l1 ++ x :: l2') ++ [y] := by simpa using h
    have h2 := List.append_inj' h' rfl
    simp at h2
    exact .inr ⟨l2', by simp [h2.2], h2.1⟩

/-- `id` ended for good. -/
def Dead (id : Nat) (log : List Ev) : Prop := ∃ at' r, Ev.ended id at' r ∈ log ∧ ∀ w, r ≠ .again w

/-- What the history must look like for event `e` to be in order. -/
def Ok (pre : List Ev) : Ev → Prop
  | .asked id .. => waiting id pre = none ∧ ¬ Dead id pre
  | .began id _ at' _ =>
    (∃ h due, waiting id pre = some (h, due) ∧ due ≤ at' ∧ Ev.disposed h ∉ pre) ∧ ¬ Dead id pre
  | .dropped id _ => ∃ h due, waiting id pre = some (h, due) ∧ Ev.disposed h ∈ pre
  | .refused id how => ∃ h due pre', pre = pre' ++ [.asked id h due how] ∧ Ev.disposed h ∈ pre
  | .onError id h => OnCurrent id pre ∧ ∃ due how, Ev.asked id h due how ∈ pre
  | _ => True

/-- What the logs satisfy (for the proofs); models no code. -/
def AllOk (log : List Ev) : Prop := ∀ pre e post, log = pre ++ e :: post → Ok pre e

theorem AllOk.snoc {log : List Ev} {e : Ev} (h : AllOk log) (he : Ok log e) : AllOk (log ++ [e]) := by
  intro pre x post hx
  rcases split_snoc hx with ⟨_, rfl, rfl⟩ | ⟨l2', _, h2⟩
  · exact he
  · exact h _ _ _ h2

/-- Bookkeeping: `P` the requests that wait somewhere, `R` the running functions. -/
structure Inv (P R : List Job) (n : Nat) (gone : List Nat) (log : List Ev) : Prop where
  nodup : ((R ++ P).map Job.id).Nodup
  le : ∀ j ∈ R ++ P, j.id ≤ n
  wait : ∀ j ∈ P, waiting j.id log = some (j.h, j.due)
  only : ∀ id, waiting id log ≠ none → ∃ j ∈ P, j.id = id
  last : ∀ j ∈ R ++ P, lastDue j.id log = some j.due
  kind : ∀ j ∈ R ++ P, (j.via = true ↔ OnCurrent j.id log)
  hand : ∀ j ∈ R ++ P, ∃ due how, Ev.asked j.id j.h due how ∈ log
  evle : ∀ e ∈ log, ∀ id, e.about = some id → id ≤ n
  gones : ∀ h, h ∈ gone ↔ Ev.disposed h ∈ log
  dead : ∀ id, Dead id log → ∀ j ∈ R ++ P, j.id ≠ id
  ok : AllOk log

theorem dead_snoc {id : Nat} {log : List Ev} {e : Ev} (he : ∀ at' r, e = .ended id at' r → ∃ w, r = .again w) :
    Dead id (log ++ [e]) ↔ Dead id log := by
  unfold Dead
  constructor
  · rintro ⟨a, r, hm, hr⟩
    simp only [List.mem_append, List.mem_singleton] at hm
    rcases hm with hm | hm
    · exact ⟨a, r, hm, hr⟩
    · obtain ⟨w, hw⟩ := he a r hm.symm
      exact absurd hw (hr w)
  · rintro ⟨a, r, hm, hr⟩
    exact ⟨a, r, by simp [hm], hr⟩

theorem onCurrent_snoc {id : Nat} {log : List Ev} {e : Ev} (he : ∀ h due, e ≠ .asked id h due .queued) :
    OnCurrent id (log ++ [e]) ↔ OnCurrent id log := by
  unfold OnCurrent
  constructor
  · rintro ⟨h, due, hm⟩
    simp only [List.mem_append, List.mem_singleton] at hm
    rcases hm with hm | hm
    · exact ⟨h, due, hm⟩
    · exact absurd hm.symm (he h due)
  · rintro ⟨h, due, hm⟩
    exact ⟨h, due, by simp [hm]⟩

theorem Inv.perm {P P' R : List Job} {n gone log} (h : Inv P R n gone log) (hp : P.Perm P') : Inv P' R n gone log := by
  have hm : ∀ j, j ∈ P' ↔ j ∈ P := fun j => hp.mem_iff.symm
  have hm' : ∀ j, j ∈ R ++ P' ↔ j ∈ R ++ P := fun j => by simp [hm]
  exact ⟨((hp.append_left R).map Job.id).nodup_iff.1 h.nodup, fun j hj => h.le j ((hm' j).1 hj),
    fun j hj => h.wait j ((hm j).1 hj),
    fun id hw => (h.only id hw).imp fun j hj => ⟨(hm j).2 hj.1, hj.2⟩,
    fun j hj => h.last j ((hm' j).1 hj), fun j hj => h.kind j ((hm' j).1 hj), fun j hj => h.hand j ((hm' j).1 hj),
    h.evle, h.gones, fun id hd j hj => h.dead id hd j ((hm' j).1 hj), h.ok⟩

theorem Inv.rehow {P R : List Job} {n gone log} {j : Job} (how : How) (h : Inv (j :: P) R n gone log) :
    Inv ({ j with how } :: P) R n gone log := by
  refine ⟨?_, ?_, ?_, ?_, ?_, ?_, ?_, h.evle, h.gones, ?_, h.ok⟩
  · simpa using h.nodup
  · have := h.le; grind
  · have := h.wait; grind
  · intro id hw
    obtain ⟨k, hk, hid⟩ := h.only id hw
    rcases List.mem_cons.1 hk with rfl | hk
    · exact ⟨_, List.mem_cons_self .., hid⟩
    · exact ⟨k, by simp [hk], hid⟩
  · have := h.last; grind
  · have := h.kind; grind
  · intro k hk
    have old := h.hand
    simp only [List.mem_append, List.mem_cons] at hk
    rcases hk with hk | rfl | hk
    · exact old k (by simp [hk])
    · exact old j (by simp)
    · exact old k (by simp [hk])
  · have := h.dead; grind

/-- An event of no consequence. -/
theorem Inv.neutral {P R : List Job} {n gone log} {e : Ev} (h : Inv P R n gone log)
    (hw : ∀ id w, waitStep id w e = w) (hl : ∀ id w, lastStep id w e = w)
    (ha : ∀ id, e.about = some id → id ≤ n) (hd : ∀ id a r, e ≠ .ended id a r) (hdis : ∀ h, e ≠ .disposed h)
    (hok : Ok log e) : Inv P R n gone (log ++ [e]) := by
  have hq : ∀ id h due, e ≠ .asked id h due .queued := by
    intro id h due he
    have := hw id none
    simp [he, waitStep] at this
  refine ⟨h.nodup, h.le, ?_, ?_, ?_, ?_, ?_, ?_, ?_, ?_, h.ok.snoc hok⟩
  · intro j hj; rw [waiting_snoc, hw]; exact h.wait j hj
  · intro id; rw [waiting_snoc, hw]; exact h.only id
  · intro j hj; rw [lastDue_snoc, hl]; exact h.last j hj
  · intro j hj; rw [onCurrent_snoc (hq j.id)]; exact h.kind j hj
  · intro j hj
    obtain ⟨d, w, hm⟩ := h.hand j hj
    exact ⟨d, w, by simp [hm]⟩
  · intro x hx id hi
    simp only [List.mem_append, List.mem_singleton] at hx
    rcases hx with hx | rfl
    · exact h.evle x hx id hi
    · exact ha id hi
  · intro g
    have := (hdis g).symm
    simp [h.gones g, this]
  · intro id hdd
    rw [dead_snoc (fun a r he => absurd he (hd id a r))] at hdd
    exact h.dead id hdd

theorem Inv.dispose {P R : List Job} {n gone log} {g : Nat} (h : Inv P R n gone log) :
    Inv P R n (g :: gone) (log ++ [.disposed g]) := by
  refine ⟨h.nodup, h.le, ?_, ?_, ?_, ?_, ?_, ?_, ?_, ?_, h.ok.snoc trivial⟩
  · intro j hj; rw [waiting_snoc]; exact h.wait j hj
  · intro id; rw [waiting_snoc]; exact h.only id
  · intro j hj; rw [lastDue_snoc]; exact h.last j hj
  · intro j hj; rw [onCurrent_snoc (by simp)]; exact h.kind j hj
  · intro j hj
    obtain ⟨d, w, hm⟩ := h.hand j hj
    exact ⟨d, w, by simp [hm]⟩
  · intro x hx id hi
    simp only [List.mem_append, List.mem_singleton] at hx
    rcases hx with hx | rfl
    · exact h.evle x hx id hi
    · simp [Ev.about] at hi
  · intro g'
    simp [h.gones g']
    constructor <;> rintro (h | h) <;> simp [h]
  · intro id hdd
    rw [dead_snoc (by simp)] at hdd
    exact h.dead id hdd

theorem mem_about_of_dead {id : Nat} {log : List Ev} (h : Dead id log) : ∃ e ∈ log, e.about = some id := by
  obtain ⟨a, r, hm, _⟩ := h
  exact ⟨_, hm, rfl⟩

/-- A first request. -/
theorem Inv.ask {P R : List Job} {n gone log} (h : Inv P R n gone log) (g : Nat) (due : Int) (how : How) :
    Inv (⟨n + 1, g, due, how, decide (how = .queued)⟩ :: P) R (n + 1) gone (log ++ [.asked (n + 1) g due how]) := by
  have hne : ∀ j ∈ R ++ P, n + 1 ≠ j.id := fun j hj => by have := h.le j hj; omega
  have hlog : ∀ e ∈ log, e.about ≠ some (n + 1) := fun e he ha => by have := h.evle e he _ ha; omega
  have hnone : waiting (n + 1) log = none := by
    cases hc : waiting (n + 1) log with
    | none => rfl
    | some w =>
      obtain ⟨j, hj, hid⟩ := h.only (n + 1) (by simp [hc])
      exact absurd hid.symm (hne j (by simp [hj]))
  have hnd : ¬ Dead (n + 1) log := fun hd => by
    obtain ⟨e, he, ha⟩ := mem_about_of_dead hd
    exact hlog e he ha
  have hnc : ¬ OnCurrent (n + 1) log := fun ⟨_, _, hm⟩ => hlog _ hm rfl
  refine ⟨?_, ?_, ?_, ?_, ?_, ?_, ?_, ?_, ?_, ?_, h.ok.snoc ⟨hnone, hnd⟩⟩
  · have hp := (List.perm_middle (a := (⟨n + 1, g, due, how, decide (how = .queued)⟩ : Job)) (l₁ := R) (l₂ := P)).map Job.id
    rw [hp.nodup_iff]
    simp only [List.map_cons, List.nodup_cons]
    refine ⟨?_, h.nodup⟩
    intro hm
    obtain ⟨j, hj, hid⟩ := List.mem_map.1 hm
    exact hne j hj hid.symm
  · intro j hj
    simp only [List.mem_append, List.mem_cons] at hj
    rcases hj with hj | rfl | hj
    · have := h.le j (by simp [hj]); omega
    · exact Nat.le_refl _
    · have := h.le j (by simp [hj]); omega
  · intro j hj
    simp only [List.mem_cons] at hj
    rw [waiting_snoc]
    rcases hj with rfl | hj
    · simp [waitStep]
    · simp [waitStep, hne j (by simp [hj]), h.wait j hj]
  · intro id hw
    rw [waiting_snoc] at hw
    by_cases hid : n + 1 = id
    · exact ⟨_, List.mem_cons_self .., hid⟩
    · simp [waitStep, hid] at hw
      obtain ⟨j, hj, hji⟩ := h.only id hw
      exact ⟨j, by simp [hj], hji⟩
  · intro j hj
    rw [lastDue_snoc]
    simp only [List.mem_append, List.mem_cons] at hj
    rcases hj with hj | rfl | hj
    · simp [lastStep, hne j (by simp [hj]), h.last j (by simp [hj])]
    · simp [lastStep]
    · simp [lastStep, hne j (by simp [hj]), h.last j (by simp [hj])]
  · intro j hj
    simp only [List.mem_append, List.mem_cons] at hj
    have old : ∀ j ∈ R ++ P, (j.via = true ↔ OnCurrent j.id (log ++ [.asked (n + 1) g due how])) := by
      intro j hj
      rw [onCurrent_snoc (by intro _ _ he; simp at he; exact hne j hj he.1)]
      exact h.kind j hj
    rcases hj with hj | rfl | hj
    · exact old j (by simp [hj])
    · constructor
      · intro hv; simp at hv; subst hv; exact ⟨g, due, by simp⟩
      · rintro ⟨g', d', hm⟩
        simp only [List.mem_append, List.mem_singleton] at hm
        rcases hm with hm | hm
        · exact absurd rfl (hlog _ hm)
        · simp at hm; simp [hm]
    · exact old j (by simp [hj])
  · intro j hj
    simp only [List.mem_append, List.mem_cons] at hj
    have old : ∀ j ∈ R ++ P, ∃ d w, Ev.asked j.id j.h d w ∈ log ++ [.asked (n + 1) g due how] := by
      intro j hj
      obtain ⟨d, w, hm⟩ := h.hand j hj
      exact ⟨d, w, by simp [hm]⟩
    rcases hj with hj | rfl | hj
    · exact old j (by simp [hj])
    · exact ⟨due, how, by simp⟩
    · exact old j (by simp [hj])
  · intro x hx id hi
    simp only [List.mem_append, List.mem_singleton] at hx
    rcases hx with hx | rfl
    · have := h.evle x hx id hi; omega
    · simp [Ev.about] at hi; omega
  · intro g'; simp [h.gones g']
  · intro id hdd j hj
    rw [dead_snoc (by simp)] at hdd
    simp only [List.mem_append, List.mem_cons] at hj
    rcases hj with hj | rfl | hj
    · exact h.dead id hdd j (by simp [hj])
    · rintro rfl; exact hnd hdd
    · exact h.dead id hdd j (by simp [hj])

theorem Inv.tailne {P R : List Job} {n gone log} {j : Job} (h : Inv (j :: P) R n gone log) :
    ∀ k ∈ R ++ P, j.id ≠ k.id := by
  have hp := ((List.perm_middle (a := j) (l₁ := R) (l₂ := P)).map Job.id).nodup_iff.1 h.nodup
  simp only [List.map_cons, List.nodup_cons] at hp
  intro k hk he
  exact hp.1 (he ▸ List.mem_map.2 ⟨k, hk, rfl⟩)

/-- A request ends without a run. -/
theorem Inv.leave {P R : List Job} {n gone log} {j : Job} {e : Ev} (h : Inv (j :: P) R n gone log)
    (he : (∃ w, e = .refused j.id w) ∨ (∃ w, e = .dropped j.id w) ∨ e = .outer j.id) (hok : Ok log e) :
    Inv P R n gone (log ++ [e]) := by
  have hne := h.tailne
  have hw : ∀ id w, waitStep id w e = if j.id = id then none else w := by
    rintro id w; rcases he with ⟨_, rfl⟩ | ⟨_, rfl⟩ | rfl <;> rfl
  have hl : ∀ id w, lastStep id w e = w := by rintro id w; rcases he with ⟨_, rfl⟩ | ⟨_, rfl⟩ | rfl <;> rfl
  have hab : e.about = some j.id := by rcases he with ⟨_, rfl⟩ | ⟨_, rfl⟩ | rfl <;> rfl
  have hp := ((List.perm_middle (a := j) (l₁ := R) (l₂ := P)).map Job.id).nodup_iff.1 h.nodup
  simp only [List.map_cons, List.nodup_cons] at hp
  have hin : ∀ k, k ∈ R ++ P → k ∈ R ++ j :: P := by simp; grind
  refine ⟨hp.2, fun k hk => h.le k (hin k hk), ?_, ?_, ?_, ?_, ?_, ?_, ?_, ?_, h.ok.snoc hok⟩
  · intro k hk
    rw [waiting_snoc, hw, if_neg (hne k (by simp [hk]))]
    exact h.wait k (by simp [hk])
  · intro id
    rw [waiting_snoc, hw]
    split
    · simp
    · intro hc
      obtain ⟨k, hk, hid⟩ := h.only id hc
      rcases List.mem_cons.1 hk with rfl | hk
      · contradiction
      · exact ⟨k, hk, hid⟩
  · intro k hk; rw [lastDue_snoc, hl]; exact h.last k (hin k hk)
  · intro k hk
    rw [onCurrent_snoc (by rcases he with ⟨_, rfl⟩ | ⟨_, rfl⟩ | rfl <;> simp)]; exact h.kind k (hin k hk)
  · intro k hk
    obtain ⟨d, w, hm⟩ := h.hand k (hin k hk)
    exact ⟨d, w, by simp [hm]⟩
  · intro x hx id hi
    simp only [List.mem_append, List.mem_singleton] at hx
    rcases hx with hx | rfl
    · exact h.evle x hx id hi
    · rw [hab] at hi; cases hi; exact h.le j (by simp)
  · intro g
    rw [h.gones g]
    rcases he with ⟨_, rfl⟩ | ⟨_, rfl⟩ | rfl <;> simp
  · intro id hdd
    rw [dead_snoc (by rcases he with ⟨_, rfl⟩ | ⟨_, rfl⟩ | rfl <;> simp)] at hdd
    exact fun k hk => h.dead id hdd k (hin k hk)

/-- A function is entered. -/
theorem Inv.begin {P R : List Job} {n gone log} {j : Job} (t : Nat) (now : Int) (how : How)
    (h : Inv (j :: P) R n gone log) (hdue : j.due ≤ now) (hg : j.h ∉ gone) :
    Inv P (j :: R) n gone (log ++ [.began j.id t now how]) := by
  have hne := h.tailne
  have hnd : ¬ Dead j.id log := fun hd => h.dead _ hd j (by simp) rfl
  have hp := ((List.perm_middle (a := j) (l₁ := R) (l₂ := P)).map Job.id).nodup_iff.1 h.nodup
  have hin : ∀ k, k ∈ (j :: R) ++ P → k ∈ R ++ j :: P := by simp; grind
  refine ⟨hp, fun k hk => h.le k (hin k hk), ?_, ?_, ?_, ?_, ?_, ?_, ?_, ?_,
    h.ok.snoc ⟨⟨j.h, j.due, h.wait j (by simp), hdue, fun hc => hg ((h.gones _).2 hc)⟩, hnd⟩⟩
  · intro k hk
    rw [waiting_snoc]
    simp only [waitStep, if_neg (hne k (by simp [hk]))]
    exact h.wait k (by simp [hk])
  · intro id
    rw [waiting_snoc]
    simp only [waitStep]
    split
    · simp
    · intro hc
      obtain ⟨k, hk, hid⟩ := h.only id hc
      rcases List.mem_cons.1 hk with rfl | hk
      · contradiction
      · exact ⟨k, hk, hid⟩
  · intro k hk; rw [lastDue_snoc]; exact h.last k (hin k hk)
  · intro k hk
    rw [onCurrent_snoc (by simp)]; exact h.kind k (hin k hk)
  · intro k hk
    obtain ⟨d, w, hm⟩ := h.hand k (hin k hk)
    exact ⟨d, w, by simp [hm]⟩
  · intro x hx id hi
    simp only [List.mem_append, List.mem_singleton] at hx
    rcases hx with hx | rfl
    · exact h.evle x hx id hi
    · simp [Ev.about] at hi; subst hi; exact h.le j (by simp)
  · intro g; simp [h.gones g]
  · intro id hdd
    rw [dead_snoc (by simp)] at hdd
    exact fun k hk => h.dead id hdd k (hin k hk)

/-- A function is left for good. -/
theorem Inv.end {P R : List Job} {n gone log} {j : Job} (now : Int) (r : Res)
    (h : Inv P (j :: R) n gone log) : Inv P R n gone (log ++ [.ended j.id now r]) := by
  have hp := h.nodup
  simp only [List.cons_append, List.map_cons, List.nodup_cons] at hp
  have hne : ∀ k ∈ R ++ P, k.id ≠ j.id := fun k hk he => hp.1 (he ▸ List.mem_map.2 ⟨k, hk, rfl⟩)
  have hin : ∀ k, k ∈ R ++ P → k ∈ (j :: R) ++ P := by simp; grind
  refine ⟨hp.2, fun k hk => h.le k (hin k hk), ?_, ?_, ?_, ?_, ?_, ?_, ?_, ?_, h.ok.snoc trivial⟩
  · intro k hk; rw [waiting_snoc]; exact h.wait k hk
  · intro id; rw [waiting_snoc]; exact h.only id
  · intro k hk; rw [lastDue_snoc]; exact h.last k (hin k hk)
  · intro k hk
    rw [onCurrent_snoc (by simp)]; exact h.kind k (hin k hk)
  · intro k hk
    obtain ⟨d, w, hm⟩ := h.hand k (hin k hk)
    exact ⟨d, w, by simp [hm]⟩
  · intro x hx id hi
    simp only [List.mem_append, List.mem_singleton] at hx
    rcases hx with hx | rfl
    · exact h.evle x hx id hi
    · simp [Ev.about] at hi; subst hi; exact h.le j (by simp)
  · intro g; simp [h.gones g]
  · intro id hdd k hk
    by_cases hid : id = j.id
    · rw [hid]; exact hne k hk
    · rw [dead_snoc (by intro a r he; simp at he; exact absurd he.1.symm hid)] at hdd
      exact h.dead id hdd k (hin k hk)

/-- A function is left and asked for again. -/
theorem Inv.again {P R : List Job} {n gone log} {j : Job} (now due : Int) (w : Delay)
    (h : Inv P (j :: R) n gone log) :
    Inv ({ j with due, how := .timed } :: P) R n gone
      ((log ++ [.ended j.id now (.again w)]) ++ [.asked j.id j.h due .timed]) := by
  have hp := h.nodup
  simp only [List.cons_append, List.map_cons, List.nodup_cons] at hp
  have hne : ∀ k ∈ R ++ P, j.id ≠ k.id := fun k hk he => hp.1 (he ▸ List.mem_map.2 ⟨k, hk, rfl⟩)
  have hin : ∀ k, k ∈ R ++ P → k ∈ (j :: R) ++ P := by simp; grind
  have hnone : waiting j.id log = none := by
    cases hc : waiting j.id log with
    | none => rfl
    | some x =>
      obtain ⟨k, hk, hid⟩ := h.only j.id (by simp [hc])
      exact absurd hid.symm (hne k (by simp [hk]))
  have hnd : ¬ Dead j.id log := fun hd => h.dead _ hd j (by simp) rfl
  have dd : ∀ id, Dead id (log ++ [.ended j.id now (.again w)]) ↔ Dead id log :=
    fun id => dead_snoc (by intro a r he; simp at he; exact ⟨w, he.2.2.symm⟩)
  refine ⟨?_, ?_, ?_, ?_, ?_, ?_, ?_, ?_, ?_, ?_,
    (h.ok.snoc (e := .ended j.id now (.again w)) trivial).snoc ⟨by rw [waiting_snoc]; exact hnone, by rw [dd]; exact hnd⟩⟩
  · have hp' := (List.perm_middle (a := ({ j with due, how := .timed } : Job)) (l₁ := R) (l₂ := P)).map Job.id
    rw [hp'.nodup_iff]
    simpa using h.nodup
  · intro k hk
    simp only [List.mem_append, List.mem_cons] at hk
    rcases hk with hk | rfl | hk
    · exact h.le k (by simp [hk])
    · exact h.le j (by simp)
    · exact h.le k (by simp [hk])
  · intro k hk
    rw [waiting_snoc, waiting_snoc]
    rcases List.mem_cons.1 hk with rfl | hk
    · simp [waitStep]
    · simp only [waitStep, if_neg (hne k (by simp [hk]))]
      exact h.wait k hk
  · intro id
    rw [waiting_snoc, waiting_snoc]
    simp only [waitStep]
    split
    · intro _; exact ⟨_, List.mem_cons_self .., by assumption⟩
    · intro hc
      obtain ⟨k, hk, hid⟩ := h.only id hc
      exact ⟨k, by simp [hk], hid⟩
  · intro k hk
    rw [lastDue_snoc, lastDue_snoc]
    simp only [List.mem_append, List.mem_cons] at hk
    rcases hk with hk | rfl | hk
    · simp only [lastStep, if_neg (hne k (by simp [hk]))]; exact h.last k (by simp [hk])
    · simp [lastStep]
    · simp only [lastStep, if_neg (hne k (by simp [hk]))]; exact h.last k (by simp [hk])
  · intro k hk
    rw [onCurrent_snoc (by simp), onCurrent_snoc (by simp)]
    simp only [List.mem_append, List.mem_cons] at hk
    rcases hk with hk | rfl | hk
    · exact h.kind k (by simp [hk])
    · exact h.kind j (by simp)
    · exact h.kind k (by simp [hk])
  · intro k hk
    have old : ∀ k ∈ (j :: R) ++ P, ∃ d w', Ev.asked k.id k.h d w' ∈
        (log ++ [.ended j.id now (.again w)]) ++ [.asked j.id j.h due .timed] := by
      intro k hk
      obtain ⟨d, w, hm⟩ := h.hand k hk
      exact ⟨d, w, by simp [hm]⟩
    simp only [List.mem_append, List.mem_cons] at hk
    rcases hk with hk | rfl | hk
    · exact old k (by simp [hk])
    · exact old j (by simp)
    · exact old k (by simp [hk])
  · intro x hx id hi
    simp only [List.mem_append, List.mem_singleton] at hx
    rcases hx with (hx | rfl) | rfl
    · exact h.evle x hx id hi
    · simp [Ev.about] at hi; subst hi; exact h.le j (by simp)
    · simp [Ev.about] at hi; subst hi; exact h.le j (by simp)
  · intro g; simp [h.gones g]
  · intro id hdd k hk
    rw [dead_snoc (by simp), dd] at hdd
    simp only [List.mem_append, List.mem_cons] at hk
    rcases hk with hk | rfl | hk
    · exact h.dead id hdd k (by simp [hk])
    · exact h.dead id hdd j (by simp)
    · exact h.dead id hdd k (by simp [hk])

end Rpp.Strand
