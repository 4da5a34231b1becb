import Verif.Window.Hub

/-!
# The common machine of `window` and `group_by`: invariants
-/

namespace Rpp.Win
variable {σ ι α ε : Type}

theorem exec_induct (O : Oper σ ι α ε) {P : St σ ι α ε → Prop} (h0 : P { op := O.init })
    (hs : ∀ s l, P s → P (step O s l)) (ls : List (Lbl ι)) : P (exec O ls) := by
  suffices h : ∀ s, P s → P (ls.foldl (step O) s) from h _ h0
  induction ls with
  | nil => exact fun s h => h
  | cons l ls ih => intro s h; exact ih _ (hs s l h)

/-- A test on the constructor; models no code. -/
def Instr.isCall : Instr α ε → Bool
  | .call _ _ => true
  | _ => false

/-- Calls only at the beginning of a program. -/
def front : List (Instr α ε) → Bool
  | [] => true
  | .call _ _ :: r => front r
  | _ :: r => r.all (fun i => !i.isCall)

/-- What `o` is still to be told by the calls of a program. -/
def pend (o : Nat) : List (Instr α ε) → List (Item α ε)
  | [] => []
  | .call p x :: r => if p = o then x :: pend o r else pend o r
  | _ :: r => pend o r

/-- Used in the proofs; models no code. -/
def aliveOb : Option Ob → Bool
  | some b => b.alive
  | none => false

theorem pend_append (o) (l m : List (Instr α ε)) : pend o (l ++ m) = pend o l ++ pend o m := by
  induction l with
  | nil => rfl
  | cons i l ih => cases i <;> simp [pend, ih]; split <;> simp

theorem pend_noCall (o) (l : List (Instr α ε)) (h : l.all (fun i => !i.isCall) = true) : pend o l = [] := by
  induction l with
  | nil => rfl
  | cons i l ih =>
    simp only [List.all_cons, Bool.and_eq_true] at h
    cases i <;> simp_all [pend, Instr.isCall]

theorem front_noCall (l : List (Instr α ε)) (h : l.all (fun i => !i.isCall) = true) : front l = true := by
  cases l with
  | nil => rfl
  | cons i l =>
    simp only [List.all_cons, Bool.and_eq_true] at h
    cases i <;> simp_all [front, Instr.isCall]

theorem front_calls (x : Item α ε) (os : List Nat) (l : List (Instr α ε)) (h : l.all (fun i => !i.isCall) = true) :
    front (os.map (fun o => .call o x) ++ l) = true := by
  induction os with
  | nil => exact front_noCall l h
  | cons o os ih => simpa [front] using ih

theorem pend_calls (o) (x : Item α ε) (os : List Nat) (hn : os.Nodup) :
    pend o (os.map (fun o => .call o x)) = if o ∈ os then [x] else [] := by
  induction os with
  | nil => rfl
  | cons p os ih =>
    obtain ⟨h1, h2⟩ := List.nodup_cons.mp hn
    simp only [List.map_cons, pend, ih h2, List.mem_cons]
    by_cases hp : p = o
    · subst hp; simp [h1]
    · simp [hp, Ne.symm hp]

/-! ## References -/

/-- Invariant of the proofs; models no code. -/
structure InvR (s : St σ ι α ε) : Prop where
  r1 : s.dead = true → s.mainRef = false ∧ s.refd = []
  r1' : s.mainRef = false → s.refd = [] → s.dead = true
  r2 : ∀ o, o ∈ s.refd ↔ aliveOb (s.ob o) = true
  r3 : ∀ w, (s.phase w).isLive = true → s.dead = false
  r5 : ∀ w l o, s.phase w = .live l → o ∈ l → s.ob o = some ⟨w, true⟩
  r6 : ∀ w l, s.phase w = .live l → l.Nodup
  fr : front s.prog = true

/-- Everything except the rule that nobody holds a reference only when disposed. -/
structure InvQ (s : St σ ι α ε) : Prop where
  r1 : s.dead = true → s.mainRef = false ∧ s.refd = []
  r2 : ∀ o, o ∈ s.refd ↔ aliveOb (s.ob o) = true
  r3 : ∀ w, (s.phase w).isLive = true → s.dead = false
  r5 : ∀ w l o, s.phase w = .live l → o ∈ l → s.ob o = some ⟨w, true⟩
  r6 : ∀ w l, s.phase w = .live l → l.Nodup
  fr : front s.prog = true

theorem disposeIt_live (p : Phase α ε) : p.disposeIt.isLive = false := by cases p <;> rfl
theorem disposeIt_ne (p : Phase α ε) (l) : p.disposeIt ≠ .live l := by cases p <;> simp [Phase.disposeIt]

theorem InvQ.settle {s : St σ ι α ε} (h : InvQ s) : InvR s.settle := by
  obtain ⟨r1, r2, r3, r5, r6, fr⟩ := h
  unfold St.settle
  split
  · next hc =>
    refine ⟨r1, ?_, r2, r3, r5, r6, fr⟩
    intro h1 h2
    simp [h1, h2] at hc
  · next hc =>
    simp only [Bool.or_eq_true, Bool.not_eq_true', List.isEmpty_eq_false_iff, not_or, Classical.not_not] at hc
    have hm : s.mainRef = false := by simpa using hc.1
    have hr : s.refd = [] := by simpa using hc.2
    refine ⟨fun _ => ⟨hm, hr⟩, fun _ _ => rfl, r2, ?_, ?_, ?_, fr⟩
    · intro w hw; rw [disposeIt_live] at hw; cases hw
    · intro w l o hw; exact absurd hw (disposeIt_ne _ _)
    · intro w l hw; exact absurd hw (disposeIt_ne _ _)

theorem InvR.q {s : St σ ι α ε} (h : InvR s) : InvQ s := ⟨h.r1, h.r2, h.r3, h.r5, h.r6, h.fr⟩

/-- `free` before the release of the last reference takes effect. -/
def St.free0 (s : St σ ι α ε) (o : Nat) (b : Ob) : St σ ι α ε :=
  { s with ob := fun j => if j = o then some { b with alive := false } else s.ob j,
           phase := fun w => if w = b.win then (s.phase w).without o else s.phase w,
           refd := s.refd.filter (· ≠ o) }

theorem InvQ.free0 {s : St σ ι α ε} (h : InvQ s) (o b) (hb : s.ob o = some b) (ha : b.alive = true) :
    InvQ (s.free0 o b) := by
  obtain ⟨r1, r2, r3, r5, r6, fr⟩ := h
  unfold St.free0
  refine ⟨?_, ?_, ?_, ?_, ?_, fr⟩
  · intro hd
    have := (r1 hd).2
    have := (r2 o).mpr (by rw [hb]; exact ha)
    rw [(r1 hd).2] at this
    cases this
  · intro p
    simp only [List.mem_filter, decide_eq_true_eq, r2]
    by_cases hp : p = o
    · simp [hp, aliveOb]
    · simp [hp]
  · intro w hw
    apply r3 w
    simp only at hw
    split at hw
    · revert hw; cases s.phase w <;> simp [Phase.without, Phase.isLive]
    · exact hw
  · intro w l p hw hp
    simp only at hw ⊢
    split at hw
    · next e =>
      cases hq : s.phase w with
      | live m =>
        rw [hq] at hw
        simp only [Phase.without, Phase.live.injEq] at hw
        subst hw
        simp only [List.mem_filter, decide_eq_true_eq] at hp
        rw [if_neg hp.2]
        exact r5 w m p hq hp.1
      | _ => rw [hq] at hw; cases hw
    · next e =>
      have := r5 w l p hw hp
      rw [if_neg]
      · exact this
      · intro hpo
        rw [hpo, hb] at this
        cases this
        exact e rfl
  · intro w l hw
    simp only at hw
    split at hw
    · cases hq : s.phase w with
      | live m =>
        rw [hq] at hw
        simp only [Phase.without, Phase.live.injEq] at hw
        subst hw
        exact (r6 w m hq).filter _
      | _ => rw [hq] at hw; cases hw
    · exact r6 w l hw

theorem InvQ.free {s : St σ ι α ε} (h : InvQ s) (o b) (hb : s.ob o = some b) (ha : b.alive = true) :
    InvR (s.free o b) := (h.free0 o b hb ha).settle

theorem front_tail {i : Instr α ε} {r : List (Instr α ε)} (h : front (i :: r) = true) : front r = true := by
  cases i <;> simp only [front] at h <;> first | exact h | exact front_noCall r h

theorem front_rest {i : Instr α ε} {r : List (Instr α ε)} (h : front (i :: r) = true) (hi : i.isCall = false) :
    r.all (fun i => !i.isCall) = true := by
  cases i <;> simp only [front, Instr.isCall] at h hi <;> first | exact h | cases hi

/-- Used in the proofs; models no code. -/
def endLast : List (Instr α ε) → Bool
  | [] => true
  | .mainEnd _ :: r => r.isEmpty
  | _ :: r => endLast r

/-- Used in the proofs; models no code. -/
def hasEnd : List (Instr α ε) → Bool
  | [] => false
  | .mainEnd _ :: _ => true
  | _ :: r => hasEnd r

/-- The programs of the operator: no calls, the main observer's terminal event last. -/
structure Oper.Ok (O : Oper σ ι α ε) : Prop where
  noCall : ∀ q g i, ((O.accept q g i).2).all (fun i => !i.isCall) = true
  endLast : ∀ q g i, endLast (O.accept q g i).2 = true
  onlyTerm : ∀ q g i, hasEnd (O.accept q g i).2 = true → O.isTerm q g i = true

theorem InvR.exec1 {s : St σ ι α ε} (h : InvR s) {i rest} (hp : s.prog = i :: rest) : InvR (exec1 s rest i) := by
  have hfr : front rest = true := front_tail (hp ▸ h.fr)
  have hQ := h.q
  obtain ⟨r1, r1', r2, r3, r5, r6, fr⟩ := h
  cases i with
  | create w =>
    simp only [Win.exec1]
    split
    · next hw =>
      refine ⟨r1, r1', r2, ?_, ?_, ?_, hfr⟩
      · intro v hv
        simp only at hv
        split at hv
        · cases hd : s.dead
          · rfl
          · simp [hd, Phase.isLive] at hv
        · exact r3 v hv
      · intro v l o hv ho
        simp only at hv
        split at hv
        · split at hv
          · cases hv
          · cases hv; cases ho
        · exact r5 v l o hv ho
      · intro v l hv
        simp only at hv
        split at hv
        · split at hv
          · cases hv
          · cases hv; exact List.nodup_nil
        · exact r6 v l hv
    · exact ⟨r1, r1', r2, r3, r5, r6, hfr⟩
  | openW w => simp only [Win.exec1]; split <;> exact ⟨r1, r1', r2, r3, r5, r6, hfr⟩
  | push w x =>
    simp only [Win.exec1]
    split
    · next l hl =>
      refine ⟨r1, r1', r2, ?_, ?_, ?_, front_calls x l rest (front_rest (hp ▸ fr) rfl)⟩
      · intro v hv
        simp only at hv
        split at hv
        · exact r3 w (by rw [hl]; rfl)
        · exact r3 v hv
      · intro v m o hv ho
        simp only at hv
        split at hv
        · next e =>
          split at hv
          · cases hv
          · cases hv; rw [e]; exact r5 w l o hl ho
        · exact r5 v m o hv ho
      · intro v m hv
        simp only at hv
        split at hv
        · split at hv
          · cases hv
          · cases hv; exact r6 w l hl
        · exact r6 v m hv
    · exact ⟨r1, r1', r2, r3, r5, r6, hfr⟩
  | call o x =>
    simp only [Win.exec1]
    split
    · next b hb =>
      split
      · next ha =>
        split
        · exact InvQ.free (s := { s with prog := rest, log := s.log ++ [.got o x] }) ⟨r1, r2, r3, r5, r6, hfr⟩ o b hb ha
        · exact ⟨r1, r1', r2, r3, r5, r6, hfr⟩
      · exact ⟨r1, r1', r2, r3, r5, r6, hfr⟩
    · exact ⟨r1, r1', r2, r3, r5, r6, hfr⟩
  | drop w => exact ⟨r1, r1', r2, r3, r5, r6, hfr⟩
  | mainEnd x =>
    simp only [Win.exec1]
    split
    · next hm =>
      refine InvQ.settle ⟨?_, r2, r3, r5, r6, hfr⟩
      intro hd; have := (r1 hd).1; rw [hm] at this; cases this
    · exact ⟨r1, r1', r2, r3, r5, r6, hfr⟩
  | stopIfDown w =>
    simp only [Win.exec1]
    refine ⟨r1, r1', r2, r3, r5, r6, ?_⟩
    simp only
    split
    · exact hfr
    · rfl

theorem InvR.step {O : Oper σ ι α ε} (hO : O.Ok) {s : St σ ι α ε} (h : InvR s) (l : Lbl ι) : InvR (step O s l) := by
  cases l with
  | notify i =>
    simp only [Win.step]
    split
    · split
      · exact h
      · exact ⟨h.r1, h.r1', h.r2, h.r3, h.r5, h.r6, front_noCall _ (hO.noCall _ _ _)⟩
    · exact h
  | run =>
    simp only [Win.step]
    split
    · exact h
    · next i rest hp => exact h.exec1 hp
  | sub o w =>
    obtain ⟨r1, r1', r2, r3, r5, r6, fr⟩ := h
    have hlate : ∀ (g : List (Ev ι α ε)), s.ob o = none → InvR { s with ob := fun j => if j = o then some ⟨w, false⟩ else s.ob j, log := g } := by
      intro g hn
      refine ⟨r1, r1', ?_, r3, ?_, r6, fr⟩
      · intro p
        rw [r2]
        by_cases hp : p = o
        · simp [hp, hn, aliveOb]
        · simp [hp]
      · intro v l p hv hp
        have := r5 v l p hv hp
        simp only
        rw [if_neg]
        · exact this
        · intro e; rw [e, hn] at this; cases this
    simp only [Win.step]
    split
    · exact ⟨r1, r1', r2, r3, r5, r6, fr⟩
    · next hn =>
      split
      · exact ⟨r1, r1', r2, r3, r5, r6, fr⟩
      · next l hl =>
        have hd : s.dead = false := r3 w (by rw [hl]; rfl)
        have hol : ∀ v m, s.phase v = .live m → o ∉ m := by
          intro v m hv ho
          have := r5 v m o hv ho
          rw [hn] at this; cases this
        refine ⟨?_, ?_, ?_, fun v _ => hd, ?_, ?_, fr⟩
        · intro h; rw [hd] at h; cases h
        · simp
        · intro p
          simp only [List.mem_cons, r2]
          by_cases hp : p = o
          · simp [hp, aliveOb]
          · simp [hp]
        · intro v m p hv hp
          simp only at hv ⊢
          split at hv
          · next e =>
            cases hv
            simp only [List.mem_append, List.mem_singleton] at hp
            by_cases hpo : p = o
            · rw [if_pos hpo, e]
            · rw [if_neg hpo, e]
              exact r5 w l p hl (hp.resolve_right hpo)
          · rw [if_neg]
            · exact r5 v m p hv hp
            · intro e; rw [e] at hp; exact hol v m hv hp
        · intro v m hv
          simp only at hv
          split at hv
          · cases hv
            rw [List.nodup_append]
            refine ⟨r6 w l hl, by simp, ?_⟩
            intro a ha b hb
            simp only [List.mem_singleton] at hb
            intro e
            rw [e, hb] at ha
            exact hol w l hl ha
          · exact r6 v m hv
      · split
        · exact hlate _ hn
        · exact hlate _ hn
      · exact hlate _ hn
  | unsub o =>
    have hQ := h.q
    simp only [Win.step]
    split
    · next b hb =>
      split
      · next ha => exact InvQ.free (s := { s with log := s.log ++ [.unsub o] }) ⟨hQ.r1, hQ.r2, hQ.r3, hQ.r5, hQ.r6, hQ.fr⟩ o b hb ha
      · exact h
    · exact h
  | leave =>
    have hQ := h.q
    simp only [Win.step]
    split
    · next hm =>
      refine InvQ.settle ⟨?_, hQ.r2, hQ.r3, hQ.r5, hQ.r6, hQ.fr⟩
      intro hd; have := (hQ.r1 hd).1; rw [hm] at this; cases this
    · exact h
  | destroy =>
    simp only [Win.step]
    split
    · exact ⟨h.r1, h.r1', h.r2, h.r3, h.r5, h.r6, h.fr⟩
    · exact h

theorem invR {O : Oper σ ι α ε} (hO : O.Ok) (ls : List (Lbl ι)) : InvR (exec O ls) := by
  refine exec_induct O ?_ (fun s l h => h.step hO l) ls
  constructor <;> simp [aliveOb, Phase.isLive, front]

end Rpp.Win
