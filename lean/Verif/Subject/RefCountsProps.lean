import Verif.Subject.RefCounts

/-!
# C112: several `ref_count()`s, and `connect()` by hand, on one connectable observable

* The source is subscribed at most once at a time (`C112_one`), never for a `ref_count()` nobody listens to (`C112_needed`), and a connection made by hand is left alone by subscribers (`C112_hand`).
* Everybody who listens gets what the source emits while it is connected (`C112_values`); the first subscriber of a `ref_count()` finds or makes a connection (`C112_first`).
* With one `ref_count()` and no `connect()` the source is subscribed exactly while somebody listens (`C112_fed_partial`).  With two, or with a connection made by hand, it is not: the connection goes with those who made it, and nobody
  makes a new one for those who stay or those who join them (`C112_two_refutes`, `C112_hand_refutes`, `C112_stuck`).
-/

namespace Rpp.RefCounts

/-! ## What holds -/

/-- **C112.** The source is subscribed at most once at a time. -/
theorem C112_one (ls : List Lbl) (c d : Src) (hc : Connected (exec ls).log c) (hd : Connected (exec ls).log d) : c = d := by
  have h := inv_exec ls
  have h1 := (h.live c).2 hc
  rw [(h.live d).2 hd] at h1
  injection h1 with h1
  exact h1.symm

/-- **C112.** A connection made by a `ref_count()` lasts only while somebody listens through one. -/
theorem C112_needed (ls : List Lbl) (g : Nat) (hc : Connected (exec ls).log (.rc g)) : ∃ k r, Listens (exec ls).log k r := by
  have h := inv_exec ls
  obtain ⟨m, hm, _⟩ := h.held g ((h.live _).2 hc)
  exact ⟨m.1, m.2.1, (h.mem _ _).1 ⟨m, hm, rfl, rfl⟩⟩

theorem live_step_hand {s : St} (h : Inv s) {w : Nat} (hw : s.live = some (.hand w)) (l : Lbl) (h1 : l ≠ .drop (.hand w)) (h2 : l ≠ .finish) :
    (step s l).live = some (.hand w) := by
  have hx := live_iff.1 hw
  cases l with
  | sub r k =>
    simp only [step]
    split
    · exact hw
    · split
      · exact hw
      · cases s.open? r with
        | some g => exact hw
        | none => dsimp only; rw [connect_live (c := .hand w) (by exact hw)]; exact hw
  | leave k =>
    simp only [step]
    split
    · exact hw
    · split
      · exact hw
      · rw [live_iff]; exact ⟨hx.1, by simp [St.drop, hx.2]⟩
  | connect v => simp only [step]; rw [connect_live hw]; exact hw
  | drop c =>
    cases c with
    | hand v =>
      rw [live_iff]
      refine ⟨hx.1, ?_⟩
      have : w ≠ v := fun h => h1 (by rw [h])
      simp [step, St.drop, hx.2, this]
    | rc g =>
      simp only [step]
      split
      · rw [live_iff]; exact ⟨hx.1, by simp [St.drop, hx.2]⟩
      · exact hw
  | emit v => simp only [step]; split <;> exact hw
  | finish => exact (h2 rfl).elim

/-- **C112.** A connection made by hand is left alone: it ends with the source or with its own disposable, whoever comes and goes. -/
theorem C112_hand (ls : List Lbl) (w : Nat) (hc : Connected (exec ls).log (.hand w)) (l : Lbl) (h1 : l ≠ .drop (.hand w)) (h2 : l ≠ .finish) :
    Connected (exec (ls ++ [l])).log (.hand w) := by
  rw [← (inv_exec (ls ++ [l])).live, exec_snoc]
  exact live_step_hand (inv_exec ls) (((inv_exec ls).live _).2 hc) l h1 h2

/-- **C112.** What the source emits reaches everybody who listens, once, if the source is connected, and nobody if it is not. -/
theorem C112_values (ls : List Lbl) (v : Nat) : ∃ es, (exec (ls ++ [.emit v])).log = (exec ls).log ++ es ∧ es.Nodup ∧
    ∀ ev, ev ∈ es ↔ (∃ c, Connected (exec ls).log c) ∧ ∃ k r, Listens (exec ls).log k r ∧ ev = .got k v := by
  have h := inv_exec ls
  rw [exec_snoc]
  simp only [step]
  cases hl : (exec ls).live with
  | none =>
    refine ⟨[], by simp, List.nodup_nil, fun ev => ⟨fun h => (by cases h), fun ⟨⟨c, hc⟩, _⟩ => ?_⟩⟩
    rw [← h.live, hl] at hc
    cases hc
  | some c =>
    refine ⟨(exec ls).mem.map (fun m => .got m.1 v), by simp, ?_, fun ev => ?_⟩
    · have hn := h.nodup
      clear hl
      revert hn
      generalize (exec ls).mem = ms
      intro hn
      induction ms with
      | nil => exact List.nodup_nil
      | cons a l ih =>
        rw [List.map_cons, List.nodup_cons] at hn ⊢
        refine ⟨fun hx => hn.1 ?_, ih hn.2⟩
        obtain ⟨b, hb, he⟩ := List.mem_map.1 hx
        injection he with he
        exact List.mem_map.2 ⟨b, hb, he⟩
    · rw [List.mem_map]
      constructor
      · rintro ⟨m, hm, rfl⟩
        exact ⟨⟨c, (h.live c).1 hl⟩, m.1, m.2.1, (h.mem _ _).1 ⟨m, hm, rfl, rfl⟩, rfl⟩
      · rintro ⟨_, k, r, hk, rfl⟩
        obtain ⟨m, hm, rfl, rfl⟩ := (h.mem k r).2 hk
        exact ⟨m, hm, rfl⟩

/-- **C112.** When somebody subscribes through a `ref_count()` to which nobody listens, and the source has not ended, the source is connected afterwards. -/
theorem C112_first (ls : List Lbl) (r k : Nat) (hk : ∀ x, .joined k x ∉ (exec ls).log) (hr : ∀ j, ¬ Listens (exec ls).log j r) (he : .ended ∉ (exec ls).log) :
    ∃ c, Connected (exec (ls ++ [.sub r k])).log c := by
  have h := inv_exec ls
  have ho : (exec ls).open? r = none := by
    cases ho : (exec ls).open? r with
    | none => rfl
    | some g =>
      obtain ⟨m, hm, h1, _⟩ := h.open' r g ho
      exact (hr m.1 ((h.mem _ _).1 ⟨m, hm, rfl, h1⟩)).elim
  have he' : ¬ (exec ls).ended = true := fun hh => he (h.ended.1 hh)
  have hn : Src.rc (exec ls).next ∉ (exec ls).dead := fun hd => absurd (h.dead _ hd) (by omega)
  have hu : k ∉ (exec ls).used := fun hu => by
    rcases h.used' k hu with ⟨x, hx⟩ | hx
    · exact hk x hx
    · exact he' hx
  cases hl : (exec ls).live with
  | some c =>
    refine ⟨c, ?_⟩
    rw [← (inv_exec _).live, exec_snoc]
    simp only [step, if_neg hu, ho]
    rw [if_neg he', connect_live (c := c) (by exact hl)]
    exact hl
  | none =>
    refine ⟨.rc (exec ls).next, ?_⟩
    rw [← (inv_exec _).live, exec_snoc]
    simp only [step, if_neg hu, ho]
    rw [if_neg he', connect_none (by exact he') (by exact hl) (by exact hn)]
    exact live_iff.2 ⟨rfl, hn⟩

/-! ## One `ref_count()` alone -/

/-- Only the first `ref_count()` is used, and `connect()` is not.  Specification; models no code. -/
def Alone (l : Lbl) : Prop := (∃ k, l = .sub 0 k) ∨ (∃ k, l = .leave k) ∨ (∃ v, l = .emit v) ∨ l = .finish

/-- Invariant of the proofs; models no code. -/
structure Solo (s : St) : Prop where
  mem : ∀ m ∈ s.mem, m.2.1 = 0 ∧ s.gen 0 = some m.2.2 ∧ s.live = some (.rc m.2.2)
  hand : ∀ w, ¬ s.cur = some (.hand w)

theorem solo_step {s : St} (h : Inv s) (hs : Solo s) {l : Lbl} (hl : Alone l) : Solo (step s l) := by
  rcases hl with ⟨k, rfl⟩ | ⟨k, rfl⟩ | ⟨v, rfl⟩ | rfl
  · simp only [step]
    split
    · exact hs
    · split
      · exact ⟨hs.mem, hs.hand⟩
      · rename_i hk he
        cases ho : s.open? 0 with
        | some g =>
          refine ⟨fun m hm => ?_, hs.hand⟩
          rcases List.mem_append.1 hm with hm | hm
          · exact hs.mem m hm
          · rw [List.mem_singleton] at hm
            subst hm
            obtain ⟨m, hm, h1, h2⟩ := h.open' 0 g ho
            have := hs.mem m hm
            rw [h2] at this
            exact ⟨rfl, this.2⟩
        | none =>
          have hm : s.mem = [] := by
            cases hm : s.mem with
            | nil => rfl
            | cons m ms =>
              have := hs.mem m (by rw [hm]; exact List.mem_cons_self)
              rw [open_iff.2 ⟨this.2.1, (live_iff.1 this.2.2).2⟩] at ho
              cases ho
          have hl : s.live = none := by
            cases hl : s.live with
            | none => rfl
            | some c =>
              cases c with
              | hand w => exact (hs.hand w (live_iff.1 hl).1).elim
              | rc g =>
                obtain ⟨m, hm', _⟩ := h.held g hl
                rw [hm] at hm'; cases hm'
          have hn : Src.rc s.next ∉ s.dead := fun hd => absurd (h.dead _ hd) (by omega)
          dsimp only
          rw [connect_none (by exact he) (by exact hl) (by exact hn)]
          refine ⟨fun m hm' => ?_, fun w hw => by cases hw⟩
          dsimp only at hm'
          rw [hm, List.nil_append, List.mem_singleton] at hm'
          subst hm'
          exact ⟨rfl, by simp, live_iff.2 ⟨rfl, hn⟩⟩
  · simp only [step]
    split
    · exact hs
    · rename_i x r g hf
      split
      · exact ⟨fun m hm => hs.mem m (List.mem_filter.1 hm).1, hs.hand⟩
      · rename_i ha
        refine ⟨fun m hm => ?_, hs.hand⟩
        have hm1 := (List.mem_filter.1 hm).1
        have := hs.mem m hm1
        have hg := hs.mem _ (List.mem_of_find?_eq_some hf)
        have e : m.2.2 = g := by
          have h1 := this.2.1
          rw [hg.2.1] at h1
          injection h1 with h1
          exact h1.symm
        exact (ha (List.any_eq_true.2 ⟨m, hm, by simpa using e⟩)).elim
  · simp only [step]; split
    · exact ⟨hs.mem, hs.hand⟩
    · exact hs
  · simp only [step]; split
    · exact hs
    · exact ⟨fun m hm => (by cases hm), hs.hand⟩

theorem solo_exec (ls : List Lbl) (hl : ∀ l ∈ ls, Alone l) : Solo (exec ls) := by
  have : ∀ (ls : List Lbl) (s : St), (∀ l ∈ ls, Alone l) → Inv s → Solo s → Solo (ls.foldl step s) := by
    intro ls
    induction ls with
    | nil => exact fun _ _ _ h => h
    | cons l ls ih => exact fun s hl hi h => ih _ (fun x hx => hl x (List.mem_cons_of_mem _ hx)) (inv_step hi l) (solo_step hi h (hl l List.mem_cons_self))
  exact this ls {} hl inv_init ⟨fun m hm => (by cases hm), fun w hw => (by cases hw)⟩

/-- **C112 (one `ref_count()`).** If only one `ref_count()` is used and `connect()` is not called, the source is subscribed exactly while somebody listens.  Missing: several of them, `C112_two_refutes`; and `connect()`, `C112_hand_refutes`. -/
theorem C112_fed_partial (ls : List Lbl) (hl : ∀ l ∈ ls, Alone l) : (∃ k r, Listens (exec ls).log k r) ↔ ∃ c, Connected (exec ls).log c := by
  have h := inv_exec ls
  have hs := solo_exec ls hl
  constructor
  · rintro ⟨k, r, hk⟩
    obtain ⟨m, hm, _⟩ := (h.mem k r).2 hk
    exact ⟨_, (h.live _).1 (hs.mem m hm).2.2⟩
  · rintro ⟨c, hc⟩
    cases c with
    | hand w => exact (hs.hand w (live_iff.1 ((h.live _).2 hc)).1).elim
    | rc g => exact C112_needed ls g hc

/-! ## What does not hold -/

/-- Somebody subscribes through the first `ref_count()`, somebody else through the second, and the first one leaves.  An example; no counterpart in /repo. -/
def two : List Lbl := [.sub 0 0, .sub 1 1, .leave 0]

/-- `connect()` by hand, a subscription through `ref_count()`, and the connection is disposed of.  An example; no counterpart in /repo. -/
def byHand : List Lbl := [.connect 7, .sub 0 0, .drop (.hand 7)]

theorem two_log : (exec two).log = [.joined 0 0, .up (.rc 0), .joined 1 1, .left 0, .down (.rc 0)] := by decide
theorem byHand_log : (exec byHand).log = [.up (.hand 7), .joined 0 0, .down (.hand 7)] := by decide

/-- **C112 is false for two `ref_count()`s.** The source is unsubscribed when the last subscriber of the one that made the connection leaves, although somebody listens through the other. -/
theorem C112_two_refutes : ¬ Fed (exec two).log := by
  rw [two_log]
  intro h
  obtain ⟨c, h1, h2⟩ := h 1 1 ⟨by decide, by decide⟩
  simp at h1
  subst h1
  exact h2 (by decide)

/-- **C112 is false with `connect()`.** The subscriber of `ref_count()` found a connection made by hand; when that is disposed of the source is unsubscribed. -/
theorem C112_hand_refutes : ¬ Fed (exec byHand).log := by
  rw [byHand_log]
  intro h
  obtain ⟨c, h1, h2⟩ := h 0 0 ⟨by decide, by decide⟩
  simp at h1
  subst h1
  exact h2 (by decide)

theorem step_join {s : St} {r k g : Nat} (hk : k ∉ s.used) (he : ¬ s.ended = true) (ho : s.open? r = some g) :
    step s (.sub r k) = { s with used := k :: s.used, mem := s.mem ++ [(k, r, g)], log := s.log ++ [.joined k r] } := by
  simp only [step, if_neg hk, ho]
  rw [if_neg he]

/-- Invariant of the proofs; models no code. -/
def Held (s : St) : Prop := ∀ m ∈ s.mem, s.open? m.2.1 = some m.2.2

theorem held_connect {s : St} (h : Held s) (c : Src) : Held (s.connect c) := by
  unfold St.connect
  split
  · exact h
  · split <;> exact h

theorem held_step {s : St} (h : Held s) {l : Lbl} (hi : Inv s) (hl : ∀ g, l ≠ .drop (.rc g)) : Held (step s l) := by
  have hd : ∀ (s' : St) (c : Src), Held s' → (∀ m ∈ s'.mem, c ≠ .rc m.2.2) → Held (s'.drop c) := by
    intro s' c h hc m hm
    have := open_iff.1 (h m hm)
    rw [open_iff]
    exact ⟨this.1, by simp only [St.drop, List.mem_cons, not_or]; exact ⟨fun e => hc m hm e.symm, this.2⟩⟩
  cases l with
  | sub r k =>
    simp only [step]
    split
    · exact h
    · split
      · exact h
      · cases ho : s.open? r with
        | some g =>
          intro m hm
          rcases List.mem_append.1 hm with hm | hm
          · exact h m hm
          · rw [List.mem_singleton] at hm; subst hm; exact ho
        | none =>
          refine held_connect (fun m hm => ?_) _
          have hn : Src.rc s.next ∉ s.dead := fun hd => absurd (hi.dead _ hd) (by omega)
          rw [open_iff]
          rcases List.mem_append.1 hm with hm | hm
          · have hne : m.2.1 ≠ r := fun e => by have := h m hm; rw [e, ho] at this; cases this
            have := open_iff.1 (h m hm)
            exact ⟨by simp only [if_neg hne]; exact this.1, this.2⟩
          · rw [List.mem_singleton] at hm; subst hm; exact ⟨by simp, hn⟩
  | leave k =>
    simp only [step]
    split
    · exact h
    · have hf : Held { s with mem := s.mem.filter (·.1 ≠ k), log := s.log ++ [.left k] } := fun m hm => h m (List.mem_filter.1 hm).1
      split
      · exact hf
      · rename_i ha
        refine hd _ _ hf (fun m hm e => ha ?_)
        injection e with e
        exact List.any_eq_true.2 ⟨m, hm, by simp [e]⟩
  | connect w => exact held_connect h _
  | drop c =>
    cases c with
    | hand w => exact hd s _ h (fun m _ e => by cases e)
    | rc g => exact (hl g rfl).elim
  | emit v => simp only [step]; split <;> exact h
  | finish =>
    simp only [step]
    split
    · exact h
    · exact fun m hm => by cases hm

theorem held_exec (ls : List Lbl) (hl : ∀ g, Lbl.drop (.rc g) ∉ ls) : Held (exec ls) := by
  have : ∀ (ls : List Lbl) (s : St), (∀ g, Lbl.drop (.rc g) ∉ ls) → Inv s → Held s → Held (ls.foldl step s) := by
    intro ls
    induction ls with
    | nil => exact fun _ _ _ h => h
    | cons l ls ih =>
      exact fun s hl hi h => ih _ (fun g hg => hl g (List.mem_cons_of_mem _ hg)) (inv_step hi l) (held_step h hi (fun g e => hl g (by rw [e]; exact List.mem_cons_self)))
  exact this ls {} hl inv_init (fun m hm => by cases hm)

/-- **C112 (nobody comes to help).** While somebody listens through a `ref_count()` and the source is not connected, further subscribers of the same `ref_count()` do not connect it either (unless somebody has disposed of what `connect()` returned for a connection of
`ref_count()`). -/
theorem C112_stuck (ls : List Lbl) (hl : ∀ g, Lbl.drop (.rc g) ∉ ls) (j r : Nat) (hj : Listens (exec ls).log j r) (hn : ∀ c, ¬ Connected (exec ls).log c) (ks : List Nat) :
    ∀ c, ¬ Connected (exec (ls ++ ks.map (.sub r))).log c := by
  induction ks generalizing ls with
  | nil => simpa using hn
  | cons k ks ih =>
    rw [List.map_cons, show ls ++ .sub r k :: ks.map (.sub r) = (ls ++ [.sub r k]) ++ ks.map (.sub r) by simp]
    have h := inv_exec ls
    obtain ⟨m, hm, h1, h2⟩ := (h.mem j r).2 hj
    have ho := held_exec ls hl m hm
    rw [h2] at ho
    have hl' : ∀ g, Lbl.drop (.rc g) ∉ ls ++ [.sub r k] := fun g hg => by
      rcases List.mem_append.1 hg with hg | hg
      · exact hl g hg
      · rw [List.mem_singleton] at hg; cases hg
    by_cases hk : k ∈ (exec ls).used
    · have e : exec (ls ++ [.sub r k]) = exec ls := by rw [exec_snoc]; simp [step, hk]
      exact ih (ls ++ [.sub r k]) hl' (by rw [e]; exact hj) (by rw [e]; exact hn)
    · have he : ¬ (exec ls).ended = true := fun he => by
        rw [(h.over he).1] at hm; cases hm
      have e := step_join hk he ho
      rw [← exec_snoc] at e
      refine ih (ls ++ [.sub r k]) hl' ?_ (fun c hc => ?_)
      · rw [e]; exact ⟨List.mem_append_left _ hj.1, by simp [hj.2]⟩
      · rw [← (inv_exec _).live, e] at hc
        exact hn c ((h.live c).1 hc)

example : (∀ g, Lbl.drop (.rc g) ∉ two) ∧ Listens (exec two).log 1 1 ∧ ∀ c, ¬ Connected (exec two).log c := by
  refine ⟨by simp [two], by rw [two_log]; exact ⟨by decide, by decide⟩, fun c hc => ?_⟩
  rw [two_log] at hc
  have h1 : c = .rc 0 := by simpa using hc.1
  subst h1
  exact hc.2 (by decide)
example : (exec (two ++ [.sub 1 5, .sub 1 6, .emit 3])).log = (exec two).log ++ [.joined 5 1, .joined 6 1] := by decide
example : (exec [.sub 0 0, .sub 1 1, .emit 3, .leave 0, .leave 1, .sub 1 2, .emit 4]).log =
    [.joined 0 0, .up (.rc 0), .joined 1 1, .got 0 3, .got 1 3, .left 0, .down (.rc 0), .left 1, .joined 2 1, .up (.rc 2), .got 2 4] := by decide
example : (exec [.connect 7, .sub 0 0, .leave 0, .sub 0 1, .emit 9, .finish, .sub 0 2]).log =
    [.up (.hand 7), .joined 0 0, .left 0, .joined 1 0, .got 1 9, .ended, .left 1, .down (.hand 7)] := by decide
example : ∀ l ∈ [Lbl.sub 0 0, .sub 0 1, .leave 0, .emit 5], Alone l := by
  intro l hl
  simp only [List.mem_cons, List.not_mem_nil, or_false] at hl
  rcases hl with rfl | rfl | rfl | rfl <;> simp [Alone]

end Rpp.RefCounts
