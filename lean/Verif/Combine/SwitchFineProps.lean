import Verif.Combine.SwitchFineProofs

/-!
# C27, atomic operation by atomic operation

The claims of `Verif.Combine.SwitchProps` about the end of `switch_on_next` and about which inner observable is heard, for the machine in which
the disposal of a reference, the release of the shared state and the test of its flag are steps of their own.
-/

namespace Rpp.SwFine

open Comb (Sig)

variable {α ε : Type}

/-! ## Specification -/

/-- The values that source `i` has notified, in order.  Specification; models no code. -/
def got (i : Nat) (log : List (Ev α ε)) : List α := log.filterMap fun | .recv j (.next v) => if j = i then some v else none | _ => none

/-- The values of source `i` that the observer was told, in order.  Specification; models no code. -/
def toldOf (i : Nat) (log : List (Ev α ε)) : List α := log.filterMap fun | .told j (.next v) => if j = i then some v else none | _ => none

/-! ## Proofs -/

/-- What the event a step adds says about the state before; used in proofs only, models no code. -/
def Fits (s : St α ε) : Ev α ε → Prop
  | .recv i _ => s.ready i = true
  | .told i c => s.pc i = .call c ∧ s.over = false
  | .opened _ | .gone => True

theorem after_log (s : St α ε) (i : Nat) (n : After) : (s.after i n).log = s.log ∨ ∃ k, (s.after i n).log = s.log ++ [.opened k] := by
  cases n with
  | ref => exact .inl rfl
  | test => exact .inl rfl
  | give k => exact .inr ⟨k, rfl⟩

theorem step_log (s : St α ε) (l : Lbl α ε) : (step s l).log = s.log ∨ ∃ e, (step s l).log = s.log ++ [e] ∧ Fits s e := by
  have hA : ∀ (t : St α ε) (i : Nat) (n : After), t.log = s.log →
      (t.after i n).log = s.log ∨ ∃ e, (t.after i n).log = s.log ++ [e] ∧ Fits s e := by
    intro t i n ht
    rcases after_log t i n with h | ⟨k, h⟩
    · exact .inl (h.trans ht)
    · exact .inr ⟨.opened k, by rw [h, ht], trivial⟩
  cases l with
  | outer => simp only [step]; split <;> exact .inl rfl
  | emit i v =>
    simp only [step]
    split
    · rename_i h; exact .inr ⟨_, rfl, h.2⟩
    · exact .inl rfl
  | fin i t =>
    simp only [step]
    split
    · rename_i h; exact .inr ⟨_, rfl, h⟩
    · exact .inl rfl
  | run i =>
    simp only [step, St.run]
    split
    · exact .inl rfl
    · exact hA _ _ _ rfl
    · split
      · exact hA _ _ _ rfl
      · exact .inl rfl
    · split
      · exact hA _ _ _ rfl
      · split
        · exact .inl rfl
        · exact hA _ _ _ rfl
    · exact hA _ _ _ rfl
    · split <;> exact .inl rfl
    · split
      · exact .inl rfl
      · exact hA _ _ _ rfl
    · exact .inl rfl
    · rename_i c hp
      split
      · exact .inl rfl
      · rename_i ho
        exact .inr ⟨_, rfl, hp, by simpa using ho⟩
  | gone => exact .inr ⟨_, rfl, trivial⟩
  | shut => simp only [step]; split <;> exact .inl rfl
  | wipe => simp only [step]; split <;> exact .inl rfl
  | kill k => simp only [step]; split <;> exact .inl rfl

theorem exec_snoc (ls : List (Lbl α ε)) (l : Lbl α ε) : exec (ls ++ [l]) = step (exec ls) l := List.foldl_append ..

theorem snoc_ind {P : List (Lbl α ε) → Prop} (h0 : P []) (h1 : ∀ ls l, P ls → P (ls ++ [l])) (ls : List (Lbl α ε)) : P ls := by
  have : ∀ n (ls : List (Lbl α ε)), ls.length = n → P ls := by
    intro n
    induction n with
    | zero => intro ls h; rw [List.eq_nil_of_length_eq_zero h]; exact h0
    | succ n ih =>
      intro ls h
      have hne : ls ≠ [] := by intro e; rw [e] at h; cases h
      have e := List.dropLast_concat_getLast hne
      rw [← e]
      exact h1 _ _ (ih _ (by rw [List.length_dropLast]; omega))
  exact this _ ls rfl

/-- Every event was added in some state of the history. -/
theorem moment (ls : List (Lbl α ε)) (pre post : List (Ev α ε)) (e : Ev α ε) (h : (exec ls).log = pre ++ e :: post) :
    ∃ ls', (exec ls').log = pre ∧ Fits (exec ls') e := by
  induction ls using snoc_ind generalizing post with
  | h0 => cases pre <;> cases h
  | h1 ls l ih =>
    rw [exec_snoc] at h
    rcases step_log (exec ls) l with h1 | ⟨e', h1, h2⟩
    · exact ih post (h1 ▸ h)
    · rw [h1] at h
      rcases List.eq_nil_or_concat post with rfl | ⟨post', x, rfl⟩
      · obtain ⟨h3, h4⟩ := List.append_inj' h rfl
        cases h4
        exact ⟨ls, h3, h2⟩
      · rw [List.concat_eq_append, ← List.cons_append, ← List.append_assoc] at h
        exact ih post' (List.append_inj' h rfl).1

theorem over_iff (ls : List (Lbl α ε)) : (exec ls).over = true ↔ .gone ∈ (exec ls).log ∨ Ended (exec ls).log := by
  have hA : ∀ (s t : St α ε) (i : Nat) (n : After), t.over = s.over → t.log = s.log → (s.over = true ↔ .gone ∈ s.log ∨ Ended s.log) →
      ((t.after i n).over = true ↔ .gone ∈ (t.after i n).log ∨ Ended (t.after i n).log) := by
    intro s t i n h1 h2 h
    rw [after_over, h1, h]
    rcases after_log t i n with h3 | ⟨k, h3⟩ <;> rw [h3, h2]
    simp [Ended]
  induction ls using snoc_ind with
  | h0 => simp [exec, Ended]
  | h1 ls l ih =>
    rw [exec_snoc]
    generalize exec ls = s at ih
    have hE : ∀ e : Ev α ε, e ≠ .gone → (∀ i t, e ≠ .told i (.term t)) → (s.over = true ↔ .gone ∈ s.log ++ [e] ∨ Ended (s.log ++ [e])) := by
      intro e h1 h2
      refine ih.trans ?_
      simp only [Ended, List.mem_append, List.mem_singleton]
      constructor
      · rintro (h | ⟨i, t, h⟩)
        · exact .inl (.inl h)
        · exact .inr ⟨i, t, .inl h⟩
      · rintro ((h | h) | ⟨i, t, h | h⟩)
        · exact .inl h
        · exact absurd h.symm h1
        · exact .inr ⟨i, t, h⟩
        · exact absurd h.symm (h2 i t)
    cases l with
    | outer => simp only [step]; split <;> exact ih
    | emit i v =>
      simp only [step]
      split
      · exact hE _ (by simp) (by simp)
      · exact ih
    | fin i t =>
      simp only [step]
      split
      · exact hE _ (by simp) (by simp)
      · exact ih
    | run i =>
      simp only [step, St.run]
      split
      · exact ih
      · exact hA s _ _ _ rfl rfl ih
      · split
        · exact hA s _ _ _ rfl rfl ih
        · exact ih
      · split
        · exact hA s _ _ _ rfl rfl ih
        · split
          · exact ih
          · exact hA s _ _ _ rfl rfl ih
      · exact hA s _ _ _ rfl rfl ih
      · split <;> exact ih
      · split
        · exact ih
        · exact hA s _ _ _ rfl rfl ih
      · exact ih
      · rename_i c hp
        split
        · exact ih
        · rename_i ho
          have ho : s.over = false := by simpa using ho
          cases c with
          | next v =>
            have := hE (.told i (.next v)) (by simp) (by simp)
            rw [ho] at this
            exact this
          | term t =>
            exact ⟨fun _ => .inr ⟨i, t, by simp [St.emit]⟩, fun _ => rfl⟩
    | gone => exact ⟨fun _ => .inl (by simp [step, St.emit]), fun _ => rfl⟩
    | shut => simp only [step]; split <;> exact ih
    | wipe => simp only [step]; split <;> exact ih
    | kill k => simp only [step]; split <;> exact ih

theorem not_over {ls : List (Lbl α ε)} (hg : .gone ∉ (exec ls).log) (he : ¬ Ended (exec ls).log) : (exec ls).over = false := by
  cases h : (exec ls).over with
  | false => rfl
  | true => exact absurd ((over_iff ls).1 h) (fun h => h.elim hg he)

/-- The value whose delivery is under way; used in proofs only, models no code. -/
def pend : Pc α ε → List α
  | .call (.next v) => [v]
  | _ => []

/-- Invariant of the proofs; models no code. -/
structure Vals (s : St α ε) : Prop where
  pre : ∀ i, toldOf i s.log <+: got i s.log
  all : s.over = false → ∀ i, got i s.log = toldOf i s.log ++ pend (s.pc i)
  err : ∀ i e, s.pc i = .call (.term (.error e)) → .recv i (.term (.error e)) ∈ s.log

theorem toldOf_snoc (i : Nat) (log : List (Ev α ε)) (e : Ev α ε) :
    toldOf i (log ++ [e]) = toldOf i log ++ match e with | .told j (.next v) => if j = i then [v] else [] | _ => [] := by
  rw [toldOf, List.filterMap_append, ← toldOf]
  congr 1
  rcases e with ⟨j, _ | _⟩ | _ | ⟨j, _ | _⟩ | _ <;> try rfl
  by_cases h : j = i <;> simp [h]

theorem got_snoc (i : Nat) (log : List (Ev α ε)) (e : Ev α ε) :
    got i (log ++ [e]) = got i log ++ match e with | .recv j (.next v) => if j = i then [v] else [] | _ => [] := by
  rw [got, List.filterMap_append, ← got]
  congr 1
  rcases e with ⟨j, _ | _⟩ | _ | ⟨j, _ | _⟩ | _ <;> try rfl
  by_cases h : j = i <;> simp [h]

/-- A step of source `i` that adds at most the event of a subscription and is not about a notification. -/
theorem Vals.go {s t : St α ε} (h : Vals s) (i : Nat) (p : Pc α ε) (hi : pend (s.pc i) = []) (hp : pend p = [])
    (hpe : ∀ e, p ≠ .call (.term (.error e))) (hq : t.pc = fun j => if j = i then p else s.pc j) (ho : t.over = s.over)
    (hl : t.log = s.log ∨ ∃ k, t.log = s.log ++ [.opened k]) : Vals t := by
  have e1 : ∀ j, toldOf j t.log = toldOf j s.log := by
    intro j; rcases hl with hl | ⟨k, hl⟩ <;> rw [hl]
    rw [toldOf_snoc]; exact List.append_nil _
  have e2 : ∀ j, got j t.log = got j s.log := by
    intro j; rcases hl with hl | ⟨k, hl⟩ <;> rw [hl]
    rw [got_snoc]; exact List.append_nil _
  have e3 : ∀ x, x ∈ s.log → x ∈ t.log := by
    intro x hx; rcases hl with hl | ⟨k, hl⟩ <;> rw [hl]
    · exact hx
    · exact List.mem_append_left _ hx
  refine ⟨fun j => by rw [e1, e2]; exact h.pre j, fun h' j => ?_, fun j e => ?_⟩
  · rw [e1, e2, h.all (by rw [← ho]; exact h') j, hq]
    dsimp only
    by_cases e : j = i
    · rw [if_pos e, e, hi, hp]
    · rw [if_neg e]
  · rw [hq]
    dsimp only
    by_cases e' : j = i
    · rw [if_pos e']; exact fun h' => absurd h' (hpe e)
    · rw [if_neg e']; exact fun h' => e3 _ (h.err j e h')

theorem Vals.after {s t : St α ε} (h : Vals s) (i : Nat) (n : After) (hi : pend (s.pc i) = []) (hq : t.pc = s.pc) (ho : t.over = s.over)
    (hl : t.log = s.log) : Vals (t.after i n) := by
  cases n with
  | ref => exact h.go i .ref hi rfl (by simp) (by simp [St.after, St.goto, hq]) ho (.inl hl)
  | test => exact h.go i .test hi rfl (by simp) (by simp [St.after, St.goto, hq]) ho (.inl hl)
  | give k => exact h.go i .idle hi rfl (by simp) (by simp [St.after, St.goto, St.emit, hq]) ho (.inr ⟨k, by simp [St.after, St.goto, St.emit, hl]⟩)

theorem vals (ls : List (Lbl α ε)) : Vals (exec ls) := by
  induction ls using snoc_ind with
  | h0 => exact ⟨fun i => List.prefix_rfl, fun _ i => rfl, fun i e h => by cases h⟩
  | h1 ls l ih =>
    rw [exec_snoc]
    generalize exec ls = s at ih
    have hI : ∀ i, s.ready i = true → pend (s.pc i) = [] := by
      intro i hr
      simp only [St.ready, Bool.and_eq_true] at hr
      rw [idle_of hr.1.1.1]; rfl
    cases l with
    | outer =>
      simp only [step]
      split
      · exact ih.go 0 _ (hI 0 ‹_›) rfl (by simp) rfl rfl (.inl rfl)
      · exact ih
    | emit i v =>
      simp only [step]
      split
      · rename_i hr
        refine ⟨fun j => ?_, fun ho j => ?_, fun j e => ?_⟩
        · simp only [St.emit, St.goto]
          rw [toldOf_snoc, got_snoc]
          exact (List.append_nil _).symm ▸ (ih.pre j).trans (List.prefix_append _ _)
        · simp only [St.emit, St.goto] at ho ⊢
          rw [toldOf_snoc, got_snoc, ih.all ho j]
          by_cases e : j = i
          · subst e; rw [hI j hr.2]; simp [pend]
          · have e' : ¬ i = j := fun e' => e e'.symm
            rw [if_neg e]; simp [e']
        · simp only [St.emit, St.goto]
          by_cases e' : j = i
          · rw [if_pos e']; exact fun h => by cases h
          · rw [if_neg e']; exact fun h => List.mem_append_left _ (ih.err j e h)
      · exact ih
    | fin i t =>
      simp only [step]
      split
      · rename_i hr
        refine ⟨fun j => ?_, fun ho j => ?_, fun j e => ?_⟩
        · simp only [St.emit, St.goto]
          rw [toldOf_snoc, got_snoc]
          simpa using ih.pre j
        · simp only [St.emit, St.goto] at ho ⊢
          rw [toldOf_snoc, got_snoc, ih.all ho j]
          by_cases e : j = i
          · subst e; rw [hI j hr, if_pos rfl]
            cases t <;> simp [pend]
          · rw [if_neg e]; simp
        · simp only [St.emit, St.goto]
          by_cases e' : j = i
          · rw [if_pos e', e']
            cases t with
            | completed => exact fun h => by cases h
            | error e'' => intro h; cases h; simp
          · rw [if_neg e']; exact fun h => List.mem_append_left _ (ih.err j e h)
      · exact ih
    | run i =>
      simp only [step, St.run]
      split
      · exact ih
      · rename_i hp; exact ih.after i _ (by rw [hp]; rfl) rfl rfl rfl
      · rename_i hp
        split
        · exact ih.after i _ (by rw [hp]; rfl) rfl rfl rfl
        · exact ih.go i _ (by rw [hp]; rfl) rfl (by simp) rfl rfl (.inl rfl)
      · rename_i hp
        split
        · exact ih.after i _ (by rw [hp]; rfl) rfl rfl rfl
        · split
          · exact ih.go i _ (by rw [hp]; rfl) rfl (by simp) rfl rfl (.inl rfl)
          · exact ih.after i _ (by rw [hp]; rfl) rfl rfl rfl
      · rename_i hp; exact ih.after i _ (by rw [hp]; rfl) rfl rfl rfl
      · rename_i hp
        split <;> exact ih.go i _ (by rw [hp]; rfl) rfl (by simp) rfl rfl (.inl rfl)
      · rename_i hp
        split
        · exact ih.go i _ (by rw [hp]; rfl) rfl (by simp) rfl rfl (.inl rfl)
        · exact ih.after i _ (by rw [hp]; rfl) rfl rfl rfl
      · rename_i hp
        cases s.dead
        · exact ih.go i .idle (by rw [hp]; rfl) rfl (by simp) rfl rfl (.inl rfl)
        · exact ih.go i (.call (.term .completed)) (by rw [hp]; rfl) rfl (by simp) rfl rfl (.inl rfl)
      · rename_i c hp
        have hE : ∀ j e, (if j = i then (.idle : Pc α ε) else s.pc j) = .call (.term (.error e)) → .recv j (.term (.error e)) ∈ s.log := by
          intro j e
          by_cases e' : j = i
          · rw [if_pos e']; exact fun h => by cases h
          · rw [if_neg e']; exact fun h => ih.err j e h
        split
        · rename_i ho
          refine ⟨ih.pre, fun h => ?_, fun j e h => hE j e h⟩
          simp only [St.goto] at h
          rw [ho] at h; cases h
        · rename_i ho
          have ho : s.over = false := by simpa using ho
          have hg : ∀ j, got j (s.log ++ [.told i c]) = got j s.log := by
            intro j; rw [got_snoc]; exact List.append_nil _
          have key : ∀ j, toldOf j (s.log ++ [.told i c]) ++ pend (if j = i then (.idle : Pc α ε) else s.pc j) = got j s.log := by
            intro j
            rw [toldOf_snoc, ih.all ho j]
            by_cases e : j = i
            · subst e
              rw [if_pos rfl, hp]
              rcases c with v | t
              · simp [pend]
              · cases t <;> simp [pend]
            · rw [if_neg e]
              rcases c with v | t
              · have e' : ¬ i = j := fun e' => e e'.symm
                simp [e']
              · simp
          refine ⟨fun j => ?_, fun _ j => ?_, fun j e h => List.mem_append_left _ (hE j e h)⟩
          · show toldOf j (s.log ++ [.told i c]) <+: got j (s.log ++ [.told i c])
            rw [hg, ← key j]
            exact List.prefix_append _ _
          · show got j (s.log ++ [.told i c]) = toldOf j (s.log ++ [.told i c]) ++ pend (if j = i then (.idle : Pc α ε) else s.pc j)
            rw [hg, key j]
    | gone =>
      refine ⟨fun j => ?_, fun h => (by cases h), fun j e h => List.mem_append_left _ (ih.err j e h)⟩
      show toldOf j (s.log ++ [.gone]) <+: got j (s.log ++ [.gone])
      rw [toldOf_snoc, got_snoc]
      simpa using ih.pre j
    | shut => simp only [step]; split <;> exact ⟨ih.pre, ih.all, ih.err⟩
    | wipe => simp only [step]; split <;> exact ⟨ih.pre, ih.all, ih.err⟩
    | kill k => simp only [step]; split <;> exact ⟨ih.pre, ih.all, ih.err⟩

/-! ## The theorems -/

/-- C27: `switch_on_next` completes only when the outer observable and the current inner one have, and only once: nothing was told before that ends it. -/
theorem C27_completes_last_atomic (ls : List (Lbl α ε)) (pre post : List (Ev α ε)) (i : Nat)
    (h : (exec ls).log = pre ++ .told i (.term .completed) :: post) :
    .recv 0 (.term .completed) ∈ pre ∧ ∀ k, current pre = some k → .recv k (.term .completed) ∈ pre := by
  obtain ⟨ls', rfl, hp, ho⟩ := moment ls pre post _ h
  have hi := inv_exec ls' ho
  have hd := hi.cc i hp
  have hh := hi.cntN (hi.deadN hd)
  have hf : ∀ r, r < (exec ls').next → (exec ls').flags r = true := fun r hr => hi.out r hr (by rw [hh]; simp)
  have h0 := hf 0 hi.nxt
  refine ⟨hi.zero h0, fun k hk => ?_⟩
  rw [← hi.cur] at hk
  rcases hi.last k hk (hf k (hi.curLt k hk).1) with h | h
  · exact h
  · have := (hi.busy 0 h).2
    rw [h0] at this; cases this

/-- C27: nothing is told after the end or after the observer was disposed of. -/
theorem C27_once_atomic (ls : List (Lbl α ε)) (pre post : List (Ev α ε)) (i : Nat) (c : Sig α ε)
    (h : (exec ls).log = pre ++ .told i c :: post) : .gone ∉ pre ∧ ¬ Ended pre := by
  obtain ⟨ls', rfl, hp, ho⟩ := moment ls pre post _ h
  refine ⟨fun hg => ?_, fun he => ?_⟩
  · have := (over_iff ls').2 (.inl hg); rw [ho] at this; cases this
  · have := (over_iff ls').2 (.inr he); rw [ho] at this; cases this

/-- C27: when the outer observable and the current inner one have completed and the calls have returned, `switch_on_next` has completed, unless it
was disposed of or something failed: none of the interleavings of the disposals loses the end. -/
theorem C27_completes_atomic (ls : List (Lbl α ε)) (hq : ∀ i, (exec ls).pc i = .idle) (h0 : .recv 0 (.term .completed) ∈ (exec ls).log)
    (hk : ∀ k, current (exec ls).log = some k → .recv k (.term .completed) ∈ (exec ls).log)
    (hg : .gone ∉ (exec ls).log) (hE : ∀ i e, .recv i (.term (.error e)) ∉ (exec ls).log) :
    ∃ i, .told i (.term .completed) ∈ (exec ls).log := by
  cases ho : (exec ls).over with
  | true =>
    rcases (over_iff ls).1 ho with h | ⟨i, t, h⟩
    · exact absurd h hg
    · cases t with
      | completed => exact ⟨i, h⟩
      | error e =>
        exfalso
        obtain ⟨a, b, he⟩ := List.append_of_mem h
        obtain ⟨ls', h1, hp, -⟩ := moment ls a b _ he
        have := (vals ls').err i e hp
        rw [h1] at this
        exact hE i e (by rw [he]; exact List.mem_append_left _ this)
  | false =>
    exfalso
    have hi := inv_exec ls ho
    have hfin : ∀ i, .recv i (.term .completed) ∈ (exec ls).log → (exec ls).flags i = true := by
      intro i h
      rcases hi.fin i ((hi.endLog i).2 ⟨_, h⟩) with h | h | ⟨e, h⟩
      · exact h
      · rw [hq] at h; cases h
      · rw [hq] at h; cases h
    have hall : ∀ r, r < (exec ls).next → (exec ls).flags r = true := by
      intro r hr
      rcases hi.old r hr with h | rfl | h | h
      · exact h
      · exact hfin 0 h0
      · exact hfin r (hk r (hi.cur ▸ h))
      · rw [hq] at h; cases h
    have hh : (exec ls).held = [] := by
      match hh : (exec ls).held with
      | [] => rfl
      | r :: l =>
        have hr : r ∈ (exec ls).held := by rw [hh]; simp
        obtain ⟨i, n, hp⟩ := hi.late r (hall r (hi.lt r hr)) hr
        rw [hq] at hp; cases hp
    cases hc : (exec ls).cnt with
    | some c =>
      have := hi.cntS c hc
      rw [hh] at this
      have := this.1; have := this ▸ ‹_ ∧ 1 ≤ c›.2
      simp at this
    | none =>
      rcases hi.noneD hc with hd | ⟨i, h⟩
      · obtain ⟨i, h | h⟩ := hi.wit hd <;> rw [hq] at h <;> cases h
      · rw [hq] at h; cases h

/-- C27: an inner observable's notification is let in only while it is the one that was subscribed to last. -/
theorem C27_current_atomic (ls : List (Lbl α ε)) (pre post : List (Ev α ε)) (i : Nat) (c : Sig α ε)
    (h : (exec ls).log = pre ++ .recv i c :: post) (hi : i ≠ 0) (hg : .gone ∉ pre) (he : ¬ Ended pre) : current pre = some i := by
  obtain ⟨ls', rfl, hr⟩ := moment ls pre post _ h
  have hv := inv_exec ls' (not_over hg he)
  simp only [Fits, St.ready, Bool.and_eq_true, Bool.or_eq_true, Bool.not_eq_true', beq_iff_eq] at hr
  obtain ⟨⟨_, hf⟩, ho⟩ := hr
  have ho := ho.resolve_left hi
  rcases hv.old i (hv.opn i ho).1 with h | h | h | h
  · rw [hf] at h; cases h
  · exact absurd h hi
  · rw [← hv.cur]; exact h
  · have := (hv.fresh 0 i h).2.2.2.2
    rw [ho] at this; cases this

/-- C27: what was let in is told, all of it and in order, once the call has returned, unless it is over; and nothing else is told. -/
theorem C27_values_atomic (ls : List (Lbl α ε)) (i : Nat) :
    toldOf i (exec ls).log <+: got i (exec ls).log ∧
    ((exec ls).pc i = .idle → .gone ∉ (exec ls).log → ¬ Ended (exec ls).log → toldOf i (exec ls).log = got i (exec ls).log) := by
  refine ⟨(vals ls).pre i, fun hp hg he => ?_⟩
  have := (vals ls).all (not_over hg he) i
  rw [hp] at this
  simpa [pend] using this.symm

/-! ## The hypotheses are met -/

/-- The outer observable brings 1, which emits 5, then brings 2; while it disposes of the reference of 1, that one completes; 2 emits 6; the outer one and 2
complete at the same time: the outer one lowers the count, 2 lowers it to nothing and disposes of the shared state before either tests its flag. -/
def race : List (Lbl Nat Nat) :=
  [.outer, .run 0, .run 0, .run 0, .emit 1 5, .run 1, .outer, .fin 1 .completed, .run 1, .run 0, .run 0, .run 1, .run 1, .run 0, .emit 2 6, .run 2,
    .fin 0 .completed, .fin 2 .completed, .run 0, .run 2, .run 0, .run 2, .run 2, .run 0, .run 2, .run 2, .run 0]

example : (exec race).log = [.opened 1, .recv 1 (.next 5), .told 1 (.next 5), .recv 1 (.term .completed), .opened 2, .recv 2 (.next 6),
    .told 2 (.next 6), .recv 0 (.term .completed), .recv 2 (.term .completed), .told 2 (.term .completed)] := by decide
example : current (exec race).log = some 2 := by decide
example : ∀ i, (exec race).pc i = .idle
  | 0 => rfl
  | 1 => rfl
  | 2 => rfl
  | _ + 3 => rfl

/-- A value of the inner observable 1 is on its way when 2 arrives: it is told nevertheless, a later one is not let in. -/
example : (exec ([.outer, .run 0, .run 0, .run 0, .emit 1 5, .outer, .run 0, .run 0, .run 0, .run 0, .run 1, .emit 1 7, .run 1, .emit 2 8, .run 2] : List (Lbl Nat Nat))).log =
    [.opened 1, .recv 1 (.next 5), .opened 2, .told 1 (.next 5), .recv 2 (.next 8), .told 2 (.next 8)] := by decide

end Rpp.SwFine
