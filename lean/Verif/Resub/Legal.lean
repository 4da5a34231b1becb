import Verif.Resub.Vals

/-! What is true at every event, and when nobody is at work. -/

namespace Rpp.Resub

open Rpp.Comb (Sig Res)

variable {α β ε σ : Type}

/-- The number of attempts. -/
def attempts (log : List (Ev α β ε)) : Nat := (openings log).length

theorem InvS.attempts {P : Policy β ε σ} {s : St α β ε σ} (h : InvS P s) : attempts s.log = s.n := by
  rw [Resub.attempts, h.opened]
  have : ∀ n, (∀ k, k < n → (itemAt P k).isSome = true) →
      ((List.range n).filterMap fun n => (itemAt P n).map fun x => (n + 1, x)).length = n := by
    intro n
    induction n with
    | zero => intro _; rfl
    | succ n ih =>
      intro hk
      rw [List.range_succ, List.filterMap_append, List.length_append, ih (fun k hk' => hk k (by omega))]
      have := hk n (by omega)
      obtain ⟨x, hx⟩ := Option.isSome_iff_exists.mp this
      simp [hx]
  exact this s.n h.some

/-- What is always true at the moment of an event. -/
def Ok (P : Policy β ε σ) (pre : List (Ev α β ε)) : Ev α β ε → Prop
  | .opened n x => n = attempts pre + 1 ∧ itemAt P (attempts pre) = some x ∧ (∀ m, 0 < m → m < n → .handed m ∈ pre) ∧
      ∀ w t, .beg w (.term t) ∉ pre
  | .handed n => .handed n ∉ pre ∧ n = attempts pre ∧ 0 < n ∧ Again P pre n
  | .beg _ (.next v) => busy pre = false ∧ .gone ∉ pre ∧ ¬ Ended pre ∧ values pre ++ [v] = joined P (attempts pre) pre
  | .beg _ (.term t) => busy pre = false ∧ .gone ∉ pre ∧ ¬ Ended pre ∧ values pre = joined P (attempts pre) pre ∧ Origin P pre (attempts pre) t
  | .own _ _ => busy pre = false ∧ .gone ∉ pre ∧ ¬ Ended pre
  | .recv w _ => (w = .src (attempts pre) ∨ w = .ntf (attempts pre)) ∧ (∀ t, .recv w (.term t) ∉ pre) ∧
      (P.resume = false → ∀ n v, w = .ntf n → .recv w (.next v) ∉ pre)
  | .asked n e => n = attempts pre ∧ .recv (.src n) (.term (.error e)) ∈ pre ∧ (∀ e', .asked n e' ∉ pre)
  | _ => True

/-- What the logs satisfy (for the proofs); models no code. -/
def Legal (P : Policy β ε σ) (log : List (Ev α β ε)) : Prop := ∀ pre ev post, log = pre ++ ev :: post → Ok P pre ev

theorem Legal.snoc {P : Policy β ε σ} {log : List (Ev α β ε)} {ev : Ev α β ε} (h : Legal P log) (ho : Ok P log ev) : Legal P (log ++ [ev]) := by
  intro pre e post he
  rcases List.eq_nil_or_concat post with rfl | ⟨post', x, rfl⟩
  · obtain ⟨rfl, h2⟩ := List.append_inj' he rfl
    cases h2; exact ho
  · rw [List.concat_eq_append, ← List.cons_append, ← List.append_assoc] at he
    exact h pre e post' (List.append_inj_left' he rfl)

theorem All.open_call {P : Policy β ε σ} {s : St α β ε σ} {own : Option Who} {cur : Bool} (h : All P s own cur) {w : Who}
    (hi : (s.calls w).speaks = true) (hn : (s.calls w).inCb = false) (hg : s.gone = false) (he : (s.calls w).ending = false) :
    busy s.log = false ∧ .gone ∉ s.log ∧ ¬ Ended s.log := by
  have uniq : ∀ w', (s.calls w').speaks = true → w' = w := fun w' hw => h.I.speak1 w' w hw hi
  refine ⟨?_, fun hh => (by rw [h.L.gone hh] at hg; cases hg), fun hh => ?_⟩
  · cases hb : busy s.log with
    | false => rfl
    | true =>
      obtain ⟨j, hj⟩ := h.L.busy.mp hb
      obtain rfl := uniq j (speaks_of_inCb hj)
      rw [hn] at hj; cases hj
  · rcases h.L.ended hh with h | ⟨j, hj⟩
    · rw [hg] at h; cases h
    · obtain rfl := uniq j (speaks_of_ending hj)
      rw [he] at hj; cases hj

theorem ok_tr {P : Policy β ε σ} {s s' : St α β ε σ} {own : Option Who} {cur : Bool} (h : All P s own cur) (t : Tr P s s') (hL : Legal P s.log) :
    Legal P s'.log := by
  have hn := h.S.attempts
  have hrecv : ∀ (w : Who) (n : Nat) (c : Sig α ε), (w = .src n ∨ w = .ntf n) → s.active w = true → s.done w = false → Ok P s.log (.recv w c) := by
    intro w n c hw ha hd
    refine ⟨?_, fun t ht => ?_, fun hr n v hw hv => ?_⟩
    · rw [hn]
      rcases hw with rfl | rfl
      · rw [(h.I.current (.inl ⟨ha, hd⟩)).1]; exact .inl rfl
      · rw [(h.I.current (.inr ⟨ha, hd⟩)).1]; exact .inr rfl
    · rw [h.L.done w t ht] at hd; cases hd
    · subst hw; rw [h.J.emitted hr n v hv] at hd; cases hd
  have hhand : ∀ w n, s.calls w = .ex n → Ok P s.log (.handed n) := by
    intro w n hc
    obtain ⟨h1, h2, -, -, -⟩ := h.I.ex w n hc
    have := h.I.curr.mp h2
    exact ⟨by rw [h1]; exact this.2, by rw [hn, h1], by omega, h.J.ex w n hc⟩
  cases t with
  | nextS n v hc ha hd hs => exact hL.snoc (hrecv _ n _ (.inl rfl) ha hd)
  | nextR n v hc ha hd hs hr => exact hL.snoc (hrecv _ n _ (.inr rfl) ha hd)
  | nextN n v hc ha hd hs hr => exact hL.snoc (hrecv _ n _ (.inr rfl) ha hd)
  | finish n t hc ha hd hs hj => exact hL.snoc (hrecv _ n _ (.inl rfl) ha hd)
  | again n t hc ha hd hs hj => exact hL.snoc (hrecv _ n _ (.inl rfl) ha hd)
  | query n e hc ha hd hs hj => exact hL.snoc (hrecv _ n _ (.inl rfl) ha hd)
  | termN n t hc ha hd hs => exact hL.snoc (hrecv _ n _ (.inr rfl) ha hd)
  | sub w x hc =>
    have hf := h.I.free w (by rw [hc]; rfl)
    have hcur := h.I.curr
    rw [hf.1] at hcur
    simp only [Bool.false_eq_true, false_iff, not_and, Classical.not_not] at hcur
    refine hL.snoc ⟨by rw [hn], by rw [hn, itemAt, h.S.pend w x (.inr hc)]; rfl, fun m h1 h2 => ?_, fun w t hh => ?_⟩
    · by_cases he : m = s.n
      · subst he; exact hcur (by omega)
      · exact h.J.before m h1 (by omega)
    · rw [(h.J.beg w t hh).2] at hf; cases hf.2
  | exYes w n hc hf => exact hL.snoc (hhand w n hc)
  | exNo w n hc hf => exact hL.snoc (hhand w n hc)
  | beg w o hc hg =>
    obtain ⟨e1, e2, e3⟩ := h.open_call (w := w) (by rw [hc]; rfl) (by rw [hc]; rfl) hg (by rw [hc]; rfl)
    rcases o with v | t
    · refine hL.snoc ⟨e1, e2, e3, ?_⟩
      rw [hn, ← h.V.join]; exact h.V.way w v hc hg
    · refine hL.snoc ⟨e1, e2, e3, ?_, by rw [hn]; exact (h.J.out w t hc).1⟩
      rw [hn, ← h.V.join]
      refine h.V.rest (fun w' v hw => ?_) hg
      have := h.I.speak1 w w' (by rw [hc]; rfl) (by rw [hw]; rfl)
      subst this; rw [hc] at hw; cases hw
  | own w e hc hg => exact hL.snoc (h.open_call (w := w) (by rw [hc]; rfl) (by rw [hc]; rfl) hg (by rw [hc]; rfl))
  | askOk n e hc =>
    have ha := h.I.ask _ e hc
    have hn' : n = s.n := by have := ha.1; cases this; rfl
    refine hL.snoc ⟨by rw [hn, hn'], (h.J.ask n e hc).1, fun e' he => ?_⟩
    have := (h.L.asked n).mpr ⟨e', he⟩
    rw [hn', ha.2.2.2.2] at this; cases this
  | askThrow => exact hL.snoc trivial
  | throw => exact hL.snoc trivial
  | throwN => exact hL.snoc trivial
  | finOk => exact hL.snoc trivial
  | finThrow => exact hL.snoc trivial
  | finTerm => exact hL.snoc trivial
  | gone => exact hL.snoc trivial
  | _ => exact hL

theorem legal (P : Policy β ε σ) (ls : List (Lbl α ε)) : Legal P (exec P ls).log := by
  have : (∃ own cur, All P (exec P ls) own cur) ∧ Legal P (exec P ls).log := by
    refine exec_induct (Q := fun s => (∃ own cur, All P s own cur) ∧ Legal P s.log)
      ⟨⟨_, _, .init P, .init P, .init P, .init P, .init P, .init P⟩, fun pre ev post h => by simp at h⟩ ?_ ls
    rintro s s' ⟨⟨own, cur, h⟩, hL⟩ t
    obtain ⟨own', cur', hI'⟩ := h.I.tr h.N t
    exact ⟨⟨own', cur', h.N.tr t, hI', h.L.tr h.I t, h.S.tr h.I t, h.J.tr h.I h.L h.S t, h.V.tr h.N h.I t⟩, ok_tr h t hL⟩
  exact this.2

/-- No thread is at work inside the operator. -/
def Quiet (s : St α β ε σ) : Prop := ∀ w, s.calls w = .idle

/-- When nobody is at work, either it is over or the last attempt goes on, or what replaces it does. -/
theorem alive (P : Policy β ε σ) (ls : List (Lbl α ε)) (hq : Quiet (exec P ls)) (hg : .gone ∉ (exec P ls).log) (he : ¬ Ended (exec P ls).log) :
    0 < attempts (exec P ls).log ∧ .handed (attempts (exec P ls).log) ∉ (exec P ls).log ∧
    ((∀ t, .recv (.src (attempts (exec P ls).log)) (.term t) ∉ (exec P ls).log) ∨
     (∃ e, .asked (attempts (exec P ls).log) e ∈ (exec P ls).log) ∧ (∀ t, .recv (.ntf (attempts (exec P ls).log)) (.term t) ∉ (exec P ls).log) ∧
      (P.resume = false → ∀ v, .recv (.ntf (attempts (exec P ls).log)) (.next v) ∉ (exec P ls).log)) := by
  obtain ⟨own, cur, h⟩ := all P ls
  have hgone : (exec P ls).gone = false := by
    cases hh : (exec P ls).gone with
    | false => rfl
    | true => rcases h.L.why hh with h | h
              · exact absurd h hg
              · exact absurd h he
  have hover : (exec P ls).over = false := by
    cases hh : (exec P ls).over with
    | false => rfl
    | true =>
      rcases h.L.over hh with h | ⟨w, h⟩ | ⟨w, t, h⟩
      · rw [hgone] at h; cases h
      · rw [hq w] at h; cases h
      · rw [hq w] at h; cases h
  have hcur : cur = true := by
    cases ho : own with
    | none => exact (h.I.none ho).2
    | some w =>
      rcases h.I.owned w ho with h1 | h1 | ⟨-, h1⟩
      · rw [hq w] at h1; cases h1
      · rw [hover] at h1; cases h1
      · rw [h.L.dead h1] at hgone; cases hgone
  have hn := h.S.attempts
  have hc := h.I.curr.mp hcur
  rw [hn]
  refine ⟨by omega, hc.2, ?_⟩
  rcases h.I.alive hcur hover with h1 | h1 | ⟨e, h1⟩ | ⟨h1, h2 | h2⟩
  · refine .inl fun t ht => ?_
    rw [h.L.done _ t ht] at h1; cases h1
  · rw [hq] at h1; cases h1
  · rw [hq] at h1; cases h1
  · refine .inr ⟨(h.L.asked _).mp h1, fun t ht => ?_, fun hr v hv => ?_⟩
    · rw [h.L.done _ t ht] at h2; cases h2
    · rw [h.J.emitted hr _ v hv] at h2; cases h2
  · rw [hq] at h2; cases h2

theorem values_pre (P : Policy β ε σ) (ls : List (Lbl α ε)) : values (exec P ls).log <+: joined P (attempts (exec P ls).log) (exec P ls).log := by
  obtain ⟨own, cur, h⟩ := all P ls
  rw [h.S.attempts, ← h.V.join]; exact h.V.pre

theorem values_eq (P : Policy β ε σ) (ls : List (Lbl α ε)) (hq : Quiet (exec P ls)) (hg : .gone ∉ (exec P ls).log) (he : ¬ Ended (exec P ls).log) :
    values (exec P ls).log = joined P (attempts (exec P ls).log) (exec P ls).log := by
  obtain ⟨own, cur, h⟩ := all P ls
  rw [h.S.attempts, ← h.V.join]
  refine h.V.rest (fun w v hh => by rw [hq w] at hh; cases hh) ?_
  cases hh : (exec P ls).gone with
  | false => rfl
  | true => rcases h.L.why hh with h | h
            · exact absurd h hg
            · exact absurd h he

theorem opened_of_lt (P : Policy β ε σ) (ls : List (Lbl α ε)) {k : Nat} (hk : k < attempts (exec P ls).log) : (itemAt P k).isSome = true := by
  obtain ⟨own, cur, h⟩ := all P ls
  rw [h.S.attempts] at hk; exact h.S.some k hk

theorem openings_eq (P : Policy β ε σ) (ls : List (Lbl α ε)) :
    openings (exec P ls).log = (List.range (attempts (exec P ls).log)).filterMap fun n => (itemAt P n).map fun x => (n + 1, x) := by
  obtain ⟨own, cur, h⟩ := all P ls
  rw [h.S.attempts]; exact h.S.opened

/-- The event at position `pre` is part of an execution that ends there: prefixes of histories are histories. -/
theorem mem_split {l : List (Ev α β ε)} {ev : Ev α β ε} (h : ev ∈ l) : ∃ pre post, l = pre ++ ev :: post := List.append_of_mem h

end Rpp.Resub
