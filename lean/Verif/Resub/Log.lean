import Verif.Resub.Inv

/-! What the history says about the state. -/

namespace Rpp.Resub

open Rpp.Comb (Sig Res)

variable {α β ε σ : Type}

/-- The operator's state after `n` subscriptions. -/
def stAt (P : Policy β ε σ) : Nat → σ
  | 0 => P.init
  | n + 1 => match P.next (stAt P n) with
    | some (_, st) => st
    | none => stAt P n

/-- What attempt `n + 1` subscribes to, if there is one. -/
def itemAt (P : Policy β ε σ) (n : Nat) : Option β := (P.next (stAt P n)).map Prod.fst

theorem stAt_succ {P : Policy β ε σ} {n : Nat} {x : β} {st : σ} (h : P.next (stAt P n) = some (x, st)) : stAt P (n + 1) = st := by
  rw [stAt, h]

/-- Attempt `n` is the last one and it goes on (or its end has not been dealt with). -/
theorem Inv.current {s : St α β ε σ} {own : Option Who} {cur : Bool} (h : Inv s own cur) {n : Nat}
    (hn : (s.active (.src n) = true ∧ s.done (.src n) = false) ∨ (s.active (.ntf n) = true ∧ s.done (.ntf n) = false)) :
    n = s.n ∧ cur = true ∧ s.over = false ∧ ∀ w, (s.calls w).free = false := by
  have key : n = s.n ∧ cur = true ∧ s.over = false := by
    have h1 := h.past n
    have h2 := h.pastN n
    refine ⟨Classical.byContradiction fun hc => ?_, ?_, ?_⟩
    · rcases hn with ⟨ha, hd⟩ | ⟨ha, hd⟩
      · rw [h1 ha (.inl hc)] at hd; cases hd
      · rw [h2 ha (.inl hc)] at hd; cases hd
    · cases cur with
      | true => rfl
      | false =>
        rcases hn with ⟨ha, hd⟩ | ⟨ha, hd⟩
        · rw [h1 ha (.inr (.inl rfl))] at hd; cases hd
        · rw [h2 ha (.inr (.inl rfl))] at hd; cases hd
    · cases ho : s.over with
      | false => rfl
      | true =>
        rcases hn with ⟨ha, hd⟩ | ⟨ha, hd⟩
        · rw [h1 ha (.inr (.inr ho))] at hd; cases hd
        · rw [h2 ha (.inr (.inr ho))] at hd; cases hd
  refine ⟨key.1, key.2.1, key.2.2, fun w => ?_⟩
  cases hf : (s.calls w).free with
  | false => rfl
  | true => have := (h.free w hf).1; rw [key.2.1] at this; cases this

/-- Used in the proofs; models no code. -/
def Ev.ends : Ev α β ε → Bool
  | .beg _ (.term _) | .own _ _ => true
  | _ => false

theorem Ended_snoc (l : List (Ev α β ε)) (ev : Ev α β ε) : Ended (l ++ [ev]) ↔ Ended l ∨ ev.ends = true := by
  unfold Ended
  simp only [List.mem_append, List.mem_singleton]
  constructor
  · rintro (⟨w, t, h | rfl⟩ | ⟨w, e, h | rfl⟩)
    · exact .inl (.inl ⟨w, t, h⟩)
    · exact .inr rfl
    · exact .inl (.inr ⟨w, e, h⟩)
    · exact .inr rfl
  · rintro ((⟨w, t, h⟩ | ⟨w, e, h⟩) | h)
    · exact .inl ⟨w, t, .inl h⟩
    · exact .inr ⟨w, e, .inl h⟩
    · unfold Ev.ends at h
      split at h
      · exact .inl ⟨_, _, .inr rfl⟩
      · exact .inr ⟨_, _, .inr rfl⟩
      · cases h

/-- Invariant of the proofs; models no code. -/
structure InvL (s : St α β ε σ) : Prop where
  dead : s.dead = true → s.gone = true
  gone : .gone ∈ s.log → s.gone = true
  busy : busy s.log = true ↔ ∃ w, (s.calls w).inCb = true
  ended : Ended s.log → s.gone = true ∨ ∃ w, (s.calls w).ending = true
  why : s.gone = true → .gone ∈ s.log ∨ Ended s.log
  told : ∀ w, (s.calls w).ending = true → Ended s.log
  over : s.over = true → s.gone = true ∨ (∃ w, (s.calls w).ending = true) ∨ ∃ w t, s.calls w = .out (.term t)
  done : ∀ w t, .recv w (.term t) ∈ s.log → s.done w = true
  asked : ∀ n, s.active (.ntf n) = true ↔ ∃ e, .asked n e ∈ s.log

theorem InvL.init (P : Policy β ε σ) : InvL ({ st := P.init } : St α β ε σ) := by
  constructor <;> intros <;> simp [Resub.busy, Ended] at * <;> grind [Pc.inCb, Pc.ending]

set_option maxHeartbeats 2000000 in
theorem InvL.tr {P : Policy β ε σ} {s s' : St α β ε σ} {own : Option Who} {cur : Bool} (h2 : Inv s own cur) (h : InvL s) (t : Tr P s s') : InvL s' := by
  obtain ⟨a1, a2, a3, a4, a5, a6, a7, a8, a9⟩ := h
  have u := h2.speak1
  have sc : ∀ w, (s.calls w).inCb = true → (s.calls w).speaks = true := fun w h => speaks_of_inCb h
  have se : ∀ w, (s.calls w).ending = true → (s.calls w).speaks = true := fun w h => speaks_of_ending h
  clear h2
  cases t with
  | skip w hc hg =>
    have hs : (s.calls w).speaks = true := by rcases hc with ⟨o, hc⟩ | ⟨e, hc⟩ <;> rw [hc] <;> rfl
    have hs1 : (s.calls w).ending = false := by rcases hc with ⟨o, hc⟩ | ⟨e, hc⟩ <;> rw [hc] <;> rfl
    have hs2 : (s.calls w).inCb = false := by rcases hc with ⟨o, hc⟩ | ⟨e, hc⟩ <;> rw [hc] <;> rfl
    constructor <;> simp only [St.goto] at * <;> grind [Pc.inCb, Pc.ending, Pc.speaks, Ev.ends]
  | finTerm w hc =>
    have hs : (s.calls w).speaks = true := by rcases hc with ⟨o, hc⟩ | hc <;> rw [hc] <;> rfl
    have hs1 : (s.calls w).ending = true := by rcases hc with ⟨o, hc⟩ | hc <;> rw [hc] <;> rfl
    have hs2 : (s.calls w).inCb = true := by rcases hc with ⟨o, hc⟩ | hc <;> rw [hc] <;> rfl
    constructor <;> simp only [St.goto, St.emit, busy_snoc, List.mem_append, List.mem_singleton, Ended_snoc] at * <;> grind [Pc.inCb, Pc.ending, Pc.speaks, Ev.ends]
  | beg w o hc hg =>
    rcases o with v | t <;>
    constructor <;> simp only [St.goto, St.emit, busy_snoc, List.mem_append, List.mem_singleton, Ended_snoc] at * <;> grind [Pc.inCb, Pc.ending, Pc.speaks, Ev.ends]
  | askOk n e hc =>
    have ha : ∀ m, (∃ e', .asked m e' ∈ s.log ++ [.asked n e]) ↔ m = n ∨ ∃ e', .asked m e' ∈ s.log := fun m => by
      simp only [List.mem_append, List.mem_singleton, Ev.asked.injEq]
      exact ⟨fun ⟨e', h⟩ => h.elim (fun h => .inr ⟨e', h⟩) (fun h => .inl h.1), fun h => h.elim (fun h => ⟨e, .inr ⟨h, rfl⟩⟩) (fun ⟨e', h⟩ => ⟨e', .inl h⟩)⟩
    constructor
    case asked => intro m; simp only [St.goto, St.emit, St.start]; rw [ha m, ← a9 m]; simp
    all_goals clear ha a9
    all_goals simp only [St.goto, St.emit, St.start, St.finish, busy_snoc, List.mem_append, List.mem_singleton, Ended_snoc] at *
    all_goals grind [Pc.inCb, Pc.ending, Pc.speaks, Ev.ends]
  | _ =>
    constructor <;> simp only [St.goto, St.emit, St.start, St.finish, busy_snoc, List.mem_append, List.mem_singleton, Ended_snoc] at * <;>
      grind [Pc.inCb, Pc.ending, Pc.speaks, Ev.ends]

/-- The state, and what has been subscribed to. -/
structure InvS (P : Policy β ε σ) (s : St α β ε σ) : Prop where
  pend : ∀ w x, s.calls w = .store x ∨ s.calls w = .sub x → P.next (stAt P s.n) = some (x, s.st)
  at_ : (∀ w x, s.calls w ≠ .store x ∧ s.calls w ≠ .sub x) → s.st = stAt P s.n
  opened : openings s.log = (List.range s.n).filterMap fun n => (itemAt P n).map fun x => (n + 1, x)
  some : ∀ n, n < s.n → (itemAt P n).isSome = true

theorem InvS.init (P : Policy β ε σ) : InvS P ({ st := P.init } : St α β ε σ) := by
  constructor
  · intro w x h; simp at h; split at h <;> simp at h
  · intro _; rfl
  · rfl
  · intro n hn; simp at hn

theorem InvS.tr {P : Policy β ε σ} {s s' : St α β ε σ} {own : Option Who} {cur : Bool} (h2 : Inv s own cur) (h : InvS P s) (t : Tr P s s') : InvS P s' := by
  obtain ⟨a1, a2, a3, a4⟩ := h
  have uniq : ∀ w w', (s.calls w).owner = true → (s.calls w').owner = true → w = w' := fun w w' h h' => by
    have h := h2.owner w h; have h' := h2.owner w' h'; rw [h] at h'; cases h'; rfl
  cases t with
  | pick w x st hc hn =>
    have hno : ∀ w' x, s.calls w' ≠ .store x ∧ s.calls w' ≠ .sub x := by
      intro w' x
      constructor <;> intro hh
      · obtain rfl := uniq w w' (by rw [hc]; rfl) (by rw [hh]; rfl); rw [hc] at hh; cases hh
      · obtain rfl := uniq w w' (by rw [hc]; rfl) (by rw [hh]; rfl); rw [hc] at hh; cases hh
    have hst := a2 hno
    refine ⟨?_, ?_, a3, a4⟩
    · intro w' x' hh
      simp only [St.goto] at hh ⊢
      split at hh
      · simp only [Pc.store.injEq, reduceCtorEq, or_false] at hh
        subst hh; rw [← hst, hn]
      · rcases hh with hh | hh
        · exact absurd hh (hno _ _).1
        · exact absurd hh (hno _ _).2
    · intro hh; have := (hh w x).1; simp [St.goto] at this
  | store w x hc =>
    have hp := a1 w x (.inl hc)
    refine ⟨?_, ?_, a3, a4⟩
    · intro w' x' hh
      simp only [St.goto] at hh ⊢
      split at hh
      · simp only [Pc.sub.injEq, reduceCtorEq, false_or] at hh
        subst hh; exact hp
      · exact a1 w' x' hh
    · intro hh; have := (hh w x).2; simp [St.goto] at this
  | sub w x hc =>
    have hp := a1 w x (.inr hc)
    refine ⟨?_, ?_, ?_, ?_⟩
    · intro w' x' hh
      simp only [St.goto, St.emit, St.start] at hh
      split at hh
      · simp at hh
      · next hne =>
        refine absurd (uniq w w' (by rw [hc]; rfl) ?_) (fun h => hne h.symm)
        rcases hh with hh | hh <;> rw [hh] <;> rfl
    · intro _; exact (stAt_succ hp).symm
    · simp only [St.goto, St.emit, St.start, openings_snoc, a3]
      rw [List.range_succ, List.filterMap_append]
      simp [itemAt, hp]
    · intro n hn
      simp only [St.goto, St.emit, St.start] at hn
      by_cases he : n = s.n
      · subst he; simp [itemAt, hp]
      · exact a4 n (by omega)
  | _ =>
    refine ⟨?_, ?_, ?_, a4⟩
    · simp only [St.goto, St.emit, St.start, St.finish] at *; first | exact a1 | (intro w' x'; split <;> first | (intro hh; simp at hh; done) | exact a1 w' x')
    · simp only [St.goto, St.emit, St.start, St.finish] at *
      first
      | exact a2
      | (intro hh; refine a2 fun w' x' => ?_; have := hh w' x'; split at this <;> grind)
    · simp only [St.goto, St.emit, St.start, St.finish, openings_snoc, List.append_nil] at *; exact a3

end Rpp.Resub
