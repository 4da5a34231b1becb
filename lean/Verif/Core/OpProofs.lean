import Verif.Core.Lawful

/-! # Helper lemmas: each operator's transducer computes its specification -/

namespace Rpp



@[simp] theorem traceOf_nil : traceOf ([] : List (Call α ε)) = ⟨[], none⟩ := rfl
@[simp] theorem traceOf_next (a : α) (cs : List (Call α ε)) :
    traceOf (.next a :: cs) = ⟨a :: (traceOf cs).vals, (traceOf cs).fin⟩ := rfl
@[simp] theorem traceOf_error (e : ε) (cs : List (Call α ε)) :
    traceOf (.error e :: cs) = ⟨[], some (.error e)⟩ := rfl
@[simp] theorem traceOf_completed (cs : List (Call α ε)) :
    traceOf (.completed :: cs) = ⟨[], some .completed⟩ := rfl
@[simp] theorem traceOf_up (d : Nat) (cs : List (Call α ε)) : traceOf (.up d :: cs) = traceOf cs := rfl

theorem trans_map (f : α → Except ε β) (cs : List (Call α ε)) :
    ∀ s, traceOf ((Ops.map f).trans s cs) = Spec.map f (traceOf cs) := by
  induction cs with
  | nil => intro s; rfl
  | cons c cs ih =>
    intro s
    cases c with
    | next a =>
      have := ih ()
      cases h : f a <;>
        simp [OpStrategy.trans, OpStrategy.feed, Ops.map, h, Spec.map, Spec.mapUntil, Spec.endWith] at this ⊢
      simp [this]
    | up d => exact ih s
    | _ => rfl

theorem trans_filter (p : α → Except ε Bool) (cs : List (Call α ε)) :
    ∀ s, traceOf ((Ops.filter p).trans s cs) = Spec.filter p (traceOf cs) := by
  induction cs with
  | nil => intro s; rfl
  | cons c cs ih =>
    intro s
    cases c with
    | next a =>
      rcases h : p a with e | b
      · simp [OpStrategy.trans, OpStrategy.feed, Ops.filter, h, Spec.filter, Spec.filterUntil, Spec.endWith]
      · have := ih ()
        cases b <;>
          simp [OpStrategy.trans, OpStrategy.feed, Ops.filter, h, Spec.filter, Spec.filterUntil] at this ⊢
          <;> simp [this]
    | up d => exact ih s
    | _ => rfl

theorem trans_take (cs : List (Call α ε)) :
    ∀ n s, traceOf ((Ops.take n).trans s cs) = Spec.take s (traceOf cs) := by
  induction cs with
  | nil => intro n s; simp [OpStrategy.trans, Spec.take]
  | cons c cs ih =>
    intro n s
    cases c with
    | next a =>
      rcases s with _ | _ | s
      · simp [OpStrategy.trans, OpStrategy.feed, Ops.take, Spec.take]
      · simp [OpStrategy.trans, OpStrategy.feed, Ops.take, Spec.take]
      · have := ih n (s+1)
        simp [OpStrategy.trans, OpStrategy.feed, Ops.take, Spec.take] at this ⊢
        rw [this]; simp
    | up d => exact ih n s
    | _ => simp [OpStrategy.trans, OpStrategy.feed, Ops.take, Spec.take] <;> (intro h; omega)

theorem trans_skip (cs : List (Call α ε)) :
    ∀ n s, traceOf ((Ops.skip n).trans s cs) = Spec.skip s (traceOf cs) := by
  induction cs with
  | nil => intro n s; simp [OpStrategy.trans, Spec.skip]
  | cons c cs ih =>
    intro n s
    cases c with
    | next a =>
      cases s with
      | zero => have := ih n 0; simp [OpStrategy.trans, OpStrategy.feed, Ops.skip, Spec.skip] at this ⊢; rw [this]; simp
      | succ s => have := ih n s; simp [OpStrategy.trans, OpStrategy.feed, Ops.skip, Spec.skip] at this ⊢; rw [this]
    | up d => exact ih n s
    | _ => simp [OpStrategy.trans, OpStrategy.feed, Ops.skip, Spec.skip]

theorem trans_takeWhile (p : α → Except ε Bool) (cs : List (Call α ε)) :
    ∀ s, traceOf ((Ops.takeWhile p).trans s cs) = Spec.takeWhile p (traceOf cs).vals (traceOf cs).fin := by
  induction cs with
  | nil => intro s; rfl
  | cons c cs ih =>
    intro s
    cases c with
    | next a =>
      rcases h : p a with e | b
      · simp [OpStrategy.trans, OpStrategy.feed, Ops.takeWhile, h, Spec.takeWhile]
      · cases b <;> simp [OpStrategy.trans, OpStrategy.feed, Ops.takeWhile, h, Spec.takeWhile]
        have := ih ()
        simp [Ops.takeWhile] at this
        simp [this]
    | up d => exact ih s
    | _ => rfl

theorem trans_first (e : ε) (cs : List (Call α ε)) :
    ∀ s, traceOf ((Ops.first e).trans s cs) = Spec.first e (traceOf cs) := by
  induction cs with
  | nil => intro s; rfl
  | cons c cs ih =>
    intro s
    cases c with
    | up d => exact ih s
    | _ => rfl

theorem trans_last (e : ε) (cs : List (Call α ε)) :
    ∀ s, traceOf ((Ops.last e).trans s cs) =
      Spec.last e ⟨s.toList ++ (traceOf cs).vals, (traceOf cs).fin⟩ := by
  induction cs with
  | nil => intro s; rfl
  | cons c cs ih =>
    intro s
    cases c with
    | next a =>
      have := ih (some a)
      simp only [OpStrategy.trans, OpStrategy.feed, Ops.last, List.nil_append] at this ⊢
      rw [this]
      simp only [Spec.last, traceOf_next, Option.toList, List.singleton_append]
      cases (traceOf cs).fin with
      | none => rfl
      | some t => cases t <;> simp [List.getLast?_append, List.getLast?_cons]
    | up d => exact ih s
    | error e => simp [OpStrategy.trans, OpStrategy.feed, Ops.last, Spec.last]
    | completed => cases s <;> simp [OpStrategy.trans, OpStrategy.feed, Ops.last, Spec.last]

theorem trans_elementAt (i0 : Nat) (e : ε) (cs : List (Call α ε)) :
    ∀ i, traceOf ((Ops.elementAt i0 e).trans (i + 1) cs) = Spec.elementAt i e (traceOf cs) := by
  induction cs with
  | nil => intro i; rfl
  | cons c cs ih =>
    intro i
    cases c with
    | next a =>
      cases i with
      | zero => simp [OpStrategy.trans, OpStrategy.feed, Ops.elementAt, Spec.elementAt]
      | succ i => have := ih i; simp [OpStrategy.trans, OpStrategy.feed, Ops.elementAt, Spec.elementAt] at this ⊢; exact this
    | up d => exact ih i
    | error e => simp [OpStrategy.trans, OpStrategy.feed, Ops.elementAt, Spec.elementAt]
    | completed => simp [OpStrategy.trans, OpStrategy.feed, Ops.elementAt, Spec.elementAt]

theorem trans_distinct [BEq α] [LawfulBEq α] (cs : List (Call α ε)) :
    ∀ s, traceOf (Ops.distinct.trans s cs) =
      ⟨(Spec.nub (traceOf cs).vals).filter (fun b => !s.contains b), (traceOf cs).fin⟩ := by
  induction cs with
  | nil => intro s; simp [OpStrategy.trans, Spec.nub]
  | cons c cs ih =>
    intro s
    cases c with
    | next a =>
      have h1 := ih s
      have h2 := ih (a :: s)
      by_cases h : a ∈ s
      · simp [OpStrategy.trans, OpStrategy.feed, Ops.distinct, h] at h1 ⊢
        rw [h1]
        simp [Spec.nub, List.filter_filter, h]
        apply List.filter_congr
        intro x hx
        by_cases hxs : x ∈ s <;> simp [hxs]
        rintro rfl; exact hxs h
      · simp [OpStrategy.trans, OpStrategy.feed, Ops.distinct, h] at h2 ⊢
        rw [h2]
        simp [Spec.nub, List.filter_filter, h]
        apply List.filter_congr
        intro x hx
        exact Bool.and_comm _ _
    | up d => exact ih s
    | _ => simp [OpStrategy.trans, OpStrategy.feed, Ops.distinct, Spec.nub]

theorem trans_duc (eq : α → α → Except ε Bool) (cs : List (Call α ε)) :
    ∀ s, traceOf ((Ops.distinctUntilChanged eq).trans s cs) =
      ⟨(Spec.collapse eq s (traceOf cs).vals).1,
        Spec.endWith (Spec.collapse eq s (traceOf cs).vals).2 (traceOf cs).fin⟩ := by
  induction cs with
  | nil => intro s; cases s <;> rfl
  | cons c cs ih =>
    intro s
    cases c with
    | next a =>
      cases s with
      | none =>
        have := ih (some a)
        simp [OpStrategy.trans, OpStrategy.feed, Ops.distinctUntilChanged, Spec.collapse] at this ⊢
        simp [this]
      | some l =>
        rcases h : eq l a with e | b
        · simp [OpStrategy.trans, OpStrategy.feed, Ops.distinctUntilChanged, h, Spec.collapse, Spec.endWith]
        · cases b
          · have := ih (some a)
            simp [OpStrategy.trans, OpStrategy.feed, Ops.distinctUntilChanged, h, Spec.collapse] at this ⊢
            simp [this]
          · have := ih (some l)
            simp [OpStrategy.trans, OpStrategy.feed, Ops.distinctUntilChanged, h, Spec.collapse] at this ⊢
            simp [this]
    | up d => exact ih s
    | _ => simp [OpStrategy.trans, OpStrategy.feed, Ops.distinctUntilChanged, Spec.collapse, Spec.endWith]

theorem trans_scan (b0 : β) (f : β → α → Except ε β) (cs : List (Call α ε)) :
    ∀ s, traceOf ((Ops.scan b0 f).trans s cs) =
      ⟨(Spec.scanUntil f s (traceOf cs).vals).1,
        Spec.endWith (Spec.scanUntil f s (traceOf cs).vals).2 (traceOf cs).fin⟩ := by
  induction cs with
  | nil => intro s; rfl
  | cons c cs ih =>
    intro s
    cases c with
    | next a =>
      rcases h : f s a with e | b
      · simp [OpStrategy.trans, OpStrategy.feed, Ops.scan, h, Spec.scanUntil, Spec.endWith]
      · have := ih b
        simp [OpStrategy.trans, OpStrategy.feed, Ops.scan, h, Spec.scanUntil] at this ⊢
        simp [this]
    | up d => exact ih s
    | _ => rfl

theorem trans_scanNoSeed_some (f : α → α → Except ε α) (cs : List (Call α ε)) :
    ∀ s, traceOf ((Ops.scanNoSeed f).trans (some s) cs) =
      ⟨(Spec.scanUntil f s (traceOf cs).vals).1,
        Spec.endWith (Spec.scanUntil f s (traceOf cs).vals).2 (traceOf cs).fin⟩ := by
  induction cs with
  | nil => intro s; rfl
  | cons c cs ih =>
    intro s
    cases c with
    | next a =>
      rcases h : f s a with e | b
      · simp [OpStrategy.trans, OpStrategy.feed, Ops.scanNoSeed, h, Spec.scanUntil, Spec.endWith]
      · have := ih b
        simp [OpStrategy.trans, OpStrategy.feed, Ops.scanNoSeed, h, Spec.scanUntil] at this ⊢
        simp [this]
    | up d => exact ih s
    | _ => rfl

theorem trans_scanNoSeed (f : α → α → Except ε α) (cs : List (Call α ε)) :
    traceOf ((Ops.scanNoSeed f).trans none cs) = Spec.scanNoSeed f (traceOf cs) := by
  induction cs with
  | nil => rfl
  | cons c cs ih =>
    cases c with
    | next a =>
      have := trans_scanNoSeed_some f cs a
      simp [OpStrategy.trans, OpStrategy.feed, Ops.scanNoSeed, Spec.scanNoSeed, Spec.scan] at this ⊢
      simp [this]
    | up d => exact ih
    | _ => rfl

theorem trans_reduce (b0 : β) (f : β → α → Except ε β) (cs : List (Call α ε)) :
    ∀ s, traceOf ((Ops.reduce b0 f).trans s cs) = Spec.reduce s f (traceOf cs) := by
  induction cs with
  | nil => intro s; rfl
  | cons c cs ih =>
    intro s
    cases c with
    | next a =>
      rcases h : f s a with e | b
      · simp [OpStrategy.trans, OpStrategy.feed, Ops.reduce, h, Spec.reduce, bind, Except.bind]
      · have := ih b
        simp [OpStrategy.trans, OpStrategy.feed, Ops.reduce, h, Spec.reduce, bind, Except.bind] at this ⊢
        simp [this]
    | up d => exact ih s
    | _ => rfl

theorem trans_reduceNoSeed_some (f : α → α → Except ε α) (cs : List (Call α ε)) :
    ∀ s, traceOf ((Ops.reduceNoSeed f).trans (some s) cs) = Spec.reduce s f (traceOf cs) := by
  induction cs with
  | nil => intro s; rfl
  | cons c cs ih =>
    intro s
    cases c with
    | next a =>
      rcases h : f s a with e | b
      · simp [OpStrategy.trans, OpStrategy.feed, Ops.reduceNoSeed, h, Spec.reduce, bind, Except.bind]
      · have := ih b
        simp [OpStrategy.trans, OpStrategy.feed, Ops.reduceNoSeed, h, Spec.reduce, bind, Except.bind] at this ⊢
        simp [this]
    | up d => exact ih s
    | _ => rfl

theorem trans_reduceNoSeed (f : α → α → Except ε α) (cs : List (Call α ε)) :
    traceOf ((Ops.reduceNoSeed f).trans none cs) = Spec.reduceNoSeed f (traceOf cs) := by
  induction cs with
  | nil => rfl
  | cons c cs ih =>
    cases c with
    | next a =>
      have := trans_reduceNoSeed_some f cs a
      simp [OpStrategy.trans, OpStrategy.feed, Ops.reduceNoSeed, Spec.reduceNoSeed] at this ⊢
      simp [this]
    | up d => exact ih
    | _ => rfl

theorem trans_tap (cb : α → Option ε) (cs : List (Call α ε)) :
    ∀ s, traceOf ((Ops.tap cb).trans s cs) = Spec.tap cb (traceOf cs) := by
  induction cs with
  | nil => intro s; rfl
  | cons c cs ih =>
    intro s
    cases c with
    | next a =>
      have := ih (s ++ [.next a])
      cases h : cb a <;> 
        simp [OpStrategy.trans, OpStrategy.feed, Ops.tap, h, Spec.tap, Spec.map, Spec.mapUntil, Spec.endWith] at this ⊢
      simp [this]
    | up d => exact ih s
    | _ => rfl

theorem trans_finally (d : Nat) (cs : List (Call α ε)) :
    ∀ s, traceOf ((Ops.finallyOp d).trans s cs) = traceOf cs := by
  induction cs with
  | nil => intro s; rfl
  | cons c cs ih =>
    intro s
    cases c with
    | next a => have := ih (); simp [OpStrategy.trans, OpStrategy.feed, Ops.finallyOp] at this ⊢; simp [this]
    | up d => exact ih s
    | _ => rfl

theorem trans_throttle (d : Int) (cs : List (Call (Int × α) ε)) :
    ∀ s, traceOf ((Ops.throttle d).trans s cs) =
      ⟨(Spec.throttle d s (traceOf cs).vals).map Prod.snd, (traceOf cs).fin⟩ := by
  induction cs with
  | nil => intro s; cases s <;> rfl
  | cons c cs ih =>
    intro s
    cases c with
    | next a =>
      have h1 := ih (some a.1)
      cases s with
      | none =>
        simp [OpStrategy.trans, OpStrategy.feed, Ops.throttle, Spec.throttle] at h1 ⊢
        simp [h1]
      | some l =>
        have h2 := ih (some l)
        by_cases h : l + d ≤ a.1
        · simp [OpStrategy.trans, OpStrategy.feed, Ops.throttle, Spec.throttle, h] at h1 ⊢
          simp [h1]
        · simp [OpStrategy.trans, OpStrategy.feed, Ops.throttle, Spec.throttle, h] at h2 ⊢
          simp [h2]
    | up d => exact ih s
    | _ => cases s <;> rfl

/-! ### buffer -/

theorem fullChunks_short {k : Nat} {l : List α} (h : l.length < k) : Spec.fullChunks k l = [] := by
  simp [Spec.fullChunks, Nat.div_eq_of_lt h]

theorem remainder_short {k : Nat} {l : List α} (h : l.length < k) : Spec.remainder k l = l := by
  simp [Spec.remainder, Nat.div_eq_of_lt h]

theorem div_add_len {k : Nat} (hk : 0 < k) (m : Nat) : (k + m) / k = m / k + 1 := by
  rw [Nat.add_comm, Nat.add_div_right _ hk]

theorem fullChunks_cons {k : Nat} (hk : 0 < k) {c : List α} (hc : c.length = k) (l : List α) :
    Spec.fullChunks k (c ++ l) = c :: Spec.fullChunks k l := by
  unfold Spec.fullChunks
  rw [List.length_append, hc, div_add_len hk, List.range_succ_eq_map, List.map_cons, List.map_map]
  congr 1
  · simp [Spec.chunk, ← hc]
  · apply List.map_congr_left
    intro i _
    simp only [Function.comp_apply, Spec.chunk, Nat.succ_eq_add_one]
    rw [show (i + 1) * k = c.length + i * k by rw [hc, Nat.add_mul]; omega, List.drop_append]
    rw [List.drop_of_length_le (by omega)]
    simp

theorem remainder_cons {k : Nat} (hk : 0 < k) {c : List α} (hc : c.length = k) (l : List α) :
    Spec.remainder k (c ++ l) = Spec.remainder k l := by
  unfold Spec.remainder
  rw [List.length_append, hc, div_add_len hk]
  rw [show (l.length / k + 1) * k = c.length + l.length / k * k by rw [hc, Nat.add_mul]; omega,
    List.drop_append, List.drop_of_length_le (by omega)]
  simp

theorem trans_buffer (n : Nat) (cs : List (Call α ε)) :
    ∀ b : List α, b.length < max 1 n → traceOf ((Ops.buffer n).trans b cs) =
      Spec.buffer n ⟨b ++ (traceOf cs).vals, (traceOf cs).fin⟩ := by
  induction cs with
  | nil => intro b hb; simp [OpStrategy.trans, Spec.buffer, fullChunks_short hb]
  | cons c cs ih =>
    intro b hb
    have hk : 0 < max 1 n := by omega
    cases c with
    | next a =>
      by_cases h : (b ++ [a]).length = max 1 n
      · have h1 := ih [] hk
        simp only [OpStrategy.trans, OpStrategy.feed, Ops.buffer, h, if_true] at h1 ⊢
        rw [List.singleton_append, traceOf_next, h1]
        rw [show b ++ (traceOf (.next a :: cs)).vals = (b ++ [a]) ++ (traceOf cs).vals by simp]
        simp only [Spec.buffer, traceOf_next, List.nil_append, fullChunks_cons hk h, remainder_cons hk h]
        cases (traceOf cs).fin with
        | none => rfl
        | some t => cases t <;> rfl
      · have h1 := ih (b ++ [a]) (by simp at h ⊢; omega)
        simp only [OpStrategy.trans, OpStrategy.feed, Ops.buffer, h, if_false] at h1 ⊢
        rw [List.nil_append, h1]
        simp
    | up d => exact ih b hb
    | error e => simp [OpStrategy.trans, OpStrategy.feed, Ops.buffer, Spec.buffer, fullChunks_short hb]
    | completed =>
      simp only [OpStrategy.trans, OpStrategy.feed, Ops.buffer, Spec.buffer, traceOf_completed,
        List.append_nil, fullChunks_short hb, remainder_short hb]
      cases b <;> rfl

/-! ### take_last -/

theorem takeLastDrain_eq (data : List α) : ∀ k cur, k ≤ data.length → cur < data.length →
    Ops.takeLastDrain (ε := ε) data cur k = ((data.drop cur ++ data.take cur).take k).map Call.next := by
  intro k
  induction k with
  | zero => intro cur _ _; simp [Ops.takeLastDrain]
  | succ k ih =>
    intro cur hk hc
    rw [Ops.takeLastDrain, List.getElem?_eq_getElem hc, List.drop_eq_getElem_cons hc]
    simp only [List.cons_append, List.nil_append, List.take_succ_cons, List.map_cons]
    congr 1
    unfold Ops.takeLastNext
    by_cases h : cur + 1 ≥ data.length
    · rw [if_pos h, ih 0 (by omega) (by omega)]
      have : cur + 1 = data.length := by omega
      simp only [this, List.drop_length, List.nil_append, List.drop_zero, List.take_zero,
        List.append_nil, List.take_take]
      rw [Nat.min_eq_left (by omega)]
    · rw [if_neg h, ih (cur + 1) (by omega) (by omega)]
      congr 1
      rw [List.take_append, List.take_append]
      congr 1
      rw [List.take_take, List.take_take, List.length_drop]
      congr 1; omega

/-- Invariant of the proofs; models no code. -/
structure TakeLastInv (n : Nat) (s : Ops.TakeLastSt α) (h : List α) : Prop where
  cap : s.cap = n
  cur : s.cur < s.data.length ∨ s.cur = 0
  len : s.data.length = min n h.length
  early : s.data.length < n → s.cur = 0
  content : s.data.drop s.cur ++ s.data.take s.cur = h.drop (h.length - n)

theorem TakeLastInv.out {n : Nat} {s : Ops.TakeLastSt α} {h : List α} (i : TakeLastInv n s h) :
    Ops.takeLastDrain (ε := ε) s.data s.cur s.data.length =
      (h.drop (h.length - n)).map Call.next := by
  rcases i.cur with hc | hc
  · rw [takeLastDrain_eq _ _ _ (Nat.le_refl _) hc, ← i.content]
    rw [List.take_of_length_le (by simp; omega)]
  · rcases hd : s.data with _ | ⟨x, xs⟩
    · have := i.content; rw [hd] at this; simp at this
      simp [Ops.takeLastDrain]
      omega
    · rw [← hd, takeLastDrain_eq _ _ _ (Nat.le_refl _) (by rw [hc, hd]; simp), ← i.content]
      rw [List.take_of_length_le (by simp; omega)]

theorem TakeLastInv.step {n : Nat} {s : Ops.TakeLastSt α} {h : List α} (i : TakeLastInv n s h) (a : α) :
    TakeLastInv n ((Ops.takeLast (ε := ε) n).onNext a s).st (h ++ [a]) ∧
      ((Ops.takeLast (ε := ε) n).onNext a s).out = [] ∧
      ((Ops.takeLast (ε := ε) n).onNext a s).throws = none := by
  obtain ⟨hcap, hcur, hlen, hearly, hcont⟩ := i
  simp only [Ops.takeLast]
  by_cases h0 : s.cap = 0
  · simp only [h0, if_true, and_self, and_true]
    have hn : n = 0 := by omega
    subst hn
    have : s.data = [] := List.eq_nil_of_length_eq_zero (by omega)
    exact ⟨hcap, hcur, by simp [this], hearly, by simp [this]⟩
  · by_cases h1 : s.data.length < s.cap
    · simp only [h0, h1, if_true, if_false, and_self, and_true]
      have hc0 := hearly (by omega)
      refine ⟨hcap, Or.inr hc0, by simp; omega, fun _ => hc0, ?_⟩
      rw [hc0] at hcont ⊢
      simp only [List.drop_zero, List.take_zero, List.append_nil] at hcont ⊢
      have : h.length - n = 0 := by omega
      rw [this] at hcont
      rw [hcont, List.length_append, show h.length + [a].length - n = 0 by simp; omega]
      simp
    · simp only [h0, h1, if_false, and_self, and_true]
      have hlt : s.cur < s.data.length := by omega
      refine ⟨hcap, ?_, by simp; omega, ?_, ?_⟩
      · simp only [List.length_set, Ops.takeLastNext]; split <;> omega
      · simp only [List.length_set]; intro; omega
      · have hh : h.length - n + 1 = (h ++ [a]).length - n := by simp; omega
        rw [← hh, List.drop_append_of_le_length (by omega), ← List.drop_drop, ← hcont]
        rw [List.drop_eq_getElem_cons hlt]
        simp only [List.cons_append, List.drop_succ_cons, List.drop_zero, Ops.takeLastNext]
        split
        · have : s.cur + 1 = s.data.length := by omega
          simp only [List.drop_zero, List.take_zero, List.append_nil, this, List.drop_length,
            List.nil_append]
          rw [List.set_eq_take_append_cons_drop, if_pos hlt, this, List.drop_length]
        · rw [List.set_eq_take_append_cons_drop, if_pos hlt]
          rw [List.drop_append, List.take_append]
          simp only [List.length_take, Nat.min_eq_left (Nat.le_of_lt hlt)]
          rw [List.drop_of_length_le (by simp; omega)]
          simp [List.take_take, show s.cur + 1 - s.cur = 1 by omega, Nat.min_eq_right]

theorem trans_takeLast (n : Nat) (cs : List (Call α ε)) :
    ∀ s h, TakeLastInv n s h → traceOf ((Ops.takeLast n).trans s cs) =
      Spec.takeLast n ⟨h ++ (traceOf cs).vals, (traceOf cs).fin⟩ := by
  induction cs with
  | nil => intro s h i; rfl
  | cons c cs ih =>
    intro s h i
    cases c with
    | next a =>
      obtain ⟨i', ho, ht⟩ := i.step (ε := ε) a
      have h1 := ih _ _ i'
      simp only [OpStrategy.trans, OpStrategy.feed, ho, ht, List.nil_append, h1, traceOf_next]
      simp
    | up d => exact ih s h i
    | error e => rfl
    | completed =>
      simp only [OpStrategy.trans, OpStrategy.feed]
      simp only [Ops.takeLast, i.out, Spec.takeLast, traceOf_completed, List.append_nil]
      generalize h.drop (h.length - n) = l
      induction l with
      | nil => rfl
      | cons x xs ih2 => simp only [List.map_cons, List.cons_append, traceOf_next, ih2]

/-- Every operator's transducer computes its specification. -/
theorem Op.trans_spec : (o : Op ε α β) → o.WF → (cs : List (Call α ε)) →
    traceOf (o.strategy.initOut ++ o.strategy.trans o.strategy.init cs) = o.spec (traceOf cs)
  | .map f, _, cs => trans_map f cs ()
  | .filter p, _, cs => trans_filter p cs ()
  | .take n, _, cs => trans_take cs n n
  | .skip n, _, cs => trans_skip cs n n
  | .takeWhile p, _, cs => trans_takeWhile p cs ()
  | .takeLast n, _, cs => trans_takeLast n cs _ [] ⟨rfl, Or.inr rfl, by simp [strategy, Ops.takeLast],
      fun _ => rfl, by simp [strategy, Ops.takeLast]⟩
  | .first e, _, cs => trans_first e cs ()
  | .last e, _, cs => trans_last e cs none
  | .elementAt i e, h, cs => by
      have : Ops.addSize i 1 = i + 1 := Nat.mod_eq_of_lt h
      show traceOf ((Ops.elementAt i e).trans (Ops.addSize i 1) cs) = _
      rw [this]; exact trans_elementAt i e cs i
  | @Op.distinct _ _ inst, h, cs => by
      have := @trans_distinct _ _ inst h cs []
      rw [List.filter_eq_self.mpr (by simp)] at this
      exact this
  | .distinctUntilChanged eq, _, cs => trans_duc eq cs none
  | .scan s f, _, cs => by
      show traceOf (Call.next s :: (Ops.scan s f).trans s cs) = _
      rw [traceOf_next, trans_scan]; rfl
  | .scanNoSeed f, _, cs => trans_scanNoSeed f cs
  | .reduce s f, _, cs => trans_reduce s f cs s
  | .reduceNoSeed f, _, cs => trans_reduceNoSeed f cs
  | .buffer n, _, cs => trans_buffer n cs [] (by simp; omega)
  | .tap cb, _, cs => trans_tap cb cs []
  | .finallyOp d, _, cs => trans_finally d cs ()
  | .throttle d, _, cs => trans_throttle d cs none

theorem Pipe.trans_spec : {α γ : Type} → (p : Pipe ε α γ) → p.WF → (cs : List (Call α ε)) →
    traceOf (p.trans cs) = p.spec (traceOf cs)
  | _, _, .nil, _, cs => rfl
  | _, _, .cons o p, h, cs => by
    rw [Pipe.trans, p.trans_spec h.2, o.trans_spec h.1]; rfl

end Rpp
