import Verif.Net.Flat
import Verif.Net.AllProofs

/-! What `merge` of observables made on the fly does. -/

namespace Rpp.Net

open Comb (Sig sigVals ofTaken)

variable {α ι ε : Type}

/-- The invariant: the inner observables 0 … m - 1 are the sources 1 … m, and the outer one sends nothing but its end to the hub (its values
are the subscriptions). -/
structure FInv (h : Comb.St α α ε Nat) (m : Nat) : Prop where
  run : ∃ ls, h = Comb.exec Comb.mergeHub ls
  ports : ∀ k, h.active k = true ↔ k ≤ m
  tame : Tame h
  outer : Comb.received 0 h.log = (outerFin h).toList.map .term

theorem finv_init : FInv (Comb.mergeHub : Comb.Hub α α ε Nat).initSt 0 :=
  ⟨⟨[], rfl⟩, fun k => by simp [Comb.Hub.initSt, Comb.mergeHub], ⟨fun i e he => (by cases he), fun i e he => (by cases he)⟩, rfl⟩

theorem flat_calm (h : Comb.St α α ε Nat) (a : FlatAct) : Calm h (flatAct h a) := by
  cases a with
  | run i => exact calm_run Comb.mergeHub h i
  | ret i => exact calm_ret Comb.mergeHub h i _
  | gone => exact calm_gone Comb.mergeHub h
  | shut => exact calm_shut Comb.mergeHub h

theorem flat_tame {h : Comb.St α α ε Nat} (ht : Tame h) (a : FlatAct) : Tame (flatAct h a) := by
  cases a with
  | run i => exact tame_run Comb.mergeHub ht i
  | ret i => exact tame_ret Comb.mergeHub ht i
  | gone =>
    show Tame (Comb.step Comb.mergeHub h .gone)
    simp only [Comb.step]; split
    · exact ht
    · exact tame_emit (s := { h with gone := true }) ht _ (fun j c h => by cases h)
  | shut =>
    show Tame (Comb.step Comb.mergeHub h .shut)
    simp only [Comb.step]; split <;> exact ht

theorem step_run {h : Comb.St α α ε Nat} (hr : ∃ ls, h = Comb.exec Comb.mergeHub ls) (l : Comb.Lbl α ε) :
    ∃ ls, Comb.step Comb.mergeHub h l = Comb.exec Comb.mergeHub ls := by
  obtain ⟨ls, rfl⟩ := hr
  exact ⟨ls ++ [l], by simp [Comb.exec, List.foldl_append]⟩

theorem outerFin_congr {h h' : Comb.St α α ε Nat} (e : Comb.received 0 h'.log = Comb.received 0 h.log) : outerFin h' = outerFin h := by
  unfold outerFin; rw [e]

theorem finv_act {h : Comb.St α α ε Nat} {m : Nat} (hi : FInv h m) (a : FlatAct) : FInv (flatAct h a) m := by
  have c := flat_calm h a
  refine ⟨?_, fun k => by rw [c.active]; exact hi.ports k, flat_tame hi.tame a, by rw [c.recv, outerFin_congr (c.recv 0)]; exact hi.outer⟩
  cases a with
  | run i => exact step_run hi.run (.run i)
  | ret i => exact step_run hi.run (.ret i .ok)
  | gone => exact step_run hi.run .gone
  | shut => exact step_run hi.run .shut

/-- Subscribing to the next inner observable. -/
theorem open_step {h : Comb.St α α ε Nat} {m : Nat} (hi : FInv h m) (hr : outerReady h = true) :
    FInv (Comb.step Comb.mergeHub h (.opn (m + 1))) (m + 1) ∧
    (∀ i, Comb.received i (Comb.step Comb.mergeHub h (.opn (m + 1))).log = Comb.received i h.log) ∧
    Comb.begs (Comb.step Comb.mergeHub h (.opn (m + 1))).log = Comb.begs h.log := by
  simp only [outerReady, Bool.and_eq_true, Bool.not_eq_true'] at hr
  obtain ⟨⟨⟨h1, h2⟩, h3⟩, h4⟩ := hr
  have h5 : h.active (m + 1) = false := by
    cases hm : h.active (m + 1) with
    | false => rfl
    | true => have := (hi.ports (m + 1)).1 hm; omega
  have e : Comb.step Comb.mergeHub h (.opn (m + 1)) =
      ({ h with st := h.st + 1, active := fun j => if j = m + 1 then true else h.active j }.goto 0 .opening |>.emit (.opened (m + 1))) := by
    rw [Comb.step, if_pos (by rw [h1, h2, h3, h4, h5]; rfl)]
    rfl
  have hrec : ∀ i, Comb.received i (Comb.step Comb.mergeHub h (.opn (m + 1))).log = Comb.received i h.log := by
    intro i
    rw [e]
    show Comb.received i (h.log ++ [.opened (m + 1)]) = _
    rw [Comb.received_snoc]; exact List.append_nil _
  refine ⟨⟨step_run hi.run _, fun k => ?_, ?_, by rw [hrec, outerFin_congr (hrec 0)]; exact hi.outer⟩, hrec, ?_⟩
  · rw [e]
    show (if k = m + 1 then true else h.active k) = true ↔ _
    split
    · next hk => simp [hk]
    · next hk => rw [hi.ports]; omega
  · rw [e]
    exact tame_emit (tame_goto hi.tame _ _ (fun e he => by cases he) _ h.lock h.gone h.done _) _ (fun j c h => by cases h)
  · rw [e]
    show Comb.begs (h.log ++ [.opened (m + 1)]) = _
    rw [Comb.begs_snoc]; exact List.append_nil _

theorem ready_none {h : Comb.St α α ε Nat} {m : Nat} (hi : FInv h m) (hr : outerReady h = true) : outerFin h = none := by
  cases hf : outerFin h with
  | none => rfl
  | some t' =>
    have ho := hi.outer
    rw [hf] at ho
    obtain ⟨ls, rfl⟩ := hi.run
    have : (Comb.exec Comb.mergeHub ls).done 0 = true := ((Comb.inv1 _ ls).done 0).2 ⟨t', Comb.mem_received.1 (by rw [ho]; simp)⟩
    simp only [outerReady, this, Bool.not_true, Bool.and_false, Bool.false_and] at hr
    cases hr

/-- The outer observable ends. -/
theorem end_step {h : Comb.St α α ε Nat} {m : Nat} (hi : FInv h m) (hr : outerReady h = true) (t : Term ε) :
    FInv (Comb.step Comb.mergeHub h (.term 0 t)) m ∧ outerFin h = none ∧ outerFin (Comb.step Comb.mergeHub h (.term 0 t)) = some t ∧
    (∀ i, Comb.received (i + 1) (Comb.step Comb.mergeHub h (.term 0 t)).log = Comb.received (i + 1) h.log) ∧
    Comb.begs (Comb.step Comb.mergeHub h (.term 0 t)).log = Comb.begs h.log := by
  have hn := ready_none hi hr
  simp only [outerReady, Bool.and_eq_true, Bool.not_eq_true'] at hr
  obtain ⟨⟨⟨h1, h2⟩, h3⟩, h4⟩ := hr
  have e : Comb.step Comb.mergeHub h (.term 0 t) =
      ({ h with done := fun j => if j = 0 then true else h.done j }.goto 0 (.pre (.term t)) |>.emit (.recv 0 (.term t))) := by
    rw [Comb.step, if_pos (by rw [h1, h2, h3, h4]; rfl)]
  have h0 : Comb.received 0 h.log = [] := by rw [hi.outer, hn]; rfl
  have hl : (Comb.step Comb.mergeHub h (.term 0 t)).log = h.log ++ [.recv 0 (.term t)] := by rw [e]; rfl
  have h0' : Comb.received 0 (Comb.step Comb.mergeHub h (.term 0 t)).log = [.term t] := by
    rw [hl, Comb.received_snoc, h0]; rfl
  have hf : outerFin (Comb.step Comb.mergeHub h (.term 0 t)) = some t := by
    unfold outerFin; rw [h0']; rfl
  refine ⟨⟨step_run hi.run _, fun k => by rw [e]; exact hi.ports k, ?_, by rw [h0', hf]; rfl⟩, hn, hf, fun i => ?_, ?_⟩
  · rw [e]
    exact tame_emit (tame_goto hi.tame _ _ (fun e he => by cases he) h.st h.lock h.gone _ h.active) _ (fun j c h => by cases h)
  · rw [hl, Comb.received_snoc]; exact List.append_nil _
  · rw [hl, Comb.begs_snoc]; exact List.append_nil _

/-- An inner observable notifies. -/
theorem inner_step {h : Comb.St α α ε Nat} {m : Nat} (hi : FInv h m) {k : Nat} (hr : innerReady h k = true) (x : Sig α ε) :
    FInv (Comb.step Comb.mergeHub h (lbl (k + 1) x)) m ∧ outerFin (Comb.step Comb.mergeHub h (lbl (k + 1) x)) = outerFin h ∧
    Comb.received (k + 1) (Comb.step Comb.mergeHub h (lbl (k + 1) x)).log = Comb.received (k + 1) h.log ++ [x] ∧
    (∀ i, i ≠ k + 1 → Comb.received i (Comb.step Comb.mergeHub h (lbl (k + 1) x)).log = Comb.received i h.log) ∧
    Comb.begs (Comb.step Comb.mergeHub h (lbl (k + 1) x)).log = Comb.begs h.log := by
  obtain ⟨e, -, -⟩ := feed_step Comb.mergeHub (k + 1) (· + 1) h k x (by
    simp only [hubMachine, Nat.lt_succ_self, decide_true, Bool.and_true]; exact hr)
  have hl : (Comb.step Comb.mergeHub h (lbl (k + 1) x)).log = h.log ++ [.recv (k + 1) x] := by rw [e]; rfl
  have hrec : ∀ i, i ≠ k + 1 → Comb.received i (Comb.step Comb.mergeHub h (lbl (k + 1) x)).log = Comb.received i h.log := by
    intro i hik
    have : ¬ k + 1 = i := fun h => hik h.symm
    rw [hl, Comb.received_snoc]
    simp only [this, if_false, List.append_nil]
  have hf := outerFin_congr (hrec 0 (Nat.succ_ne_zero k).symm)
  refine ⟨⟨step_run hi.run _, fun k => by rw [e]; exact hi.ports k, ?_, by rw [hrec 0 (Nat.succ_ne_zero k).symm, hf]; exact hi.outer⟩, hf, ?_, hrec, ?_⟩
  · rw [e]
    exact tame_emit (tame_goto hi.tame _ _ (fun e he => by cases he) h.st h.lock h.gone _ h.active) _ (fun j c h => by cases h)
  · rw [hl, Comb.received_snoc]; simp
  · rw [hl, Comb.begs_snoc]; exact List.append_nil _

theorem fresh {h : Comb.St α α ε Nat} {m : Nat} (hi : FInv h m) {k : Nat} (hk : m ≤ k) : Comb.received (k + 1) h.log = [] := by
  have hports := hi.ports
  obtain ⟨ls, rfl⟩ := hi.run
  cases hr : Comb.received (k + 1) (Comb.exec (Comb.mergeHub : Comb.Hub α α ε Nat) ls).log with
  | nil => rfl
  | cons x r =>
    have hx : .recv (k + 1) x ∈ (Comb.exec (Comb.mergeHub : Comb.Hub α α ε Nat) ls).log := Comb.mem_received.1 (by rw [hr]; exact List.mem_cons_self)
    have := (hports (k + 1)).1 (((Comb.inv1 _ ls).active (k + 1)).2 (Comb.recv_active (Comb.inv2 _ ls) hx))
    omega

/-! ## What it tells -/

/-- What `merge` has told its observer; read off the history, models no code. -/
abbrev flatTold (h : Comb.St α α ε Nat) : List (Sig α ε) := (Comb.begs h.log).map (·.2)

theorem flat_told_seq {h : Comb.St α α ε Nat} (hr : ∃ ls, h = Comb.exec Comb.mergeHub ls) :
    (seqOf (flatTold h)).vals = Comb.values h.log ∧ ∀ t, (seqOf (flatTold h)).fin = some t → ∃ i, .beg i (.term t) ∈ h.log := by
  obtain ⟨ls, rfl⟩ := hr
  refine ⟨?_, fun t ht => ?_⟩
  · exact (seqOf_vals _ (begs_last (Comb.inv2 Comb.mergeHub ls).legal)).trans (values_told _)
  · have := seqOf_fin _ _ ht
    obtain ⟨⟨i, o⟩, hm, ho⟩ := List.mem_map.1 this
    cases ho; exact ⟨i, Comb.mem_begs.1 hm⟩

theorem flat_not_ended {h : Comb.St α α ε Nat} {m : Nat} (hi : FInv h m) (hf : (seqOf (flatTold h)).fin = none) : ¬ Comb.Ended h.log := by
  have ht := hi.tame
  obtain ⟨ls, rfl⟩ := hi.run
  rintro (⟨i, t, hb⟩ | ⟨i, e, ho⟩)
  · have := seqOf_ended (flatTold (Comb.exec Comb.mergeHub ls)) (begs_last (Comb.inv2 Comb.mergeHub ls).legal) (t := t)
      (List.mem_map.2 ⟨(i, .term t), Comb.mem_begs.2 hb, rfl⟩)
    rw [hf] at this; cases this
  · exact ht.2 i e ho

theorem outerFin_iff {h : Comb.St α α ε Nat} {m : Nat} (hi : FInv h m) (t : Term ε) : outerFin h = some t ↔ .recv 0 (.term t) ∈ h.log := by
  constructor
  · intro e
    refine Comb.mem_received.1 ?_
    rw [hi.outer, e]; simp
  · intro hm
    have := Comb.mem_received.2 hm
    rw [hi.outer] at this
    obtain ⟨t', h1, h2⟩ := List.mem_map.1 this
    cases h2
    exact Option.mem_toList.1 h1

theorem flat_makes {h : Comb.St α α ε Nat} {m : Nat} (hi : FInv h m) :
    FlatMakes m (outerFin h) (fun k => Comb.received (k + 1) h.log) (seqOf (flatTold h)) := by
  obtain ⟨hv, hf⟩ := flat_told_seq hi.run
  have hfin := fun t => outerFin_iff hi t
  have hports := hi.ports
  obtain ⟨ls, rfl⟩ := hi.run
  have hlt : ∀ i c, .recv i c ∈ (Comb.exec (Comb.mergeHub : Comb.Hub α α ε Nat) ls).log → i ≤ m := fun i c hr =>
    (hports i).1 (((Comb.inv1 _ ls).active i).2 (Comb.recv_active (Comb.inv2 _ ls) hr))
  have hb : ∀ v, (0, .next v) ∉ Comb.begs (Comb.exec (Comb.mergeHub : Comb.Hub α α ε Nat) ls).log := fun v hm =>
    (Comb.C23_origin ls 0 v (Comb.mem_begs.1 hm)).1 rfl
  refine ⟨(Comb.nextsP (Comb.begs (Comb.exec (Comb.mergeHub : Comb.Hub α α ε Nat) ls).log)).map fun p => (p.1 - 1, p.2), ?_, ?_, ?_, ?_, ?_⟩
  · refine hv.trans ?_
    rw [Comb.values_eq, Comb.nexts_eq, List.map_map]; rfl
  · intro p hp
    obtain ⟨⟨i, v⟩, hm, rfl⟩ := List.mem_map.1 hp
    have : .beg i (.next v) ∈ (Comb.exec (Comb.mergeHub : Comb.Hub α α ε Nat) ls).log := by
      refine Comb.mem_begs.1 ?_
      simp only [Comb.nextsP, List.mem_filterMap] at hm
      obtain ⟨⟨j, o⟩, hm, e⟩ := hm
      cases o <;> simp at e
      obtain ⟨rfl, rfl⟩ := e; exact hm
    obtain ⟨h1, h2⟩ := Comb.C23_origin ls i v this
    have := hlt _ _ h2
    simp only; omega
  · intro k _
    rw [ofTaken_begs _ hb]
    exact Comb.C23_prefix ls (k + 1) (Nat.succ_ne_zero k)
  · intro hc
    obtain ⟨j, hj⟩ := hf _ hc
    obtain ⟨h0, h1⟩ := Comb.C23_completes_last ls j hj
    refine ⟨(hfin _).2 h0, fun k hk => ?_⟩
    have ha := ((Comb.inv1 _ ls).active (k + 1)).1 ((hports (k + 1)).2 hk)
    have ho : .opened (k + 1) ∈ (Comb.exec (Comb.mergeHub : Comb.Hub α α ε Nat) ls).log := by
      rcases ha with ha | ha
      · simp [Comb.mergeHub] at ha
      · exact ha
    obtain ⟨h2, h3⟩ := h1 _ ho
    rw [ofTaken_begs _ hb]
    exact ⟨Comb.mem_received.2 h2, h3⟩
  · intro e he
    obtain ⟨i, hi⟩ := hf _ he
    have hr := Comb.C23_error_origin ls i e hi
    cases i with
    | zero => exact .inl ((hfin _).2 hr)
    | succ i => exact .inr ⟨i, hlt _ _ hr, Comb.mem_received.2 hr, by rw [ofTaken_begs _ hb]; exact Comb.C23_error_order ls _ e (Nat.succ_ne_zero i) hi⟩

theorem flat_all {h : Comb.St α α ε Nat} {m : Nat} (hi : FInv h m) (hr : ∀ i, h.calls i = .idle) (hc : .gone ∉ h.log)
    (hf : (seqOf (flatTold h)).fin = none) :
    FlatAll m (outerFin h) (fun k => Comb.received (k + 1) h.log) (seqOf (flatTold h)).vals := by
  have he := flat_not_ended hi hf
  have hfin := fun t => outerFin_iff hi t
  obtain ⟨hv, -⟩ := flat_told_seq hi.run
  have ht := hi.tame.2
  have hports := hi.ports
  obtain ⟨ls, rfl⟩ := hi.run
  have hlt : ∀ i c, .recv i c ∈ (Comb.exec (Comb.mergeHub : Comb.Hub α α ε Nat) ls).log → i ≤ m := fun i c hr =>
    (hports i).1 (((Comb.inv1 _ ls).active i).2 (Comb.recv_active (Comb.inv2 _ ls) hr))
  have hb : ∀ v, (0, .next v) ∉ Comb.begs (Comb.exec (Comb.mergeHub : Comb.Hub α α ε Nat) ls).log := fun v hm =>
    (Comb.C23_origin ls 0 v (Comb.mem_begs.1 hm)).1 rfl
  refine ⟨⟨(Comb.nextsP (Comb.begs (Comb.exec (Comb.mergeHub : Comb.Hub α α ε Nat) ls).log)).map fun p => (p.1 - 1, p.2), ?_, ?_, ?_⟩, ?_, ?_, ?_⟩
  · refine hv.trans ?_
    rw [Comb.values_eq, Comb.nexts_eq, List.map_map]; rfl
  · intro p hp
    obtain ⟨⟨i, v⟩, hm, rfl⟩ := List.mem_map.1 hp
    have : .beg i (.next v) ∈ (Comb.exec (Comb.mergeHub : Comb.Hub α α ε Nat) ls).log := by
      refine Comb.mem_begs.1 ?_
      simp only [Comb.nextsP, List.mem_filterMap] at hm
      obtain ⟨⟨j, o⟩, hm, e⟩ := hm
      cases o <;> simp at e
      obtain ⟨rfl, rfl⟩ := e; exact hm
    obtain ⟨h1, h2⟩ := Comb.C23_origin ls i v this
    have := hlt _ _ h2
    simp only; omega
  · intro k _
    rw [ofTaken_begs _ hb]
    exact Comb.C23_lossless ls (k + 1) (Nat.succ_ne_zero k) (hr _) hc he
  · intro e h0
    exact (Comb.C23_error_ends ls 0 e ((hfin _).1 h0) (hr _)).elim hc he
  · intro k _ e hm
    exact (Comb.C23_error_ends ls (k + 1) e (Comb.mem_received.1 hm) (hr _)).elim hc he
  · rintro ⟨h0, hall⟩
    have hK : ∀ k, .opened k ∈ (Comb.exec (Comb.mergeHub : Comb.Hub α α ε Nat) ls).log →
        .recv k (.term .completed) ∈ (Comb.exec (Comb.mergeHub : Comb.Hub α α ε Nat) ls).log := fun k hk => by
      have h1 := (hports k).1 (((Comb.inv1 _ ls).active k).2 (.inr hk))
      have h2 : k ≠ 0 := by
        rintro rfl
        obtain ⟨p, q, e⟩ := List.append_of_mem hk
        exact ((Comb.inv2 Comb.mergeHub ls).legal p _ q e).1 (by simp [Comb.mergeHub])
      obtain ⟨k, rfl⟩ : ∃ i, k = i + 1 := ⟨k - 1, by omega⟩
      exact Comb.mem_received.1 (hall k (by omega))
    obtain ⟨i, hi⟩ := Comb.C23_completes ls hr ((hfin _).1 h0) hK hc ht
    exact he (.inl ⟨i, _, hi⟩)

/-! ## Nothing is refused -/

theorem flat_open {h : Comb.St α α ε Nat} {m : Nat} (hi : FInv h m) (hc : .gone ∉ h.log) (hf : (seqOf (flatTold h)).fin = none) : h.shut = false := by
  have he := flat_not_ended hi hf
  obtain ⟨ls, rfl⟩ := hi.run
  have hg := Comb.not_gone ls hc he
  cases hs : (Comb.exec (Comb.mergeHub : Comb.Hub α α ε Nat) ls).shut with
  | false => rfl
  | true => rw [(Comb.inv1 _ ls).shut hs] at hg; cases hg

theorem flat_done {h : Comb.St α α ε Nat} (hr : ∃ ls, h = Comb.exec Comb.mergeHub ls) (i : Nat) (hd : h.done i = true) :
    ∃ t, .term t ∈ Comb.received i h.log := by
  obtain ⟨ls, rfl⟩ := hr
  obtain ⟨t, ht⟩ := ((Comb.inv1 _ ls).done i).1 hd
  exact ⟨t, Comb.mem_received.2 ht⟩

/-! ## What reaches it -/

theorem prefix_more {α : Type} {l m : List α} {x : α} (h : l <+: m) (hx : m[l.length]? = some x) : l ++ [x] <+: m := by
  obtain ⟨r, rfl⟩ := h
  cases r with
  | nil => simp at hx
  | cons y r =>
    simp at hx; subst hx
    exact ⟨r, by simp⟩

/-- `merge` has subscribed to what the outer observable said, and nothing reaches it that an inner one did not say; `says z` is the
sequence of the inner observable `z`, `key z` the value it was made of. -/
structure FGood {Z : Type} (key : Z → ι) (says : Z → Trace α ε) (h : Comb.St α α ε Nat) (o : Trace ι ε) (zs : List Z) : Prop where
  inv : FInv h zs.length
  pre : notes (⟨zs.map key, outerFin h⟩ : Trace ι ε) <+: notes o
  kids : ∀ (k : Nat) z, zs[k]? = some z → Comb.received (k + 1) h.log <+: notes (says z)

variable {Z : Type} {key : Z → ι} {says : Z → Trace α ε} {h : Comb.St α α ε Nat} {o : Trace ι ε} {zs : List Z}

theorem fgood_init (key : Z → ι) (says : Z → Trace α ε) (o : Trace ι ε) : FGood key says (Comb.mergeHub : Comb.Hub α α ε Nat).initSt o [] :=
  ⟨finv_init, List.nil_prefix, fun k z hk => by simp at hk⟩

theorem fgood_act (hg : FGood key says h o zs) (a : FlatAct) : FGood key says (flatAct h a) o zs := by
  have c := flat_calm h a
  refine ⟨finv_act hg.inv a, ?_, fun k z hk => ?_⟩
  · rw [outerFin_congr (c.recv 0)]; exact hg.pre
  · rw [c.recv]; exact hg.kids k z hk

theorem begs_act (h : Comb.St α α ε Nat) (a : FlatAct) : flatTold h <+: flatTold (flatAct h a) := by
  obtain ⟨r, hr⟩ := (flat_calm h a).told
  unfold flatTold
  simp only [hr, Comb.begs, List.filterMap_append, List.map_append]
  exact List.prefix_append ..

/-- The cases of `pushOuter`. -/
theorem pushOuter_cases (hg : FGood key says h o zs) (mk : ι → Z) (hmk : ∀ x, key (mk x) = x) :
    (outerNext h (zs.map key) o = none ∧ pushOuter h (zs.map key) zs mk o = (h, zs)) ∨
    ((∃ x, (notes o)[zs.length]? = some (.next x) ∧ outerFin h = none ∧ outerReady h = true ∧
      pushOuter h (zs.map key) zs mk o = (Comb.step Comb.mergeHub h (.opn (zs.length + 1)), zs ++ [mk x]) ∧
      notes (⟨(zs ++ [mk x]).map key, none⟩ : Trace ι ε) <+: notes o) ∨
    (∃ t, (notes o)[zs.length]? = some (.term t) ∧ outerFin h = none ∧ outerReady h = true ∧
      pushOuter h (zs.map key) zs mk o = (Comb.step Comb.mergeHub h (.term 0 t), zs) ∧
      notes (⟨zs.map key, some t⟩ : Trace ι ε) <+: notes o)) := by
  cases hr : outerReady h with
  | false =>
    left
    have : outerNext h (zs.map key) o = none := by unfold outerNext; rw [hr]; rfl
    exact ⟨this, by unfold pushOuter; rw [this]⟩
  | true =>
    have hn := ready_none hg.inv hr
    have e : outerNext h (zs.map key) o = (notes o)[zs.length]? := by
      unfold outerNext; rw [hr, hn]; simp [notes]
    have hp := hg.pre
    rw [hn] at hp
    have hl : (notes (⟨zs.map key, none⟩ : Trace ι ε)).length = zs.length := by simp [notes]
    cases hx : (notes o)[zs.length]? with
    | none => exact .inl ⟨by rw [e, hx], by unfold pushOuter; rw [e, hx]⟩
    | some x =>
      have := prefix_more hp (by rw [hl]; exact hx)
      cases x with
      | next x =>
        refine .inr (.inl ⟨x, rfl, hn, rfl, by unfold pushOuter; rw [e, hx], ?_⟩)
        simpa [notes, hmk] using this
      | term t =>
        refine .inr (.inr ⟨t, rfl, hn, rfl, by unfold pushOuter; rw [e, hx], ?_⟩)
        simpa [notes] using this

theorem fgood_outer (hg : FGood key says h o zs) (mk : ι → Z) (hmk : ∀ x, key (mk x) = x) :
    FGood key says (pushOuter h (zs.map key) zs mk o).1 o (pushOuter h (zs.map key) zs mk o).2 ∧
    flatTold (pushOuter h (zs.map key) zs mk o).1 = flatTold h ∧
    ∀ (k : Nat) z, (pushOuter h (zs.map key) zs mk o).2[k]? = some z → zs[k]? = some z ∨ ∃ x, z = mk x := by
  rcases pushOuter_cases hg mk hmk with ⟨-, e⟩ | ⟨x, hx, hn, hr, e, hp⟩ | ⟨t, ht, hn, hr, e, hp⟩
  · rw [e]; exact ⟨hg, rfl, fun k z hk => .inl hk⟩
  · rw [e]
    obtain ⟨h1, h2, h3⟩ := open_step hg.inv hr
    have hsp : ∀ (k : Nat) z, (zs ++ [mk x])[k]? = some z → zs[k]? = some z ∨ k = zs.length ∧ z = mk x := by
      intro k z hk
      rw [List.getElem?_append] at hk
      split at hk
      · exact .inl hk
      · next hlt =>
        right
        cases hkl : k - zs.length with
        | zero => rw [hkl] at hk; simp at hk; exact ⟨by omega, hk.symm⟩
        | succ d => rw [hkl] at hk; simp at hk
    refine ⟨⟨by simpa using h1, ?_, fun k z hk => ?_⟩, by simp only [flatTold, h3], fun k z hk => ?_⟩
    · rw [outerFin_congr (h2 0), hn]; exact hp
    · rw [h2]
      rcases hsp k z hk with hk | ⟨rfl, rfl⟩
      · exact hg.kids k z hk
      · rw [fresh hg.inv (Nat.le_refl _)]; exact List.nil_prefix
    · rcases hsp k z hk with hk | ⟨-, hk⟩
      · exact .inl hk
      · exact .inr ⟨x, hk⟩
  · rw [e]
    obtain ⟨h1, -, h2, h3, h4⟩ := end_step hg.inv hr t
    refine ⟨⟨h1, ?_, fun k z hk => ?_⟩, by simp only [flatTold, h4], fun k z hk => .inl hk⟩
    · rw [h2]; exact hp
    · rw [h3]; exact hg.kids k z hk

/-- The cases of `pushInner`. -/
theorem pushInner_cases (h : Comb.St α α ε Nat) (k : Nat) (o : Trace α ε) :
    pushInner h k o = h ∨ ∃ x, (notes o)[(Comb.received (k + 1) h.log).length]? = some x ∧ innerReady h k = true ∧
      pushInner h k o = Comb.step Comb.mergeHub h (lbl (k + 1) x) := by
  unfold pushInner
  split
  · next x hx =>
    by_cases hr : innerReady h k = true
    · exact .inr ⟨x, hx, hr, by simp only [hr, if_true]⟩
    · left; simp only [hr, if_false, Bool.false_eq_true]
  · exact .inl rfl

theorem fgood_inner (hg : FGood key says h o zs) (k : Nat) (z : Z) (hz : zs[k]? = some z) :
    FGood key says (pushInner h k (says z)) o zs ∧ flatTold (pushInner h k (says z)) = flatTold h := by
  rcases pushInner_cases h k (says z) with e | ⟨x, hx, hr, e⟩
  · rw [e]; exact ⟨hg, rfl⟩
  · rw [e]
    obtain ⟨h1, h2, h3, h4, h5⟩ := inner_step hg.inv hr x
    refine ⟨⟨h1, by rw [h2]; exact hg.pre, fun j w hw => ?_⟩, by simp only [flatTold, h5]⟩
    by_cases hj : j = k
    · subst hj
      rw [hz] at hw; cases hw
      rw [h3]
      exact prefix_more (hg.kids j z hz) hx
    · rw [h4 (j + 1) (by omega)]; exact hg.kids j w hw

theorem fgood_src (hg : FGood key says h o zs) {o' : Trace ι ε} (ho : notes o <+: notes o') : FGood key says h o' zs :=
  ⟨hg.inv, hg.pre.trans ho, hg.kids⟩

theorem modify_get {zs : List Z} {k : Nat} {g : Z → Z} {j : Nat} {z : Z} (hj : (zs.modify k g)[j]? = some z) :
    ∃ w, zs[j]? = some w ∧ (j = k ∧ z = g w ∨ j ≠ k ∧ z = w) := by
  rw [List.getElem?_modify] at hj
  cases hz : zs[j]? with
  | none => rw [hz] at hj; simp at hj
  | some w =>
    rw [hz] at hj
    by_cases e : k = j
    · subst e; simp at hj; exact ⟨w, rfl, .inl ⟨rfl, hj.symm⟩⟩
    · simp [e] at hj; exact ⟨w, rfl, .inr ⟨fun h => e h.symm, hj.symm⟩⟩

/-- Something happens in inner observable `k`. -/
theorem fgood_kid (hg : FGood key says h o zs) (k : Nat) (g : Z → Z)
    (hk : ∀ z, zs[k]? = some z → key (g z) = key z ∧ notes (says z) <+: notes (says (g z))) : FGood key says h o (zs.modify k g) := by
  have hm : (zs.modify k g).map key = zs.map key := by
    apply List.ext_getElem?
    intro j
    simp only [List.getElem?_map, List.getElem?_modify]
    cases hj : zs[j]? with
    | none => rfl
    | some z =>
      by_cases e : k = j
      · subst e; simp [(hk z hj).1]
      · simp [e]
  refine ⟨by rw [List.length_modify]; exact hg.inv, by rw [hm]; exact hg.pre, fun j z hj => ?_⟩
  obtain ⟨w, hw, ⟨rfl, rfl⟩ | ⟨-, rfl⟩⟩ := modify_get hj
  · exact (hg.kids j w hw).trans (hk w hw).2
  · exact hg.kids j z hw

theorem stepAt_same {S : ι → Type} [DecidableEq ι] (x : ι) (g : S x → S x) (s : S x) : stepAt x g ⟨x, s⟩ = ⟨x, g s⟩ := by
  unfold stepAt; simp

theorem stepAt_ne {S : ι → Type} [DecidableEq ι] (x : ι) (g : S x → S x) (z : Σ x, S x) (hz : z.1 ≠ x) : stepAt x g z = z := by
  unfold stepAt; rw [dif_neg hz]

theorem stepAt_fst {S : ι → Type} [DecidableEq ι] (x : ι) (g : S x → S x) (z : Σ x, S x) : (stepAt x g z).1 = z.1 := by
  unfold stepAt
  split
  · next e => exact e.symm
  · rfl

end Rpp.Net
