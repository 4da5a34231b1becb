import Verif.Net.Machine

/-! The machines do what `Join.Makes` says. -/

namespace Rpp.Net

open Comb (Sig sigVals ofTaken row combineLatestSpec withLatestSpec)

variable {α β ε σ : Type}

/-! ## Sequences -/

theorem seqOf_vals (l : List (Sig α ε)) (h : ∀ p t q, l = p ++ .term t :: q → q = []) : (seqOf l).vals = sigVals l := by
  induction l with
  | nil => rfl
  | cons x l ih =>
    have ih := ih (fun p t q e => h (x :: p) t q (by rw [e]; rfl))
    cases x with
    | next v => simp only [seqOf, List.map_cons, toCall, traceOf] at ih ⊢; rw [ih]; rfl
    | term t =>
      obtain rfl := h [] t l rfl
      cases t <;> rfl

theorem seqOf_fin (l : List (Sig α ε)) (t : Term ε) (h : (seqOf l).fin = some t) : .term t ∈ l := by
  induction l with
  | nil => cases h
  | cons x l ih =>
    cases x with
    | next v => exact List.mem_cons_of_mem _ (ih h)
    | term t' =>
      cases t' <;> (simp only [seqOf, List.map_cons, toCall, Term.toCall, traceOf, Option.some.injEq] at h; subst h; exact List.mem_cons_self)

theorem seqOf_ended (l : List (Sig α ε)) (h : ∀ p t q, l = p ++ .term t :: q → q = []) {t : Term ε} (ht : .term t ∈ l) :
    (seqOf l).fin = some t := by
  induction l with
  | nil => cases ht
  | cons x l ih =>
    cases x with
    | next v =>
      refine ih (fun p t q e => h (.next v :: p) t q (by rw [e]; rfl)) ?_
      rcases List.mem_cons.1 ht with h' | h'
      · cases h'
      · exact h'
    | term t' =>
      obtain rfl := h [] t' l rfl
      rcases List.mem_cons.1 ht with h' | h'
      · cases h'; cases t <;> rfl
      · cases h'

/-! ## Hubs -/

theorem reach_ind {M : Machine α β ε} {P : M.S → Prop} (h0 : P M.init)
    (hf : ∀ s i x, M.Reach s → M.ready s i = true → P s → P (M.feed s i x)) (ha : ∀ s a, M.Reach s → P s → P (M.act s a))
    {s : M.S} (h : M.Reach s) : P s := by
  induction h with
  | init => exact h0
  | feed i x h hr ih => exact hf _ i x h hr ih
  | act a h ih => exact ha _ a h ih

section hub
variable (H : Comb.Hub α β ε σ) (n : Nat) (port : Nat → Nat)

theorem feed_step (s : Comb.St α β ε σ) (i : Nat) (x : Sig α ε) (h : (hubMachine H n port).ready s i = true) :
    Comb.step H s (lbl (port i) x) =
      ({ s with done := fun j => if j = port i ∧ x.isTerm then true else s.done j }.goto (port i) (.pre x) |>.emit (.recv (port i) x)) ∧
    i < n ∧ s.active (port i) = true := by
  simp only [hubMachine, Bool.and_eq_true, decide_eq_true_eq] at h
  obtain ⟨⟨⟨⟨h1, h2⟩, h3⟩, h4⟩, h5⟩ := h
  refine ⟨?_, h5, h2⟩
  cases x with
  | next v =>
    simp only [lbl, Comb.step, h1, h2, h3, h4, Bool.and_self, if_true]
    have e : (fun j => if j = port i ∧ (Sig.next v : Sig α ε).isTerm then true else s.done j) = s.done := by funext j; simp [Sig.isTerm]
    rw [e]
  | term t =>
    simp only [lbl, Comb.step, h1, h2, h3, h4, Bool.and_self, if_true]
    have e : (fun j => if j = port i ∧ (Sig.term t : Sig α ε).isTerm then true else s.done j) = fun j => if j = port i then true else s.done j := by
      funext j; simp [Sig.isTerm]
    rw [e]

theorem hub_exec {s : Comb.St α β ε σ} (h : (hubMachine H n port).Reach s) : ∃ ls, s = Comb.exec H ls := by
  have snoc : ∀ ls l, Comb.step H (Comb.exec H ls) l = Comb.exec H (ls ++ [l]) := fun ls l => by simp [Comb.exec, List.foldl_append]
  refine reach_ind (P := fun s => ∃ ls, s = Comb.exec H ls) ⟨[], rfl⟩ (fun s i x _ _ ih => ?_) (fun s a _ ih => ?_) h
  · obtain ⟨ls, rfl⟩ := ih; exact ⟨_, snoc _ _⟩
  · obtain ⟨ls, rfl⟩ := ih
    cases a with
    | opn k => simp only [hubMachine]; split; exact ⟨_, snoc _ _⟩; exact ⟨_, rfl⟩
    | outer => simp only [hubMachine]; split; exact ⟨_, snoc _ _⟩; exact ⟨_, rfl⟩
    | _ => simp only [hubMachine]; exact ⟨_, snoc _ _⟩

theorem begs_last {H : Comb.Hub α β ε σ} {log : List (Comb.Ev α β ε)} (h : Comb.Legal H log) :
    ∀ p t q, (Comb.begs log).map (·.2) = p ++ .term t :: q → q = [] := by
  induction log using Comb.snocInduct with
  | h0 => intro p t q e; simp [Comb.begs] at e
  | hs l ev ih =>
    obtain ⟨hL, ho⟩ := h.init
    intro p t q e
    rw [Comb.begs_snoc, List.map_append] at e
    have ih := ih hL
    cases ev with
    | beg i o =>
      simp only [List.map_cons, List.map_nil] at e
      rcases List.eq_nil_or_concat q with rfl | ⟨q', z, rfl⟩
      · rfl
      · rw [List.concat_eq_append, ← List.cons_append, ← List.append_assoc] at e
        obtain ⟨e1, -⟩ := List.append_inj' e rfl
        obtain rfl := ih p t q' e1
        exfalso
        have : (.term t : Sig β ε) ∈ (Comb.begs l).map (·.2) := by rw [e1]; simp
        obtain ⟨⟨j, o'⟩, hm, rfl⟩ := List.mem_map.1 this
        exact ho.2.2 (.inl ⟨j, t, Comb.mem_begs.1 hm⟩)
    | _ => exact ih p t q (by simpa using e)

theorem values_told (log : List (Comb.Ev α β ε)) : sigVals ((Comb.begs log).map (·.2)) = Comb.values log := by
  rw [Comb.values_eq]
  unfold sigVals Comb.nexts
  rw [List.filterMap_map]
  congr 1; funext p; rcases p with ⟨i, o⟩; cases o <;> rfl

theorem told_seq {s : Comb.St α β ε σ} (h : (hubMachine H n port).Reach s) :
    (seqOf ((hubMachine H n port).told s)).vals = Comb.values s.log ∧
    ∀ t, (seqOf ((hubMachine H n port).told s)).fin = some t → ∃ i, .beg i (.term t) ∈ s.log := by
  obtain ⟨ls, rfl⟩ := hub_exec H n port h
  refine ⟨?_, fun t ht => ?_⟩
  · exact (seqOf_vals _ (begs_last (Comb.inv2 H ls).legal)).trans (values_told _)
  · have := seqOf_fin _ _ ht
    obtain ⟨⟨i, o⟩, hm, ho⟩ := List.mem_map.1 this
    cases ho; exact ⟨i, Comb.mem_begs.1 hm⟩

/-- With fixed sources, only they notify. -/
theorem recv_lt {H : Comb.Hub α β ε σ} (hd : H.dyn = false) (hs : H.start = List.range n) (ls : List (Comb.Lbl α ε)) {i : Nat} {c : Sig α ε}
    (h : .recv i c ∈ (Comb.exec H ls).log) : i < n := by
  rcases Comb.recv_active (Comb.inv2 H ls) h with h | h
  · rw [hs] at h; exact List.mem_range.1 h
  · exact absurd h (Comb.no_opened hd ls i)

theorem got_eq (s : Comb.St α β ε σ) {i : Nat} (h : i < n) : (hubMachine H n port).got s i = Comb.received (port i) s.log := by
  simp only [hubMachine, h, if_true]

end hub

/-! ## zip, combine_latest, with_latest_from, take_until -/

theorem zip_makes (n : Nat) (sel : List α → Except ε β) {s} (h : (Join.zip n sel).machine.Reach s) :
    (Join.zip n sel).Makes ((Join.zip n sel).machine.got s) (seqOf ((Join.zip n sel).machine.told s)) := by
  obtain ⟨hv, hf⟩ := told_seq _ _ _ h
  obtain ⟨ls, rfl⟩ := hub_exec _ _ _ h
  have hg : ∀ i ≤ n, (Join.zip n sel).machine.got (Comb.exec (Comb.zipHub (n + 1) sel) ls) i = Comb.received i (Comb.exec (Comb.zipHub (n + 1) sel) ls).log :=
    fun i hi => got_eq _ _ _ _ (Nat.lt_succ_of_le hi)
  refine ⟨fun k w hk => ?_, fun hc => ?_, fun e he => ?_⟩
  · have hk : (Comb.values (Comb.exec (Comb.zipHub (n + 1) sel) ls).log)[k]? = some w := hv ▸ hk
    obtain ⟨h1, h2⟩ := Comb.C24_by_index _ (Nat.succ_pos n) sel ls k w hk
    refine ⟨?_, fun j hj => by rw [hg j hj]; exact h2 j (Nat.lt_succ_of_le hj)⟩
    rw [← h1]
    congr 1
    exact Comb.row_congr fun j hj => by rw [hg j (Nat.le_of_lt_succ hj)]
  · obtain ⟨i, hi⟩ := hf _ hc
    refine ⟨fun j hj => by rw [hg j hj]; exact Comb.mem_received.2 (Comb.C24_completes_last _ (Nat.succ_pos n) sel ls i hi j (Nat.lt_succ_of_le hj)), ?_⟩
    have hlen : (seqOf ((Join.zip n sel).machine.told (Comb.exec (Comb.zipHub (n + 1) sel) ls))).vals.length = _ := congrArg List.length hv
    rcases Comb.C24_complete_count _ (Nat.succ_pos n) sel ls i hi with ⟨j, hj, hl⟩ | ⟨e, he⟩
    · refine .inl ⟨j, Nat.le_of_lt_succ hj, ?_⟩
      rw [hg j (Nat.le_of_lt_succ hj), ← hl]
      exact hlen
    · refine .inr ⟨e, ?_⟩
      rw [hlen, ← he]
      congr 1
      exact Comb.row_congr fun j hj => by rw [hg j (Nat.le_of_lt_succ hj)]
  · obtain ⟨i, hi⟩ := hf _ he
    have hlen : (seqOf ((Join.zip n sel).machine.told (Comb.exec (Comb.zipHub (n + 1) sel) ls))).vals.length = _ := congrArg List.length hv
    refine (Comb.C24_error_origin _ (Nat.succ_pos n) sel ls i e hi).imp (fun hr => ?_) fun ⟨h1, h2⟩ => ⟨?_, fun j hj => ?_⟩
    rotate_left
    · rw [hlen, ← h1]
      congr 1
      exact Comb.row_congr fun j hj => by rw [hg j (Nat.le_of_lt_succ hj)]
    · rw [hlen, hg j hj]; exact h2 j (Nat.lt_succ_of_le hj)
    have hlt := recv_lt (n + 1) (H := Comb.zipHub (n + 1) sel) rfl rfl ls hr
    exact ⟨i, Nat.le_of_lt_succ hlt, by rw [hg i (Nat.le_of_lt_succ hlt)]; exact Comb.mem_received.2 hr⟩

theorem combineLatest_makes (n : Nat) (sel : List α → Except ε β) {s} (h : (Join.combineLatest n sel).machine.Reach s) :
    (Join.combineLatest n sel).Makes ((Join.combineLatest n sel).machine.got s) (seqOf ((Join.combineLatest n sel).machine.told s)) := by
  obtain ⟨hv, hf⟩ := told_seq _ _ _ h
  obtain ⟨ls, rfl⟩ := hub_exec _ _ _ h
  have hg : ∀ i ≤ n, (Join.combineLatest n sel).machine.got (Comb.exec (Comb.combineLatestHub (n + 1) sel) ls) i =
      Comb.received i (Comb.exec (Comb.combineLatestHub (n + 1) sel) ls).log :=
    fun i hi => got_eq _ _ _ _ (Nat.lt_succ_of_le hi)
  refine ⟨Comb.taken (Comb.exec (Comb.combineLatestHub (n + 1) sel) ls).log, fun j hj => ?_, ?_, fun hc => ?_, fun e he => ?_⟩
  · rw [hg j hj]; exact (Comb.C25_taken _ sel ls j).1
  · have := Comb.C25_prefix (n + 1) sel ls
    rw [← hv] at this; exact this
  · obtain ⟨i, hi⟩ := hf _ hc
    refine ⟨hv.trans (Comb.C25_exact _ (Nat.succ_pos n) sel ls (.inr ⟨i, hi⟩)), fun j hj => ?_⟩
    rw [hg j hj]
    refine ⟨Comb.mem_received.2 (Comb.C25_completes_last _ (Nat.succ_pos n) sel ls i hi j (Nat.lt_succ_of_le hj)), ?_⟩
    rw [Comb.ofTaken_taken,
      (Comb.complete_values (Comb.cl_counting _ sel) (by simp [Comb.combineLatestHub]) (Comb.cl_late _ sel) (Comb.cl_val _ sel) ls ⟨i, hi⟩).2.1]
  · obtain ⟨i, hi⟩ := hf _ he
    refine (Comb.C25_error_origin _ sel ls i e hi).imp (fun ⟨hr, hw⟩ => ?_) id
    have hlt := recv_lt (n + 1) (H := Comb.combineLatestHub (n + 1) sel) rfl rfl ls hr
    exact ⟨i, Nat.le_of_lt_succ hlt, by rw [hg i (Nat.le_of_lt_succ hlt)]; exact ⟨Comb.mem_received.2 hr, hw⟩⟩

theorem withLatest_makes (n : Nat) (sel : α → List α → Except ε β) {s} (h : (Join.withLatest n sel).machine.Reach s) :
    (Join.withLatest n sel).Makes ((Join.withLatest n sel).machine.got s) (seqOf ((Join.withLatest n sel).machine.told s)) := by
  obtain ⟨hv, hf⟩ := told_seq _ _ _ h
  obtain ⟨ls, rfl⟩ := hub_exec _ _ _ h
  have hg : ∀ i ≤ n, (Join.withLatest n sel).machine.got (Comb.exec (Comb.withLatestHub n sel) ls) i =
      Comb.received i (Comb.exec (Comb.withLatestHub n sel) ls).log :=
    fun i hi => got_eq _ _ _ _ (Nat.lt_succ_of_le hi)
  refine ⟨Comb.taken (Comb.exec (Comb.withLatestHub n sel) ls).log, fun j hj => ?_, ?_, fun hc => ?_, fun e he => ?_⟩
  · rw [hg j hj]; exact (Comb.C26_taken _ sel ls j).1
  · have := Comb.C26_prefix n sel ls
    rw [← hv] at this; exact this
  · obtain ⟨i, hi⟩ := hf _ hc
    have hr := (Comb.C26_completes_only n sel ls i hi).2
    refine ⟨hv.trans (Comb.C26_complete_exact n sel ls i hi), by rw [hg 0 (Nat.zero_le _)]; exact Comb.mem_received.2 hr, ?_⟩
    rw [hg 0 (Nat.zero_le _), Comb.ofTaken_taken]
    obtain ⟨rfl, -⟩ := Comb.C26_completes_only n sel ls i hi
    rw [Comb.prefix_term (Comb.inv2 _ ls).legal (Comb.processed_prefix ls 0)
      ((Comb.wl_completed_last n sel (Comb.exec (Comb.withLatestHub n sel) ls).log fun a b t hab => by
        obtain ⟨c, hc⟩ := Comb.processed_prefix (H := Comb.withLatestHub n sel) ls 0
        rw [hab] at hc
        have := Comb.term_last (Comb.inv2 _ ls).legal 0 (a := a) (t := t) (b := b ++ c) (by rw [← hc]; simp)
        exact (List.append_eq_nil_iff.1 this).1).1 (Comb.mem_ofSrc.2 (Comb.told_made _ ls hi)))]
  · obtain ⟨i, hi⟩ := hf _ he
    refine (Comb.C26_error_origin n sel ls i e hi).imp (fun ⟨hr, hw⟩ => ?_) id
    have hlt := recv_lt (n + 1) (H := Comb.withLatestHub n sel) rfl rfl ls hr
    exact ⟨i, Nat.le_of_lt_succ hlt, by rw [hg i (Nat.le_of_lt_succ hlt)]; exact ⟨Comb.mem_received.2 hr, hw⟩⟩

theorem takeUntil_makes {s} (h : (Join.takeUntil : Join ε α α).machine.Reach s) :
    (Join.takeUntil : Join ε α α).Makes ((Join.takeUntil : Join ε α α).machine.got s) (seqOf ((Join.takeUntil : Join ε α α).machine.told s)) := by
  obtain ⟨hv, hf⟩ := told_seq _ _ _ h
  obtain ⟨ls, rfl⟩ := hub_exec _ _ _ h
  have hg : ∀ i < 2, (Join.takeUntil : Join ε α α).machine.got (Comb.exec Comb.takeUntilHub ls) i =
      Comb.received i (Comb.exec Comb.takeUntilHub ls).log :=
    fun i hi => got_eq _ _ _ _ hi
  have hv' : (seqOf ((Join.takeUntil : Join ε α α).machine.told (Comb.exec Comb.takeUntilHub ls))).vals =
      sigVals (Comb.toldBy 0 (Comb.exec (Comb.takeUntilHub : Comb.Hub α α ε _) ls).log) := by
    refine hv.trans ?_
    rw [Comb.values_eq]
    exact Comb.nexts_of_zero fun i v h => Comb.C35_values ls i v (Comb.mem_begs.1 h)
  have hend : ∀ t, .beg 0 (.term t) ∈ (Comb.exec Comb.takeUntilHub ls).log →
      Comb.toldBy 0 (Comb.exec Comb.takeUntilHub ls).log = Comb.received 0 (Comb.exec (Comb.takeUntilHub : Comb.Hub α α ε _) ls).log := fun t ht =>
    Comb.prefix_term (Comb.inv2 _ ls).legal (Comb.C35_mirror ls) (Comb.mem_ofSrc.2 (Comb.mem_begs.2 ht))
  refine ⟨?_, fun hc => ?_, fun e he => ?_⟩
  · rw [hv', hg 0 (by decide)]; exact Comb.sigVals_prefix (Comb.C35_mirror ls)
  · rw [hv', hg 0 (by decide), hg 1 (by decide)]
    obtain ⟨i, hi⟩ := hf _ hc
    rcases Comb.C35_origin ls i _ hi with hr | ⟨rfl, -, v, hr⟩
    · have := recv_lt 2 (H := Comb.takeUntilHub) rfl rfl ls hr
      obtain rfl | rfl : i = 0 ∨ i = 1 := by omega
      · exact .inl ⟨by rw [hend _ hi], Comb.mem_received.2 hr⟩
      · exact .inr (.inl (Comb.mem_received.2 hr))
    · exact .inr (.inr ⟨v, Comb.mem_received.2 hr⟩)
  · rw [hv', hg 0 (by decide), hg 1 (by decide)]
    obtain ⟨i, hi⟩ := hf _ he
    rcases Comb.C35_origin ls i _ hi with hr | ⟨-, hh, -⟩
    · have := recv_lt 2 (H := Comb.takeUntilHub) rfl rfl ls hr
      obtain rfl | rfl : i = 0 ∨ i = 1 := by omega
      · exact .inl ⟨by rw [hend _ hi], Comb.mem_received.2 hr⟩
      · exact .inr (Comb.mem_received.2 hr)
    · cases hh

/-! ## Steps between notifications -/

/-- What a step inside the operator leaves alone; models no code. -/
structure Calm (s s' : Comb.St α β ε σ) : Prop where
  active : s'.active = s.active
  done : s'.done = s.done
  recv : ∀ i, Comb.received i s'.log = Comb.received i s.log
  told : ∃ r, s'.log = s.log ++ r

theorem Calm.refl (s : Comb.St α β ε σ) : Calm s s := ⟨rfl, rfl, fun _ => rfl, [], by simp⟩

theorem calm_goto (s : Comb.St α β ε σ) (i p) (x : σ) (l : Option Nat) (g : Bool) :
    Calm s ({ s with st := x, lock := l, gone := g }.goto i p) := ⟨rfl, rfl, fun _ => rfl, [], by simp [Comb.St.goto]⟩

theorem calm_emit (s : Comb.St α β ε σ) (i p) (ev : Comb.Ev α β ε) (x : σ) (l : Option Nat) (g : Bool) (h : ∀ j c, ev ≠ .recv j c) :
    Calm s (({ s with st := x, lock := l, gone := g }.emit ev).goto i p) := by
  refine ⟨rfl, rfl, fun j => ?_, [ev], rfl⟩
  show Comb.received j (s.log ++ [ev]) = _
  rw [Comb.received_snoc]
  cases ev <;> first | exact List.append_nil _ | exact absurd rfl (h _ _)

theorem calm_process (H : Comb.Hub α β ε σ) (s : Comb.St α β ε σ) (i c ev) (h : ∀ j c, ev ≠ .recv j c) : Calm s (s.process H i c ev) := by
  unfold Comb.St.process
  dsimp only
  split
  · split <;> exact calm_emit s i _ ev _ s.lock s.gone h
  · split
    · exact .refl s
    · split <;> exact calm_emit s i _ ev _ _ s.gone h

theorem calm_run (H : Comb.Hub α β ε σ) (s : Comb.St α β ε σ) (i : Nat) : Calm s (Comb.step H s (.run i)) := by
  simp only [Comb.step]
  unfold Comb.St.advance
  split
  · exact .refl s
  · exact .refl s
  · exact .refl s
  · exact calm_process H s _ _ _ (fun j c h => by cases h)
  · split
    · exact calm_goto s _ _ s.st s.lock s.gone
    · exact calm_process H s _ _ _ (fun j c h => by cases h)
  · split
    · exact .refl s
    · exact calm_goto s _ _ s.st _ s.gone
  · split
    · exact calm_goto s _ _ s.st s.lock s.gone
    · exact calm_emit s _ _ _ s.st s.lock s.gone (fun j c h => by cases h)
  · split
    · exact calm_goto s _ _ s.st s.lock s.gone
    · exact calm_emit s _ _ _ s.st s.lock s.gone (fun j c h => by cases h)
  · exact calm_goto s _ _ s.st s.lock _
  · exact calm_goto s _ _ s.st _ s.gone
  · exact calm_goto s _ _ s.st _ s.gone
  · exact calm_goto s _ _ s.st s.lock s.gone

theorem calm_ret (H : Comb.Hub α β ε σ) (s : Comb.St α β ε σ) (i : Nat) (r : Comb.Res ε) : Calm s (Comb.step H s (.ret i r)) := by
  simp only [Comb.step]
  split
  · exact calm_emit s _ _ _ s.st s.lock s.gone (fun j c h => by cases h)
  · exact calm_emit s _ _ _ s.st s.lock s.gone (fun j c h => by cases h)
  · exact calm_emit s _ _ _ s.st s.lock s.gone (fun j c h => by cases h)
  · exact calm_emit s _ _ _ s.st s.lock s.gone (fun j c h => by cases h)
  · exact .refl s

theorem calm_gone (H : Comb.Hub α β ε σ) (s : Comb.St α β ε σ) : Calm s (Comb.step H s .gone) := by
  simp only [Comb.step]
  split
  · exact .refl s
  · refine ⟨rfl, rfl, fun j => ?_, [.gone], rfl⟩
    show Comb.received j (s.log ++ [.gone]) = _
    rw [Comb.received_snoc]; exact List.append_nil _

theorem calm_shut (H : Comb.Hub α β ε σ) (s : Comb.St α β ε σ) : Calm s (Comb.step H s .shut) := by
  simp only [Comb.step]
  split
  · exact ⟨rfl, rfl, fun _ => rfl, [], by simp⟩
  · exact .refl s

/-! ## merge -/

/-- `merge_with` brings its operands as the inner sources 1 … n + 1, and itself completes after the last. -/
structure MergeInv (n : Nat) (s : Comb.St α α ε Nat) : Prop where
  ports : ∀ k, s.active k = true → k ≤ n + 1
  outer : s.done 0 = true → ∀ k ≤ n + 1, s.active k = true
  only : ∀ c ∈ Comb.received 0 s.log, c = .term .completed

theorem MergeInv.calm {n : Nat} {s s' : Comb.St α α ε Nat} (h : MergeInv n s) (c : Calm s s') : MergeInv n s' :=
  ⟨by rw [c.active]; exact h.ports, by rw [c.active, c.done]; exact h.outer, by rw [c.recv]; exact h.only⟩

theorem merge_inv (n : Nat) {s} (h : (Join.merge n : Join ε α α).machine.Reach s) : MergeInv (α := α) (ε := ε) n s := by
  refine reach_ind (M := (Join.merge n : Join ε α α).machine) (P := fun s => MergeInv (α := α) (ε := ε) n s)
    ⟨fun k hk => ?_, fun hd => ?_, fun c hc => ?_⟩ (fun (s : Comb.St α α ε Nat) i x _ hr ih => ?_) (fun (s : Comb.St α α ε Nat) a _ ih => ?_) h
  · have : k = 0 := by simpa [Join.machine, hubMachine, Comb.Hub.initSt, Comb.mergeHub] using hk
    omega
  · cases hd
  · cases hc
  · obtain ⟨e, hi, ha⟩ := feed_step Comb.mergeHub (n + 1) (· + 1) s i x hr
    show MergeInv n (Comb.step Comb.mergeHub s (lbl (i + 1) x))
    rw [e]
    refine ⟨ih.ports, ?_, ?_⟩
    · intro hd
      refine ih.outer ?_
      simpa [Comb.St.emit, Comb.St.goto] using hd
    · intro c hc
      refine ih.only c ?_
      have hc : c ∈ Comb.received 0 (s.log ++ [.recv (i + 1) x]) := hc
      rw [Comb.received_snoc] at hc
      simpa using hc
  · cases a with
    | run i => exact ih.calm (calm_run Comb.mergeHub s i)
    | ret i => exact ih.calm (calm_ret Comb.mergeHub s i _)
    | gone => exact ih.calm (calm_gone Comb.mergeHub s)
    | shut => exact ih.calm (calm_shut Comb.mergeHub s)
    | opn k =>
      show MergeInv n (if k < n + 1 then Comb.step Comb.mergeHub s (.opn (k + 1)) else s)
      split
      · next hk =>
        simp only [Comb.step]
        split
        · next hc =>
          refine ⟨fun j hj => ?_, fun hd => ?_, fun c hc => ?_⟩
          · have hj : (if j = k + 1 then true else s.active j) = true := hj
            split at hj
            · omega
            · exact ih.ports j hj
          · have hd : s.done 0 = true := hd
            simp [hd] at hc
          · refine ih.only c ?_
            have hc : c ∈ Comb.received 0 (s.log ++ [.opened (k + 1)]) := hc
            rw [Comb.received_snoc] at hc
            simpa using hc
        · exact ih
      · exact ih
    | outer =>
      show MergeInv n (if Comb.mergeHub.dyn && (List.range (n + 1)).all (fun k => s.active (k + 1)) then Comb.step Comb.mergeHub s (.term 0 .completed) else s)
      split
      · next hk =>
        simp only [Comb.step]
        split
        · next hc =>
          refine ⟨ih.ports, fun _ k hkn => ?_, fun c hc => ?_⟩
          · show s.active k = true
            cases k with
            | zero => simp at hc; exact hc.1.1.2
            | succ k =>
              simp only [Comb.mergeHub, Bool.true_and, List.all_eq_true, List.mem_range] at hk
              exact hk k (by omega)
          · have hc : c ∈ Comb.received 0 (s.log ++ [.recv 0 (.term .completed)]) := hc
            rw [Comb.received_snoc] at hc
            rcases List.mem_append.1 hc with hc | hc
            · exact ih.only c hc
            · simpa using hc
        · exact ih
      · exact ih

theorem ofTaken_begs (l : List (Nat × Sig α ε)) (hl : ∀ v, (0, .next v) ∉ l) (i : Nat) :
    ofTaken i ((Comb.nextsP l).map fun p => (p.1 - 1, p.2)) = sigVals (Comb.ofSrc (i + 1) l) := by
  induction l with
  | nil => rfl
  | cons p l ih =>
    have ih := ih (fun v h => hl v (List.mem_cons_of_mem _ h))
    rcases p with ⟨j, o⟩
    cases o with
    | next v =>
      have hj : j ≠ 0 := by rintro rfl; exact hl v List.mem_cons_self
      have e1 : Comb.nextsP ((j, .next v) :: l) = (j, v) :: Comb.nextsP l := rfl
      have e2 : Comb.ofSrc (i + 1) ((j, .next v) :: l) = if j = i + 1 then .next v :: Comb.ofSrc (i + 1) l else Comb.ofSrc (i + 1) l := by
        simp only [Comb.ofSrc, List.filterMap_cons]; split <;> split <;> simp_all
      rw [e1, e2, List.map_cons]
      by_cases h : j = i + 1
      · subst h
        simp only [if_true]
        show ofTaken i ((i, v) :: _) = v :: sigVals _
        rw [← ih]; simp [ofTaken]
      · simp only [h, if_false]
        rw [← ih]
        have : ¬ j - 1 = i := by omega
        simp [ofTaken, this]
    | term t =>
      have e1 : Comb.nextsP ((j, .term t) :: l) = Comb.nextsP l := rfl
      have e2 : Comb.ofSrc (i + 1) ((j, .term t) :: l) = if j = i + 1 then .term t :: Comb.ofSrc (i + 1) l else Comb.ofSrc (i + 1) l := by
        simp only [Comb.ofSrc, List.filterMap_cons]; split <;> split <;> simp_all
      rw [e1, ih, e2]
      by_cases h : j = i + 1
      · simp only [h, if_true]; rfl
      · simp only [h, if_false]

theorem merge_makes (n : Nat) {s} (h : (Join.merge n : Join ε α α).machine.Reach s) :
    (Join.merge n : Join ε α α).Makes ((Join.merge n : Join ε α α).machine.got s) (seqOf ((Join.merge n : Join ε α α).machine.told s)) := by
  have hI := merge_inv n h
  obtain ⟨hv, hf⟩ := told_seq _ _ _ h
  obtain ⟨ls, rfl⟩ := hub_exec _ _ _ h
  have hg : ∀ i ≤ n, (Join.merge n : Join ε α α).machine.got (Comb.exec Comb.mergeHub ls) i = Comb.received (i + 1) (Comb.exec Comb.mergeHub ls).log :=
    fun i hi => got_eq _ _ _ _ (Nat.lt_succ_of_le hi)
  have hlt : ∀ i c, .recv i c ∈ (Comb.exec (Comb.mergeHub : Comb.Hub α α ε Nat) ls).log → i ≤ n + 1 := fun i c hr =>
    hI.ports i (((Comb.inv1 _ ls).active i).2 (Comb.recv_active (Comb.inv2 _ ls) hr))
  have hb : ∀ v, (0, .next v) ∉ Comb.begs (Comb.exec (Comb.mergeHub : Comb.Hub α α ε Nat) ls).log := fun v hm =>
    (Comb.C23_origin ls 0 v (Comb.mem_begs.1 hm)).1 rfl
  refine ⟨(Comb.nextsP (Comb.begs (Comb.exec (Comb.mergeHub : Comb.Hub α α ε Nat) ls).log)).map fun p => (p.1 - 1, p.2), ?_, ?_, ?_, ?_, ?_⟩
  · refine hv.trans ?_
    rw [Comb.values_eq, Comb.nexts_eq, List.map_map]; rfl
  · intro p hp
    obtain ⟨⟨i, v⟩, hm, rfl⟩ := List.mem_map.1 hp
    have : .beg i (.next v) ∈ (Comb.exec (Comb.mergeHub : Comb.Hub α α ε Nat) ls).log := by
      refine Comb.mem_begs.1 ?_
      simp only [Comb.nextsP, List.mem_filterMap] at hm
      obtain ⟨⟨j, o⟩, hm, e⟩ := hm
      cases o <;> simp at e
      obtain ⟨rfl, rfl⟩ := e; exact hm
    have := hlt _ _ (Comb.C23_origin ls i v this).2
    simp only; omega
  · intro i hi
    rw [ofTaken_begs _ hb, hg i hi]
    exact Comb.C23_prefix ls (i + 1) (Nat.succ_ne_zero i)
  · intro hc i hi
    obtain ⟨j, hj⟩ := hf _ hc
    obtain ⟨h0, h1⟩ := Comb.C23_completes_last ls j hj
    have hd := ((Comb.inv1 _ ls).done 0).2 ⟨_, h0⟩
    have ha := ((Comb.inv1 _ ls).active (i + 1)).1 (hI.outer hd (i + 1) (by omega))
    have ho : .opened (i + 1) ∈ (Comb.exec (Comb.mergeHub : Comb.Hub α α ε Nat) ls).log := by
      rcases ha with ha | ha
      · simp [Comb.mergeHub] at ha
      · exact ha
    obtain ⟨h2, h3⟩ := h1 _ ho
    rw [ofTaken_begs _ hb, hg i hi]
    exact ⟨Comb.mem_received.2 h2, h3⟩
  · intro e he
    obtain ⟨i, hi⟩ := hf _ he
    have hr := Comb.C23_error_origin ls i e hi
    cases i with
    | zero => have := hI.only _ (Comb.mem_received.2 hr); cases this
    | succ i =>
      have hl := hlt _ _ hr
      exact ⟨i, by omega, by rw [ofTaken_begs _ hb, hg i (by omega)]; exact ⟨Comb.mem_received.2 hr, Comb.C23_error_order ls _ e (Nat.succ_ne_zero i) hi⟩⟩

/-! ## delay -/

open Time.Delay in
/-- What has passed the check of `is_disposed` and is not queued yet; models no code. -/
def pending : CPc α ε → List (Sig α ε)
  | .checked x => [ofItem x]
  | _ => []

theorem ofItem_toItem (x : Sig α ε) : ofItem (toItem x) = x := by
  cases x with
  | next v => rfl
  | term t => cases t <;> rfl

open Time.Delay in
/-- Every item notified is in the queue's history or on its way there; invariant of the proofs, models no code. -/
structure DelayInv (d : Nat) (s : St α ε × List (Sig α ε)) : Prop where
  run : ∃ ls, s.1 = exec false d ls
  one : ∀ i, i ≠ 0 → s.1.calls i = .idle
  fed : s.2 = (arrivals s.1.log).map (fun p => ofItem p.1) ++ pending (s.1.calls 0)
  last : ∀ p t q, s.2 = p ++ .term t :: q → q = []

open Time.Delay in
theorem task_calls (s : St α ε) (t : Nat) : (stepTask s t).calls = s.calls ∧ arrivals (stepTask s t).log = arrivals s.log := by
  have e : ∀ l (ev : Ev α ε), (∀ x t, ev ≠ .arrived x t) → arrivals (l ++ [ev]) = arrivals l := by
    intro l ev h
    rw [arrivals_append]
    cases ev <;> first | exact List.append_nil _ | exact absurd rfl (h _ _)
  unfold stepTask
  split
  · exact ⟨rfl, rfl⟩
  · exact ⟨rfl, rfl⟩
  · exact ⟨rfl, rfl⟩
  · split
    · exact ⟨rfl, rfl⟩
    · split
      · exact ⟨rfl, rfl⟩
      · split
        · exact ⟨rfl, rfl⟩
        · exact ⟨rfl, e _ _ (fun x t h => by cases h)⟩
  · split
    · exact ⟨rfl, e _ _ (fun x t h => by cases h)⟩
    · exact ⟨rfl, e _ _ (fun x t h => by cases h)⟩
  · exact ⟨rfl, (e _ _ (fun x t h => by cases h)).trans (e _ _ (fun x t h => by cases h))⟩

open Time.Delay in
theorem call_fed (d : Nat) (s : St α ε) :
    (∀ i, i ≠ 0 → (stepCall false d s 0).calls i = s.calls i) ∧
    (arrivals (stepCall false d s 0).log).map (fun p => ofItem p.1) ++ pending ((stepCall false d s 0).calls 0) =
      (arrivals s.log).map (fun p => ofItem p.1) ++ pending (s.calls 0) := by
  have e : ∀ l (ev : Ev α ε), (∀ x t, ev ≠ .arrived x t) → arrivals (l ++ [ev]) = arrivals l := by
    intro l ev h
    rw [arrivals_append]
    cases ev <;> first | exact List.append_nil _ | exact absurd rfl (h _ _)
  have set : ∀ (s : St α ε) p i, i ≠ 0 → (s.setCall 0 p).calls i = s.calls i := fun s p i h => by simp [St.setCall, h]
  unfold stepCall
  split
  · exact ⟨fun _ _ => rfl, rfl⟩
  · next x hx =>
    split
    · exact ⟨fun _ _ => rfl, rfl⟩
    · suffices hh : (∀ i, i ≠ 0 → (s.emplace d 0 x).calls i = s.calls i) ∧
          (arrivals (s.emplace d 0 x).log).map (fun p => ofItem p.1) ++ pending ((s.emplace d 0 x).calls 0) =
            (arrivals s.log).map (fun p => ofItem p.1) ++ pending (CPc.checked x) by
        rw [hx]; cases x <;> exact hh
      · unfold St.emplace
        dsimp only
        split
        · refine ⟨fun i hi => set _ _ i hi, ?_⟩
          show (arrivals (s.log ++ [.arrived x s.now])).map _ ++ pending (if 0 = 0 then CPc.idle else s.calls 0) = _
          rw [arrivals_append, List.map_append]; simp [pending, arrivals]
        · refine ⟨fun i hi => set _ _ i hi, ?_⟩
          show (arrivals (s.log ++ [.arrived x s.now])).map _ ++ pending (if 0 = 0 then CPc.sched (s.now + d) else s.calls 0) = _
          rw [arrivals_append, List.map_append]; simp [pending, arrivals]
  · next tp hx => exact ⟨fun i hi => set _ _ i hi, by simp [St.setCall, St.setTask, hx, pending]⟩
  · next er hx =>
    split
    · exact ⟨fun i hi => set _ _ i hi, by simp [St.setCall, hx, pending]⟩
    · refine ⟨fun i hi => set _ _ i hi, ?_⟩
      simp only [St.setCall, St.emit, hx, pending, if_true]
      rw [e _ _ (fun x t h => by cases h)]
  · next er hx =>
    refine ⟨fun i hi => set _ _ i hi, ?_⟩
    simp only [St.setCall, St.emit, hx, pending, if_true]
    rw [e _ _ (fun x t h => by cases h)]

open Time.Delay in
theorem delay_inv (d : Nat) {s} (h : (Join.delay d : Join ε α α).machine.Reach s) : DelayInv (α := α) (ε := ε) d s := by
  have snoc : ∀ ls l, step false d (exec (α := α) (ε := ε) false d ls) l = exec false d (ls ++ [l]) := fun ls l => by
    simp [exec, List.foldl_append]
  refine reach_ind (M := (Join.delay d : Join ε α α).machine) (P := fun s => DelayInv (α := α) (ε := ε) d s)
    ⟨⟨[], rfl⟩, fun _ _ => rfl, rfl, fun p t q e => ?_⟩
    (fun (s : St α ε × List (Sig α ε)) i x _ hr ih => ?_) (fun (s : St α ε × List (Sig α ε)) a _ ih => ?_) h
  · have e : [] = p ++ .term t :: q := e
    simp at e
  · have hr : (decide (i = 0) && idle (s.1.calls 0) && !s.1.disposed && !s.2.any Sig.isTerm) = true := hr
    simp only [Bool.and_eq_true, decide_eq_true_eq, Bool.not_eq_true'] at hr
    obtain ⟨⟨⟨-, h1⟩, h2⟩, h3⟩ := hr
    have h1 : s.1.calls 0 = .idle := by
      revert h1; cases s.1.calls 0 <;> intro h1 <;> first | rfl | cases h1
    have hs : step false d s.1 (.arrive 0 (toItem x)) = s.1.setCall 0 (.checked (toItem x)) := by
      simp only [step, h1, h2]; rfl
    show DelayInv d (step false d s.1 (.arrive 0 (toItem x)), s.2 ++ [x])
    obtain ⟨ls, hls⟩ := ih.run
    refine ⟨⟨ls ++ [.arrive 0 (toItem x)], by rw [← snoc, ← hls]⟩, fun i hi => ?_, ?_, fun p t q e => ?_⟩
    · rw [hs]; simp only [St.setCall, hi, if_false]; exact ih.one i hi
    · rw [hs]
      show s.2 ++ [x] = (arrivals s.1.log).map _ ++ pending (if 0 = 0 then CPc.checked (toItem x) else s.1.calls 0)
      have := ih.fed
      rw [h1] at this
      rw [this]
      simp [pending, ofItem_toItem]
    · rcases List.eq_nil_or_concat q with rfl | ⟨q', z, rfl⟩
      · rfl
      · have e : s.2 ++ [x] = p ++ .term t :: (q'.concat z) := e
        rw [List.concat_eq_append, ← List.cons_append, ← List.append_assoc] at e
        obtain ⟨e1, -⟩ := List.append_inj' e rfl
        rw [e1] at h3
        simp [Sig.isTerm] at h3
  · obtain ⟨ls, hls⟩ := ih.run
    cases a with
    | call =>
      show DelayInv d (stepCall false d s.1 0, s.2)
      obtain ⟨h1, h2⟩ := call_fed d s.1
      exact ⟨⟨ls ++ [.call 0], by rw [← snoc, ← hls]; rfl⟩, fun i hi => (h1 i hi).trans (ih.one i hi), ih.fed.trans h2.symm, ih.last⟩
    | task t =>
      show DelayInv d (stepTask s.1 t, s.2)
      obtain ⟨h1, h2⟩ := task_calls s.1 t
      exact ⟨⟨ls ++ [.task t], by rw [← snoc, ← hls]; rfl⟩, fun i hi => by rw [h1]; exact ih.one i hi,
        by rw [h1, h2]; exact ih.fed, ih.last⟩
    | tick k => exact ⟨⟨ls ++ [.tick k], by rw [← snoc, ← hls]; rfl⟩, ih.one, ih.fed, ih.last⟩
    | dispose =>
      refine ⟨⟨ls ++ [.dispose], by rw [← snoc, ← hls]; rfl⟩, ih.one, ?_, ih.last⟩
      show s.2 = (arrivals (s.1.log ++ [.gone])).map _ ++ pending (s.1.calls 0)
      rw [arrivals_append]; simpa [arrivals] using ih.fed

open Time.Delay in
theorem delay_told (d : Nat) {s} (h : (Join.delay d : Join ε α α).machine.Reach s) :
    (Join.delay d : Join ε α α).machine.told s <+: (show List (Sig α ε) from s.2) := by
  have hI := delay_inv d h
  obtain ⟨ls, hls⟩ := hI.run
  have h1 : (delivered s.1.log).map (·.1) <+: (arrivals s.1.log).map (·.1) := by
    rw [hls]
    refine Matches.prefix (d := d) ?_
    intro k b hb
    obtain ⟨x, t'⟩ := b
    obtain ⟨t, ht, hle⟩ := C36_order d ls k x t' hb
    exact ⟨(x, t), ht, rfl, hle⟩
  obtain ⟨r, hr⟩ := h1
  have h2 : (delivered s.1.log).map (fun p => ofItem p.1) <+: (arrivals s.1.log).map (fun p => ofItem p.1) := by
    refine ⟨r.map ofItem, ?_⟩
    have := congrArg (List.map ofItem) hr
    simpa [List.map_append, List.map_map, Function.comp_def] using this
  refine h2.trans ?_
  have := hI.fed
  exact ⟨_, this.symm⟩

theorem prefix_last {l m : List (Sig α ε)} (h : l <+: m) (hm : ∀ p t q, m = p ++ .term t :: q → q = []) :
    (∀ p t q, l = p ++ .term t :: q → q = []) ∧ ∀ t, .term t ∈ l → l = m := by
  obtain ⟨r, rfl⟩ := h
  refine ⟨fun p t q e => ?_, fun t ht => ?_⟩
  · have := hm p t (q ++ r) (by rw [e]; simp)
    exact (List.append_eq_nil_iff.1 this).1
  · obtain ⟨p, q, rfl⟩ := List.append_of_mem ht
    have := hm p t (q ++ r) (by simp)
    rw [(List.append_eq_nil_iff.1 this).2, List.append_nil]

theorem delay_makes (d : Nat) {s} (h : (Join.delay d : Join ε α α).machine.Reach s) :
    (Join.delay d : Join ε α α).Makes ((Join.delay d : Join ε α α).machine.got s) (seqOf ((Join.delay d : Join ε α α).machine.told s)) := by
  obtain ⟨h1, h2⟩ := prefix_last (delay_told d h) (delay_inv d h).last
  have hv := seqOf_vals _ h1
  refine ⟨?_, fun f hf => ?_⟩
  · rw [hv]; exact Comb.sigVals_prefix (delay_told d h)
  · have hm := seqOf_fin _ _ hf
    rw [hv]
    have he := h2 f hm
    exact ⟨congrArg sigVals he, by rw [he] at hm; exact hm⟩

theorem join_makes : {α β : Type} → (j : Join ε α β) → {s : j.machine.S} → j.machine.Reach s →
    j.Makes (j.machine.got s) (seqOf (j.machine.told s))
  | _, _, .merge n, _, h => merge_makes n h
  | _, _, .zip n sel, _, h => zip_makes n sel h
  | _, _, .combineLatest n sel, _, h => combineLatest_makes n sel h
  | _, _, .withLatest n sel, _, h => withLatest_makes n sel h
  | _, _, .takeUntil, _, h => takeUntil_makes h
  | _, _, .delay d, _, h => delay_makes d h

/-! ## The interface -/

/-- What holds of every operator; models no code. -/
structure Machine.Fair (M : Machine α β ε) : Prop where
  start : (∀ i, M.got M.init i = []) ∧ M.told M.init = []
  feed : ∀ s i x, M.ready s i = true → M.got (M.feed s i x) i = M.got s i ++ [x] ∧ (∀ j, j ≠ i → M.got (M.feed s i x) j = M.got s j) ∧
    M.told (M.feed s i x) = M.told s
  act : ∀ s a, (∀ i, M.got (M.act s a) i = M.got s i) ∧ M.told s <+: M.told (M.act s a)

theorem Calm.prefix {s s' : Comb.St α β ε σ} (c : Calm s s') : (Comb.begs s.log).map (·.2) <+: (Comb.begs s'.log).map (·.2) := by
  obtain ⟨r, hr⟩ := c.told
  rw [hr]
  refine ⟨(Comb.begs r).map (·.2), ?_⟩
  rw [← List.map_append]; simp [Comb.begs, List.filterMap_append]

/-- Nothing new from the operands, nothing less for the observer; models no code. -/
def Keeps (port : Nat → Nat) (s s' : Comb.St α β ε σ) : Prop :=
  (∀ i, Comb.received (port i) s'.log = Comb.received (port i) s.log) ∧ (Comb.begs s.log).map (·.2) <+: (Comb.begs s'.log).map (·.2)

theorem hub_fair (H : Comb.Hub α β ε σ) (n : Nat) (port : Nat → Nat) (hp : ∀ i j, port i = port j → i = j) (hd : H.dyn = true → ∀ i, port i ≠ 0) :
    (hubMachine H n port).Fair := by
  have calm : ∀ {s s' : Comb.St α β ε σ}, Calm s s' → (∀ i, (hubMachine H n port).got s' i = (hubMachine H n port).got s i) ∧
      (hubMachine H n port).told s <+: (hubMachine H n port).told s' := fun {s s'} c =>
    ⟨fun i => by simp only [hubMachine, c.recv], c.prefix⟩
  refine ⟨⟨fun i => ?_, rfl⟩, fun s i x hr => ?_, fun (s : Comb.St α β ε σ) a => ?_⟩
  · simp only [hubMachine]; split <;> rfl
  · obtain ⟨e, hi, -⟩ := feed_step H n port s i x hr
    have hl : (Comb.step H s (lbl (port i) x)).log = s.log ++ [.recv (port i) x] := by rw [e]; rfl
    refine ⟨?_, fun j hj => ?_, ?_⟩
    · simp only [hubMachine, hi, if_true, hl, Comb.received_snoc]
    · have : port i ≠ port j := fun h => hj (hp _ _ h).symm
      simp only [hubMachine, hl, Comb.received_snoc, this, if_false, List.append_nil]
    · simp only [hubMachine, hl, Comb.begs_snoc, List.append_nil]
  · cases a with
    | run i => exact calm (calm_run H s i)
    | ret i => exact calm (calm_ret H s i _)
    | gone => exact calm (calm_gone H s)
    | shut => exact calm (calm_shut H s)
    | opn k =>
      suffices hh : Keeps port s (if k < n then Comb.step H s (.opn (port k)) else s) from ⟨fun i => by simp only [hubMachine, ← hh.1], hh.2⟩
      split
      · simp only [Comb.step]
        split
        · refine ⟨fun i => ?_, ?_⟩
          · simp only [Comb.St.emit, Comb.St.goto, Comb.received_snoc, List.append_nil]
          · simp only [Comb.St.emit, Comb.St.goto, Comb.begs_snoc, List.append_nil]; exact List.prefix_refl _
        · exact ⟨fun _ => rfl, List.prefix_refl _⟩
      · exact ⟨fun _ => rfl, List.prefix_refl _⟩
    | outer =>
      suffices hh : Keeps port s (if H.dyn && (List.range n).all (fun k => s.active (port k)) then Comb.step H s (.term 0 .completed) else s) from
        ⟨fun i => by simp only [hubMachine, ← hh.1], hh.2⟩
      split
      · next hc =>
        simp only [Bool.and_eq_true] at hc
        simp only [Comb.step]
        split
        · refine ⟨fun i => ?_, ?_⟩
          · have : ¬ 0 = port i := fun h => hd hc.1 i h.symm
            simp only [Comb.St.emit, Comb.St.goto, Comb.received_snoc, this, if_false, List.append_nil]
          · simp only [Comb.St.emit, Comb.St.goto, Comb.begs_snoc, List.append_nil]; exact List.prefix_refl _
        · exact ⟨fun _ => rfl, List.prefix_refl _⟩
      · exact ⟨fun _ => rfl, List.prefix_refl _⟩

open Time.Delay in
theorem log_grows (d : Nat) (s : St α ε) (l : Lbl α ε) : ∃ r, (step false d s l).log = s.log ++ r := by
  cases l with
  | tick k => exact ⟨[], by simp [step]⟩
  | dispose => exact ⟨_, rfl⟩
  | arrive i x =>
    refine ⟨[], ?_⟩
    simp only [step, List.append_nil]; split
    · split <;> rfl
    · rfl
  | call i =>
    show ∃ r, (stepCall false d s i).log = s.log ++ r
    unfold stepCall
    split
    · exact ⟨[], by simp⟩
    · next x hx =>
      split
      · exact ⟨[], by simp⟩
      · refine ⟨[.arrived x s.now], ?_⟩
        suffices hh : (s.emplace d i x).log = s.log ++ [.arrived x s.now] by cases x <;> exact hh
        unfold St.emplace; dsimp only; split <;> rfl
    · exact ⟨[], by simp [St.setCall, St.setTask]⟩
    · split
      · exact ⟨[], by simp [St.setCall]⟩
      · exact ⟨_, rfl⟩
    · exact ⟨_, rfl⟩
  | task t =>
    show ∃ r, (stepTask s t).log = s.log ++ r
    unfold stepTask
    split
    · exact ⟨[], by simp⟩
    · exact ⟨[], by simp⟩
    · exact ⟨[], by simp [St.setTask]⟩
    · split
      · exact ⟨[], by simp⟩
      · split
        · exact ⟨[], by simp [St.setTask]⟩
        · split
          · exact ⟨[], by simp [St.setTask]⟩
          · exact ⟨_, rfl⟩
    · split
      · exact ⟨_, rfl⟩
      · exact ⟨_, rfl⟩
    · exact ⟨_, List.append_assoc ..⟩

open Time.Delay in
theorem delay_fair (d : Nat) : (delayMachine d : Machine α α ε).Fair := by
  have pre : ∀ (s : St α ε) l, (delivered s.log).map (fun p => ofItem p.1) <+: (delivered (step false d s l).log).map (fun p => ofItem p.1) := fun s l => by
    obtain ⟨r, hr⟩ := log_grows d s l
    rw [hr, delivered_append, List.map_append]; exact List.prefix_append ..
  refine ⟨⟨fun i => ?_, rfl⟩, fun (s : St α ε × List (Sig α ε)) i x hr => ?_, fun (s : St α ε × List (Sig α ε)) a => ?_⟩
  · simp only [delayMachine]; split <;> rfl
  · have hr : (decide (i = 0) && idle (s.1.calls 0) && !s.1.disposed && !s.2.any Sig.isTerm) = true := hr
    simp only [Bool.and_eq_true, decide_eq_true_eq, Bool.not_eq_true'] at hr
    obtain ⟨⟨⟨rfl, h1⟩, h2⟩, h3⟩ := hr
    refine ⟨rfl, fun j hj => ?_, ?_⟩
    · simp only [delayMachine, hj, if_false]
    · show (delivered (step false d s.1 (.arrive 0 (toItem x))).log).map _ = (delivered s.1.log).map _
      have : (step false d s.1 (.arrive 0 (toItem x))).log = s.1.log := by
        simp only [step]; split
        · split <;> rfl
        · rfl
      rw [this]
  · cases a <;> exact ⟨fun _ => rfl, pre _ _⟩

theorem join_fair : {α β : Type} → (j : Join ε α β) → j.machine.Fair
  | _, _, .merge n => hub_fair _ _ _ (fun i j h => by simpa using h) (fun _ i => Nat.succ_ne_zero i)
  | _, _, .zip n sel => hub_fair _ _ _ (fun i j h => h) (fun h => by cases h)
  | _, _, .combineLatest n sel => hub_fair _ _ _ (fun i j h => h) (fun h => by cases h)
  | _, _, .withLatest n sel => hub_fair _ _ _ (fun i j h => h) (fun h => by cases h)
  | _, _, .takeUntil => hub_fair _ _ _ (fun i j h => h) (fun h => by cases h)
  | _, _, .delay d => delay_fair d

end Rpp.Net
