import Verif.Combine.ConcatEnd

/-! concat: the values and the order. -/

namespace Rpp.Cat

open Rpp.Comb (Sig Res)

variable {α ε : Type}

theorem cur_eq {s s' : St α ε} {own own' cur cur' : Option Nat} (h : Inv2 s own cur) (h' : Inv2 s' own' cur')
    (ho : ∀ i, .opened i ∈ s'.log ↔ .opened i ∈ s.log) (hc : ∀ i, .closed i ∈ s'.log ↔ .closed i ∈ s.log) : cur' = cur := by
  refine Option.ext fun i => ?_
  rw [← h.curr i, ← h'.curr i, ho, hc]

theorem Inv3.nodup_openings {s : St α ε} {own : Option Nat} (h : Inv3 s own) : (openings s.log).Nodup := by
  have := (h.perm.nodup_iff).mpr h.nodup
  refine this.sublist ?_
  simp only [line, List.append_assoc]
  exact List.sublist_append_left _ _

theorem sent_nil {s : St α ε} {k : Nat} {l : List (Ev α ε)} (h : ∀ c, .recv k c ∉ l) : sent k l = [] := by
  rw [sent, List.filterMap_eq_nil_iff]
  intro ev hev
  cases ev with
  | recv j c =>
    cases c with
    | next v => simp only; split
                · next hh => subst hh; exact absurd hev (h _)
                · rfl
    | term t => rfl
  | _ => rfl

theorem joined_recv {l : List (Ev α ε)} {p : List Nat} {i : Nat} (v : α) (hp : openings l = p ++ [i]) (hn : (openings l).Nodup) :
    joined (l ++ [.recv i (.next v)]) = joined l ++ [v] := by
  have hi : i ∉ p := by
    intro h; rw [hp, List.nodup_append] at hn; exact hn.2.2 i h i (by simp) rfl
  unfold joined
  rw [openings_snoc]
  simp only [List.append_nil, hp, List.flatMap_append, List.flatMap_cons, List.flatMap_nil, List.append_assoc]
  have h1 : p.flatMap (fun k => sent k (l ++ [.recv i (.next v)])) = p.flatMap (fun k => sent k l) := by
    rw [List.flatMap_def, List.flatMap_def]
    congr 1
    refine List.map_congr_left fun k hk => ?_
    rw [sent_snoc]
    have : i ≠ k := by rintro rfl; exact hi hk
    simp [this]
  rw [h1, sent_snoc]; simp

theorem joined_opened {s : St α ε} {l : List (Ev α ε)} {k : Nat} (h : ∀ c, .recv k c ∉ l) : joined (l ++ [.opened k]) = joined l := by
  unfold joined
  rw [openings_snoc]
  simp only [List.flatMap_append, List.flatMap_cons, List.flatMap_nil, List.append_nil]
  have : ∀ j, sent j (l ++ [.opened k]) = sent j l := fun j => by rw [sent_snoc]; simp
  simp only [this, sent_nil (s := s) h, List.append_nil]

theorem joined_other {l : List (Ev α ε)} {ev : Ev α ε} (h1 : ∀ k, ev ≠ .opened k) (h2 : ∀ i v, ev ≠ .recv i (.next v)) :
    joined (l ++ [ev]) = joined l := by
  unfold joined
  have ho : openings (l ++ [ev]) = openings l := by
    rw [openings_snoc]; cases ev <;> simp at *
  have hs : ∀ j, sent j (l ++ [ev]) = sent j l := fun j => by
    rw [sent_snoc]
    cases ev with
    | recv i c => cases c with
      | next v => exact absurd rfl (h2 i v)
      | term t => simp
    | _ => simp
  rw [ho]; simp only [hs]

set_option maxHeartbeats 2000000 in
theorem Inv5.tr {s s' : St α ε} {own cur own' cur' : Option Nat} (h0 : Inv1 s) (h0' : Inv1 s') (h2 : Inv2 s own cur) (h3 : Inv3 s own) (h2' : Inv2 s' own' cur')
    (h : Inv5 s cur) (t : Tr s s') : Inv5 s' cur' := by
  have hnd := h3.nodup_openings
  have key : ∀ i, i ≠ 0 → s.done i = false → s.active i = true → cur = some i := by
    intro i h1 h4 h5
    refine (h2.curr i).mp ⟨((h0.active i).mp h5).resolve_left h1, fun hc => ?_⟩
    have := (h0.done i).mpr ⟨_, h2.closed i hc⟩
    rw [h4] at this; cases this
  cases t with
  | recv i c hc ha hd hs hn =>
    obtain rfl : cur' = cur := cur_eq h2 h2' (by simp [St.goto, St.emit]) (by simp [St.goto, St.emit])
    rcases c with v | tm
    · have hi := hn rfl
      have hcur := key i hi hd ha
      obtain ⟨p, hp⟩ := h.last i hcur
      have hj := joined_recv (ε := ε) (l := s.log) v hp hnd
      obtain ⟨a1, a2, a3, a4, a5, a6, a7⟩ := h
      constructor <;> simp only [St.goto, St.emit, List.mem_append, List.mem_singleton, Ended, openings_snoc, values_snoc, hj, List.append_nil] at *
      case exact =>
        intro hg
        have := a3 hg
        subst hcur
        simp only [wayOf, hc, Pc.way, List.append_nil] at this
        simp only [wayOf, if_true, entry, Pc.way, this]
      case pre => exact a4.trans (List.prefix_append _ _)
      all_goals grind [entry, isTerm]
    · have hj : joined (s.log ++ [.recv i (.term tm)]) = joined s.log := joined_other (by simp) (by simp)
      have he := entry_cases i (.term tm : Sig α ε)
      have hw : (entry i (.term tm : Sig α ε)).way = [] := by rcases he with ⟨_, he⟩ | ⟨_, _, he⟩ | ⟨_, _, he⟩ <;> rw [he] <;> rfl
      obtain ⟨a1, a2, a3, a4, a5, a6, a7⟩ := h
      constructor <;> simp only [St.goto, St.emit, List.mem_append, List.mem_singleton, Ended, openings_snoc, values_snoc, hj, List.append_nil] at *
      case exact => cases cur' <;> grind [wayOf, Pc.way]
      case pre => exact a4
      all_goals grind [isTerm, entry]
  | sub i k hc =>
    have hf := fresh h0 h2 h3 hc
    have hcn := h2.free i (by rw [hc]; rfl)
    have hj := joined_opened (s := s) (l := s.log) hf.2.2.2.1
    have hck : cur' = some k := (h2'.curr k).mp (by simp [St.goto, St.emit, hf.2.2.1])
    subst hck hcn
    obtain ⟨a1, a2, a3, a4, a5, a6, a7⟩ := h
    have hidle : (s.calls k).way = [] := by
      have := a2 k
      cases hk : s.calls k with
      | out o => cases o <;> grind [Pc.way]
      | inn o => cases o <;> grind [Pc.way]
      | _ => rfl
    constructor <;> simp only [St.goto, St.emit, List.mem_append, List.mem_singleton, Ended, openings_snoc, values_snoc, hj, List.append_nil] at *
    case exact =>
      intro hg
      have := a3 hg
      simp only [wayOf, List.append_nil] at this
      rw [← this]
      simp only [wayOf]
      split
      · simp [Pc.way]
      · rw [hidle, List.append_nil]
    case pre => exact a4
    case last => rintro j hj; cases hj; exact ⟨_, rfl⟩
    all_goals grind
  | casCOk i hc hs =>
    have hcn : cur' = none := by
      have h1 := h2.casC i hc
      have hh := (h2.curr i).mp ⟨((h0.active i).mp (h2.heard i _ h1.1)).resolve_left h1.2.2, h1.2.1⟩
      cases e : cur' with
      | none => rfl
      | some j =>
        have := (h2'.curr j).mpr e
        simp only [St.goto, St.emit, List.mem_append, List.mem_singleton] at this
        have h5 : cur = some j := (h2.curr j).mp ⟨by grind, by grind⟩
        grind
    have hcur : cur = some i := by
      have h1 := h2.casC i hc
      exact (h2.curr i).mp ⟨((h0.active i).mp (h2.heard i _ h1.1)).resolve_left h1.2.2, h1.2.1⟩
    have hj : joined (s.log ++ [.closed i]) = joined s.log := joined_other (by simp) (by simp)
    subst hcn hcur
    obtain ⟨a1, a2, a3, a4, a5, a6, a7⟩ := h
    constructor <;> simp only [St.goto, St.emit, List.mem_append, List.mem_singleton, Ended, openings_snoc, values_snoc, hj, List.append_nil] at *
    case exact => intro hg; have := a3 hg; simpa [wayOf, hc, Pc.way] using this
    case pre => exact a4
    all_goals grind
  | casCNo i hc hs =>
    have hcn : cur' = none := by
      have h1 := h2.casC i hc
      have hh := (h2.curr i).mp ⟨((h0.active i).mp (h2.heard i _ h1.1)).resolve_left h1.2.2, h1.2.1⟩
      cases e : cur' with
      | none => rfl
      | some j =>
        have := (h2'.curr j).mpr e
        simp only [St.goto, St.emit, List.mem_append, List.mem_singleton] at this
        have h5 : cur = some j := (h2.curr j).mp ⟨by grind, by grind⟩
        grind
    have hcur : cur = some i := by
      have h1 := h2.casC i hc
      exact (h2.curr i).mp ⟨((h0.active i).mp (h2.heard i _ h1.1)).resolve_left h1.2.2, h1.2.1⟩
    have hj : joined (s.log ++ [.closed i]) = joined s.log := joined_other (by simp) (by simp)
    subst hcn hcur
    obtain ⟨a1, a2, a3, a4, a5, a6, a7⟩ := h
    constructor <;> simp only [St.goto, St.emit, List.mem_append, List.mem_singleton, Ended, openings_snoc, values_snoc, hj, List.append_nil] at *
    case exact => intro hg; have := a3 hg; simpa [wayOf, hc, Pc.way] using this
    case pre => exact a4
    all_goals grind
  | beg i o hc hg =>
    obtain rfl : cur' = cur := cur_eq h2 h2' (by simp [St.goto, St.emit]) (by simp [St.goto, St.emit])
    have hj : joined (s.log ++ [.beg i o]) = joined s.log := joined_other (by simp) (by simp)
    obtain ⟨a1, a2, a3, a4, a5, a6, a7⟩ := h
    have ha := a3 hg
    have hcur : ∀ v, o = .next v → cur' = some i := fun v hv => by
      subst hv; have := a2 i v (.inr hc); exact key i this.1 this.2.1 this.2.2
    rcases o with v | tm
    · have hcur := hcur v rfl
      subst hcur
      simp only [wayOf, hc, Pc.way] at ha
      constructor <;> simp only [St.goto, St.emit, List.mem_append, List.mem_singleton, Ended, openings_snoc, values_snoc, hj, List.append_nil] at *
      case exact => intro _; simp [wayOf, Pc.way, ha]
      case pre => rw [ha]; exact List.prefix_refl _
      all_goals grind
    · constructor <;> simp only [St.goto, St.emit, List.mem_append, List.mem_singleton, Ended, openings_snoc, values_snoc, hj, List.append_nil] at *
      case exact => intro _; rw [← ha]; cases cur' <;> grind [wayOf, Pc.way]
      case pre => exact a4
      case err => intro j e hje; exact .inr (.inl (.inl ⟨i, tm, .inr rfl⟩))
      all_goals grind
  | arrive k hc hd hs hk =>
    obtain rfl : cur' = cur := cur_eq h2 h2' (by simp [St.goto, St.emit]) (by simp [St.goto, St.emit])
    have hj : joined (s.log ++ [.arrive k]) = joined s.log := joined_other (by simp) (by simp)
    obtain ⟨a1, a2, a3, a4, a5, a6, a7⟩ := h
    constructor <;> simp only [St.goto, St.emit, List.mem_append, List.mem_singleton, Ended, openings_snoc, values_snoc, hj, List.append_nil] at *
    case exact => cases cur' <;> grind [wayOf, Pc.way]
    case pre => exact a4
    all_goals grind
  | own i e hc hg =>
    obtain rfl : cur' = cur := cur_eq h2 h2' (by simp [St.goto, St.emit]) (by simp [St.goto, St.emit])
    have hj : joined (s.log ++ [.own i e]) = joined s.log := joined_other (by simp) (by simp)
    obtain ⟨a1, a2, a3, a4, a5, a6, a7⟩ := h
    constructor <;> simp only [St.goto, St.emit, List.mem_append, List.mem_singleton, Ended, openings_snoc, values_snoc, hj, List.append_nil] at *
    case exact => cases cur' <;> grind [wayOf, Pc.way]
    case pre => exact a4
    all_goals grind
  | gone hg =>
    obtain rfl : cur' = cur := cur_eq h2 h2' (by simp [St.goto, St.emit]) (by simp [St.goto, St.emit])
    have hj : joined (s.log ++ [.gone]) = joined s.log := joined_other (by simp) (by simp)
    obtain ⟨a1, a2, a3, a4, a5, a6, a7⟩ := h
    constructor <;> simp only [St.goto, St.emit, List.mem_append, List.mem_singleton, Ended, openings_snoc, values_snoc, hj, List.append_nil] at *
    case pre => exact a4
    all_goals grind
  | finNext i v p hc hp =>
    obtain rfl : cur' = cur := cur_eq h2 h2' (by simp [St.goto, St.emit]) (by simp [St.goto, St.emit])
    have hj : joined (s.log ++ [.fin i]) = joined s.log := joined_other (by simp) (by simp)
    have hw : p.way = [] := by rcases hp with rfl | ⟨e, rfl⟩ <;> rfl
    obtain ⟨a1, a2, a3, a4, a5, a6, a7⟩ := h
    constructor <;> simp only [St.goto, St.emit, List.mem_append, List.mem_singleton, Ended, openings_snoc, values_snoc, hj, List.append_nil] at *
    case exact => cases cur' <;> grind [wayOf, Pc.way]
    case pre => exact a4
    all_goals grind
  | finTerm i hc =>
    obtain rfl : cur' = cur := cur_eq h2 h2' (by simp [St.goto, St.emit]) (by simp [St.goto, St.emit])
    have hj : joined (s.log ++ [.fin i]) = joined s.log := joined_other (by simp) (by simp)
    have hw : (s.calls i).way = [] := by rcases hc with ⟨t, hc⟩ | hc <;> rw [hc] <;> rfl
    obtain ⟨a1, a2, a3, a4, a5, a6, a7⟩ := h
    constructor <;> simp only [St.goto, St.emit, List.mem_append, List.mem_singleton, Ended, openings_snoc, values_snoc, hj, List.append_nil] at *
    case exact => cases cur' <;> grind [wayOf, Pc.way]
    case pre => exact a4
    all_goals grind
  | skip i hc hg =>
    obtain rfl : cur' = cur := cur_eq h2 h2' (by simp [St.goto, St.emit]) (by simp [St.goto, St.emit])
    obtain ⟨a1, a2, a3, a4, a5, a6, a7⟩ := h
    constructor <;> simp only [St.goto] at *
    case pre => exact a4
    all_goals grind
  | enter i o hc hl =>
    obtain rfl : cur' = cur := cur_eq h2 h2' (by simp [St.goto, St.emit]) (by simp [St.goto, St.emit])
    obtain ⟨a1, a2, a3, a4, a5, a6, a7⟩ := h
    have hw : (Pc.inn o : Pc α ε).way = (s.calls i).way := by rw [hc]; cases o <;> rfl
    constructor <;> simp only [St.goto] at *
    case exact => cases cur' <;> grind [wayOf]
    case pre => exact a4
    all_goals grind
  | _ =>
    obtain rfl : cur' = cur := cur_eq h2 h2' (by simp [St.goto, St.emit]) (by simp [St.goto, St.emit])
    obtain ⟨a1, a2, a3, a4, a5, a6, a7⟩ := h
    constructor <;> simp only [St.goto] at *
    case exact => cases cur' <;> grind [wayOf, Pc.way]
    case pre => exact a4
    all_goals grind

theorem inv5 (ls : List (Lbl α ε)) :
    ∃ own cur lv ds, Inv2 (exec ls) own cur ∧ Inv3 (exec ls) own ∧ Inv4 (exec ls) lv ds ∧ Inv5 (exec ls) cur := by
  have : Inv1 (exec ls) ∧ ∃ own cur lv ds, Inv2 (exec ls) own cur ∧ Inv3 (exec ls) own ∧ Inv4 (exec ls) lv ds ∧ Inv5 (exec ls) cur := by
    refine exec_induct (P := fun s => Inv1 s ∧ ∃ own cur lv ds, Inv2 s own cur ∧ Inv3 s own ∧ Inv4 s lv ds ∧ Inv5 s cur)
      ⟨.init, none, none, true, [], .init, .init, .init, .init⟩ ?_ ls
    rintro s s' ⟨h1, own, cur, lv, ds, h2, h3, h4, h5⟩ t
    obtain ⟨own', cur', h2', m⟩ := h2.tr h1 h3 t
    obtain ⟨lv', ds', h4'⟩ := h4.tr h1 h2 t
    exact ⟨h1.tr t, own', cur', lv', ds', h2', h3.tr h1 m, h4', h5.tr h1 (h1.tr t) h2 h3 h2' t⟩
  exact this.2

/-! ## The order, when the outer source does not race with the thread that finds the queue empty -/

/-- At no moment has the outer source decided to queue a source (177-181) while another thread, having found the queue empty (58),
has not yet published that (61). -/
def NoRace (ls : List (Lbl α ε)) : Prop :=
  ∀ n j k, ¬ ((exec (ls.take n)).calls 0 = .push k ∧ (exec (ls.take n)).calls j = .empty)

/-- In particular, when no inner source is in a call while the outer source queues one. -/
theorem NoRace.of_serial {ls : List (Lbl α ε)}
    (h : ∀ n k, (exec (ls.take n)).calls 0 = .push k → ∀ j, j ≠ 0 → (exec (ls.take n)).calls j = .idle) : NoRace ls := by
  rintro n j k ⟨h1, h2⟩
  by_cases hj : j = 0
  · subst hj; rw [h1] at h2; cases h2
  · rw [h n k h1 j hj] at h2; cases h2

theorem NoRace.init {ls : List (Lbl α ε)} {l : Lbl α ε} (h : NoRace (ls ++ [l])) : NoRace ls := by
  intro n j k hh
  refine h (min n ls.length) j k ?_
  rw [List.take_append_of_le_length (Nat.min_le_right ..)]
  have : ls.take (min n ls.length) = ls.take n := by
    rcases Nat.le_total n ls.length with h | h
    · rw [Nat.min_eq_left h]
    · rw [Nat.min_eq_right h, List.take_length, List.take_of_length_le h]
  rw [this]; exact hh

/-- Invariant of the proofs; models no code. -/
structure Inv6 (s : St α ε) (own : Option Nat) : Prop where
  line : line own s = arrivals s.log
  none : s.stage = .none → s.queue = []
  empty : ∀ j, s.calls j = .empty → s.queue = []
  push : ∀ k, s.calls 0 = .push k → s.stage ≠ .none

set_option maxHeartbeats 1000000 in
theorem Inv6.tr {s s' : St α ε} {own own' cur : Option Nat} (h2 : Inv2 s own cur) (h : Inv6 s own) (m : Moves s s' own own')
    (hr : ∀ j k, ¬ (s.calls 0 = .push k ∧ s.calls j = .empty)) (t : Tr s s') : Inv6 s' own' := by
  have hline : Cat.line own' s' = arrivals s'.log := by
    rcases m with ⟨e1, e2⟩ | ⟨k, hk, e1, e2⟩ | ⟨k, hs, e0, e1, e2⟩
    · rw [e1, e2, h.line]
    · rw [e1, e2, h.line]
    · have := h.none hs
      rw [e1, e2, ← h.line, e0, this]; simp
  have hb := h2.casBy
  have ho := h2.owner
  have hn := h2.sNone
  obtain ⟨-, a2, a3, a4⟩ := h
  cases t with
  | recv i c hc ha hd hs hn =>
    have he := entry_cases i c
    refine ⟨hline, ?_, ?_, ?_⟩ <;> simp only [St.goto, St.emit] at * <;> grind
  | push i k hc =>
    obtain rfl := hb i k (.inr hc)
    refine ⟨hline, ?_, ?_, ?_⟩ <;> simp only [St.goto, St.emit] at * <;> grind [Pc.owner]
  | casNo i k hc hs =>
    obtain rfl := hb i k (.inl hc)
    refine ⟨hline, ?_, ?_, ?_⟩ <;> simp only [St.goto, St.emit] at * <;> grind [Pc.owner]
  | _ =>
    refine ⟨hline, ?_, ?_, ?_⟩ <;> simp only [St.goto, St.emit] at * <;> grind [Pc.owner]

theorem inv6 (ls : List (Lbl α ε)) (hr : NoRace ls) :
    ∃ own cur lv ds, Inv2 (exec ls) own cur ∧ Inv3 (exec ls) own ∧ Inv4 (exec ls) lv ds ∧ Inv5 (exec ls) cur ∧ Inv6 (exec ls) own := by
  suffices h : ∀ n, ∃ own cur lv ds, Inv2 (exec (ls.take n)) own cur ∧ Inv3 (exec (ls.take n)) own ∧ Inv4 (exec (ls.take n)) lv ds ∧
      Inv5 (exec (ls.take n)) cur ∧ Inv6 (exec (ls.take n)) own by simpa using h ls.length
  intro n
  induction n with
  | zero =>
    refine ⟨none, none, true, [], .init, .init, .init, .init, ?_⟩
    constructor <;> simp [exec, Cat.line, openings, arrivals, subOf, Pc.pend]
  | succ n ih =>
    by_cases hn : n < ls.length
    · rw [List.take_succ_eq_append_getElem hn, exec_snoc]
      rcases step_tr (exec (ls.take n)) ls[n] with e | t
      · rw [e]; exact ih
      · obtain ⟨own, cur, lv, ds, h2, h3, h4, h5, h6⟩ := ih
        have h1 := inv1 (ls.take n)
        obtain ⟨own', cur', h2', m⟩ := h2.tr h1 h3 t
        obtain ⟨lv', ds', h4'⟩ := h4.tr h1 h2 t
        exact ⟨own', cur', lv', ds', h2', h3.tr h1 m, h4', h5.tr h1 (h1.tr t) h2 h3 h2' t, h6.tr h2 m (hr n) t⟩
    · rw [List.take_of_length_le (by omega)]
      rw [List.take_of_length_le (by omega)] at ih
      exact ih

end Rpp.Cat
