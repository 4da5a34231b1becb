import Verif.Combine.Switch
import Verif.Combine.Props

/-!
# C27 switch_on_next

The property holds when no notification of an inner source is under way at the moment the outer source switches, in particular when all
notifications are serialized.  Without that, a value of the previous inner source can come after the switch (`C27_unserialized_stale`).
-/

namespace Rpp.Comb

variable {α ε : Type}

/-! ## Helpers -/

/-- Every prefix of a history is the history of an earlier moment. -/
theorem prefix_exec {β σ : Type} (H : Hub α β ε σ) (ls : List (Lbl α ε)) {a : List (Ev α β ε)} (h : a <+: (exec H ls).log) :
    ∃ n, (exec H (ls.take n)).log = a := by
  suffices hh : ∀ n, a <+: (exec H (ls.take n)).log → ∃ m, (exec H (ls.take m)).log = a by
    exact hh ls.length (by simpa using h)
  intro n
  induction n with
  | zero => intro h; refine ⟨0, ?_⟩; simp [exec, Hub.initSt] at h ⊢; exact h
  | succ n ih =>
    intro h
    by_cases hn : n < ls.length
    · have he : exec H (ls.take (n + 1)) = step H (exec H (ls.take n)) ls[n] := by
        rw [List.take_succ_eq_append_getElem hn]; unfold exec; rw [List.foldl_append]; rfl
      rw [he] at h
      have hs : (step H (exec H (ls.take n)) ls[n]).log = (exec H (ls.take n)).log ∨
          ∃ ev, (step H (exec H (ls.take n)) ls[n]).log = (exec H (ls.take n)).log ++ [ev] := by
        rcases step_tr H (exec H (ls.take n)) ls[n] with hx | t
        · rw [hx]; exact .inl rfl
        · generalize step H (exec H (ls.take n)) ls[n] = s' at t
          cases t <;> first | exact .inl rfl | exact .inr ⟨_, rfl⟩
      rcases hs with hs | ⟨ev, hs⟩
      · rw [hs] at h; exact ih h
      · by_cases ha : a = (step H (exec H (ls.take n)) ls[n]).log
        · exact ⟨n + 1, by rw [he]; exact ha.symm⟩
        · rw [hs] at h ha
          rcases List.prefix_concat_iff.1 h with h | h
          · exact absurd h ha
          · exact ih h
    · rw [List.take_of_length_le (by omega)] at h
      rw [← List.take_of_length_le (i := n) (l := ls) (by omega)] at h
      exact ih h

theorem sw_inv (ls : List (Lbl α ε)) : SwInv (exec switchHub ls).log := by
  refine sw_made _ (inv2 _ ls).legal fun i a b t hab => ?_
  obtain ⟨c, hc⟩ := processed_prefix (H := switchHub) ls i
  rw [hab] at hc
  have := term_last (inv2 _ ls).legal i (a := a) (t := t) (b := b ++ c) (by rw [← hc]; simp)
  exact (List.append_eq_nil_iff.1 this).1

/-- No `opened` after the outer source's end. -/
theorem current_stays {log p q : List (Ev α α ε)} (h : Legal switchHub log) (he : log = p ++ q) {t : Term ε} (hr : .recv 0 (.term t) ∈ p) :
    current log = current p := by
  subst he
  induction q using snocInduct with
  | h0 => simp
  | hs q ev ih =>
    rw [← List.append_assoc] at h ⊢
    obtain ⟨hL, hO⟩ := h.init
    rw [current_snoc]
    cases ev with
    | opened k => exact absurd (List.mem_append_left _ hr) (hO.2.2 t)
    | _ => exact ih hL

theorem sw_act_next {i : Nat} {c : Sig α ε} {x : SwitchSt} {v : α} (h : (switchHub.act i c x).1 = .out (.next v)) :
    i ≠ 0 ∧ x.cur = some i ∧ c = .next v := by
  simp only [switchHub] at h
  split at h
  · rcases c with w | _ | _ <;> simp only at h
    · cases h
    · cases h
    · split at h <;> cases h
  · next h0 =>
    split at h
    · next hc =>
      rcases c with w | _ | _ <;> simp only at h
      · cases h; exact ⟨h0, hc, rfl⟩
      · cases h
      · split at h <;> cases h
    · cases h

theorem sw_act_err {i : Nat} {c : Sig α ε} {x : SwitchSt} {e : ε} (h : (switchHub.act i c x).1 = .out (.term (.error e))) :
    c = .term (.error e) ∧ (i ≠ 0 → x.cur = some i) := by
  simp only [switchHub] at h
  split at h
  · next h0 =>
    rcases c with w | _ | _ <;> simp only at h
    · cases h
    · cases h; exact ⟨rfl, fun hx => absurd h0 hx⟩
    · split at h <;> cases h
  · next h0 =>
    split at h
    · next hc =>
      rcases c with w | _ | _ <;> simp only at h
      · cases h
      · cases h; exact ⟨rfl, fun _ => hc⟩
      · split at h <;> cases h
    · cases h

theorem sw_act_comp {i : Nat} {c : Sig α ε} {x : SwitchSt} (h : (switchHub.act i c x).1 = .out (.term .completed)) :
    c = .term .completed ∧ ((i = 0 ∧ x.cur = none) ∨ (i ≠ 0 ∧ x.cur = some i ∧ x.outer = false)) := by
  simp only [switchHub] at h
  split at h
  · next h0 =>
    rcases c with w | _ | _ <;> simp only at h
    · cases h
    · cases h
    · split at h
      · next hc => exact ⟨rfl, .inl ⟨h0, by simpa using hc⟩⟩
      · cases h
  · next h0 =>
    split at h
    · next hc =>
      rcases c with w | _ | _ <;> simp only at h
      · cases h
      · cases h
      · split at h
        · cases h
        · next ho => exact ⟨rfl, .inr ⟨h0, hc, by simpa using ho⟩⟩
    · cases h

/-- Once another inner source has arrived, source `i` produces nothing more. -/
theorem sw_frozen {p : List (Ev α α ε)} {i : Nat} (hi : i ≠ 0) (hx : (replay switchHub p).2.cur ≠ some i) (q : List (Ev α α ε))
    (hq : .opened i ∉ q) :
    ofSrc i (replay switchHub (p ++ q)).1 = ofSrc i (replay switchHub p).1 ∧ (replay switchHub (p ++ q)).2.cur ≠ some i := by
  induction q using snocInduct with
  | h0 => simpa using hx
  | hs q ev ih =>
    obtain ⟨h1, h2⟩ := ih fun h => hq (List.mem_append_left _ h)
    rw [← List.append_assoc, replay_snoc]
    generalize replay switchHub (p ++ q) = r at h1 h2
    obtain ⟨outs, x⟩ := r
    simp only at h1 h2
    have key : ∀ j c, let r := switchHub.act j c x
        ofSrc i (match r.1 with | .out o => outs ++ [(j, o)] | _ => outs) = ofSrc i outs ∧ r.2.cur ≠ some i := by
      intro j c
      by_cases hj : j = i
      · subst hj; simp [switchHub, hi, h2]
      · have : ∀ a : Act α ε, ofSrc i (match a with | .out o => outs ++ [(j, o)] | _ => outs) = ofSrc i outs := by
          intro a; cases a <;> simp [ofSrc_append, ofSrc_single, hj]
        refine ⟨this _, ?_⟩
        simp only [switchHub]
        split
        · rcases c with w | _ | _ <;> simpa using h2
        · split
          · rcases c with w | _ | _ <;> simpa using h2
          · exact h2
    cases ev with
    | act j c => have := key j c; simp only [replayStep]; rw [← h1]; exact this
    | actE j e => have := key j (.term (.error e)); simp only [replayStep]; rw [← h1]; exact this
    | opened k =>
      refine ⟨h1, ?_⟩
      simp only [replayStep, switchHub]
      intro hk; cases hk; exact hq (by simp)
    | _ => exact ⟨h1, h2⟩

theorem opened_once {log a b : List (Ev α α ε)} (h : Legal switchHub log) {i : Nat} (he : log = a ++ b) (ha : .opened i ∈ a) : .opened i ∉ b := by
  intro hb
  obtain ⟨p, q, rfl⟩ := List.append_of_mem hb
  exact (h (a ++ p) (.opened i) q (by rw [he]; simp)).2.1 (List.mem_append_left _ ha)

/-! ## Any interleaving -/

/-- The values of the current inner source are delivered, all of them and in order. -/
theorem C27_current (ls : List (Lbl α ε)) (k : Nat) (hk : current (exec switchHub ls).log = some k) (hi : (exec switchHub ls).calls k = .idle)
    (hg : .gone ∉ (exec switchHub ls).log) (he : ¬ Ended (exec switchHub ls).log) :
    sigVals (toldBy k (exec switchHub ls).log) = sigVals (received k (exec switchHub ls).log) := by
  obtain ⟨rest, h1, h2⟩ := outs_begs switchHub ls k
  have h3 := (sw_inv ls).exact k hk
  have h4 := h2 (not_gone ls hg he)
  subst h4
  rw [h1, hi, processed_eq ls hi] at h3
  simpa [Pc.wait, toldBy] using h3

/-- Every value is an inner source's, in its order. -/
theorem C27_prefix (ls : List (Lbl α ε)) (i : Nat) :
    sigVals (toldBy i (exec switchHub ls).log) <+: sigVals (received i (exec switchHub ls).log) := by
  obtain ⟨rest, h1, -⟩ := outs_begs switchHub ls i
  refine List.IsPrefix.trans ?_ (sigVals_prefix (processed_prefix ls i))
  refine List.IsPrefix.trans ?_ ((sw_inv ls).sub i)
  rw [h1, sigVals_append, sigVals_append, List.append_assoc]
  exact List.prefix_append ..

/-- What a previous inner source notifies after the next one has arrived is never delivered. -/
theorem C27_no_late (ls : List (Lbl α ε)) (a b : List (Ev α α ε)) (i k : Nat) (he : (exec switchHub ls).log = a ++ .opened k :: b)
    (hi : .opened i ∈ a) : sigVals (toldBy i (exec switchHub ls).log) <+: sigVals (received i a) := by
  have hL := (inv2 switchHub ls).legal
  have hi0 : i ≠ 0 := by
    rintro rfl
    obtain ⟨p, q, e⟩ := List.append_of_mem (show Ev.opened 0 ∈ (exec switchHub ls).log by rw [he]; exact List.mem_append_left _ hi)
    exact (hL p _ q e).1 (by simp [switchHub])
  have hone := opened_once hL he hi
  have hne : k ≠ i := by rintro rfl; exact hone (by simp)
  obtain ⟨n, hn⟩ := prefix_exec switchHub ls (a := a) (by rw [he]; exact List.prefix_append ..)
  have hfr := sw_frozen (p := a ++ [.opened k]) hi0 (by
    rw [replay_snoc]; simp only [replayStep, switchHub]; intro h; exact hne (Option.some.inj h)) b (fun h => hone (List.mem_cons_of_mem _ h))
  have hl : (exec switchHub ls).log = a ++ [.opened k] ++ b := by rw [he]; simp
  rw [← hl] at hfr
  have hs : (replay switchHub (a ++ [.opened k])).1 = (replay switchHub a).1 := by rw [replay_snoc]; rfl
  rw [hs] at hfr
  obtain ⟨rest, h1, -⟩ := outs_begs switchHub ls i
  rw [hfr.1] at h1
  have h2 := (sw_inv (ls.take n)).sub i
  rw [hn] at h2
  have h3 := processed_prefix (H := switchHub) (ls.take n) i
  rw [hn] at h3
  refine List.IsPrefix.trans (List.IsPrefix.trans ?_ h2) (sigVals_prefix h3)
  rw [h1, sigVals_append, sigVals_append, List.append_assoc]
  exact List.prefix_append ..

/-- It completes only when the outer source and the current inner source have. -/
theorem C27_completes_last (ls : List (Lbl α ε)) (i : Nat) (h : .beg i (.term .completed) ∈ (exec switchHub ls).log) :
    .recv 0 (.term .completed) ∈ (exec switchHub ls).log ∧
    ∀ k, current (exec switchHub ls).log = some k → .recv k (.term .completed) ∈ (exec switchHub ls).log := by
  have hL := (inv2 switchHub ls).legal
  obtain ⟨p, ev, q, c, he, hev, ha⟩ := made_split (told_made _ ls h)
  obtain ⟨rfl, hx⟩ := sw_act_comp ha
  rcases hev with rfl | ⟨e, hc, rfl⟩
  · obtain ⟨n, hn⟩ := prefix_exec switchHub ls (a := p) (by rw [he]; exact List.prefix_append ..)
    have hI := sw_inv (ls.take n)
    rw [hn] at hI
    have hp : ∀ {ev : Ev α α ε}, ev ∈ p → ev ∈ (exec switchHub ls).log := fun h => by rw [he]; exact List.mem_append_left _ h
    have hr : .recv i (.term .completed) ∈ (exec switchHub ls).log := act_recv (inv1 _ ls) (by rw [he]; simp)
    rcases hx with ⟨rfl, hx⟩ | ⟨h0, hx, ho⟩
    · refine ⟨hr, fun k hk => ?_⟩
      have hr' : .recv 0 (.term .completed) ∈ p := hL p _ q he
      rw [current_stays hL (p := p) (q := _ :: q) he hr'] at hk
      refine Classical.byContradiction fun hno => ?_
      have := (hI.cur k).2 ⟨hk, fun hm => hno (act_recv (inv1 _ ls) (hp hm))⟩
      rw [hx] at this; cases this
    · have h1 : .act 0 (.term .completed) ∈ p := Classical.byContradiction fun hno => by
        have := hI.outer.2 hno; rw [ho] at this; cases this
      have h2 : .recv 0 (.term .completed) ∈ p := by
        have := act_recv (inv1 switchHub (ls.take n)) (by rw [hn]; exact h1)
        rwa [hn] at this
      refine ⟨hp h2, fun k hk => ?_⟩
      rw [current_stays hL (p := p) (q := _ :: q) he h2, ((hI.cur i).1 hx).1] at hk
      cases hk; exact hr
  · cases hc

/-- Every error is a source's: the outer one's, or an inner one's. -/
theorem C27_error_origin (ls : List (Lbl α ε)) (i : Nat) (e : ε) (h : .beg i (.term (.error e)) ∈ (exec switchHub ls).log) :
    .recv i (.term (.error e)) ∈ (exec switchHub ls).log := by
  refine (error_origin (fun i c x e h => (sw_act_err h).1) ls h).resolve_right fun hT => ?_
  obtain ⟨p, q, c, ev, _, _, hh⟩ := hT
  simp only [switchHub] at hh
  split at hh
  · rcases c with v | _ | _ <;> simp only at hh
    · cases hh
    · cases hh
    · split at hh <;> cases hh
  · split at hh
    · rcases c with v | _ | _ <;> simp only at hh
      · cases hh
      · cases hh
      · split at hh <;> cases hh
    · cases hh

/-- When the outer source and the current inner source have completed and the calls have returned, it has completed, unless it was disposed or
something failed. -/
theorem C27_completes (ls : List (Lbl α ε)) (hq : Quiet (exec switchHub ls)) (h0 : .recv 0 (.term .completed) ∈ (exec switchHub ls).log)
    (hk : ∀ k, current (exec switchHub ls).log = some k → .recv k (.term .completed) ∈ (exec switchHub ls).log)
    (hg : .gone ∉ (exec switchHub ls).log) (ho : ∀ i e, .own i e ∉ (exec switchHub ls).log)
    (hE : ∀ i e, .recv i (.term (.error e)) ∉ (exec switchHub ls).log) :
    ∃ i, .beg i (.term .completed) ∈ (exec switchHub ls).log := by
  obtain ⟨i, hi⟩ := (sw_inv ls).comp (recv_act (inv1 _ ls) h0 (hq 0)) fun k h => recv_act (inv1 _ ls) (hk k h) (hq k)
  rcases made_told _ ls hi (hq i) with h | h | h
  · exact ⟨i, h⟩
  · exact absurd h hg
  · rcases h with ⟨j, t, h⟩ | ⟨j, e, h⟩
    · cases t with
      | completed => exact ⟨j, h⟩
      | error e => exact absurd (C27_error_origin ls j e h) (hE j e)
    · exact absurd h (ho j e)

/-- An error of the outer source or of the current inner source ends it. -/
theorem C27_error_ends (ls : List (Lbl α ε)) (i : Nat) (e : ε) (h : .recv i (.term (.error e)) ∈ (exec switchHub ls).log)
    (hc : i = 0 ∨ current (exec switchHub ls).log = some i) (hi : (exec switchHub ls).calls i = .idle) :
    .gone ∈ (exec switchHub ls).log ∨ Ended (exec switchHub ls).log := by
  rcases made_told _ ls ((sw_inv ls).err i e hc (recv_act (inv1 _ ls) h hi)) hi with h | h | h
  · exact .inr (.inl ⟨i, _, h⟩)
  · exact .inl h
  · exact .inr h

theorem C27_serialized (ls : List (Lbl α ε)) (pre post : List (Ev α α ε)) (i : Nat) (o : Sig α ε)
    (h : (exec switchHub ls).log = pre ++ .beg i o :: post) : busy pre = false ∧ .gone ∉ pre ∧ ¬ Ended pre :=
  serialized switchHub ls h

/-! ## Serialized notifications -/

/-- Whenever a new inner source arrives, no other notification is under way. -/
def Serial (ls : List (Lbl α ε)) : Prop := ∀ p k q, ls = p ++ .opn k :: q → Quiet (exec (switchHub : Hub α α ε SwitchSt) p)

/-- A value (or error) on its way to the downstream observer. -/
def Pc.way : Pc α α ε → Bool
  | .out (.next _) | .inn (.next _) | .out (.term (.error _)) | .inn (.term (.error _)) => true
  | _ => false

theorem way_after (e : Bool) (a : Act α ε) (h : Pc.way (after e a : Pc α α ε) = true) : (∃ v, a = .out (.next v)) ∨ ∃ e, a = .out (.term (.error e)) := by
  rcases a with _ | o | x
  · cases e <;> simp [after, Pc.way] at h
  · rcases o with v | e' | _
    · exact .inl ⟨v, rfl⟩
    · exact .inr ⟨e', rfl⟩
    · cases e <;> simp [after, Pc.way] at h
  · cases e <;> simp [after, Pc.way] at h

theorem serial_way (ls : List (Lbl α ε)) (hs : Serial ls) :
    ∀ i, i ≠ 0 → ((exec switchHub ls).calls i).way = true → current (exec switchHub ls).log = some i := by
  induction ls using snocInduct with
  | h0 => intro i _ h; simp [exec, Hub.initSt, Pc.way] at h
  | hs ls l ih =>
    have ih := ih fun p k q he => hs p k (q ++ [l]) (by rw [he]; simp)
    have hop : ∀ k, l = .opn k → Quiet (exec (switchHub : Hub α α ε SwitchSt) ls) := fun k hk => hs ls k [] (by rw [hk])
    have he : exec (switchHub : Hub α α ε SwitchSt) (ls ++ [l]) = step switchHub (exec switchHub ls) l := by
      unfold exec; rw [List.foldl_append]; rfl
    rw [he]
    have hI := sw_inv ls
    have h1 := inv1 switchHub ls
    have hcur : ∀ k, (step switchHub (exec switchHub ls) l).log = (exec switchHub ls).log ++ [.opened k] → ∃ j, l = .opn j := by
      intro k hk
      cases l with
      | opn j => exact ⟨j, rfl⟩
      | next i v => simp only [step] at hk; split at hk <;> simp [St.emit, St.goto] at hk
      | term i t => simp only [step] at hk; split at hk <;> simp [St.emit, St.goto] at hk
      | gone => simp only [step] at hk; split at hk <;> simp [St.emit] at hk
      | shut => simp only [step] at hk; split at hk <;> simp at hk
      | ret i r =>
        simp only [step] at hk
        split at hk <;> simp [St.emit, St.goto] at hk
      | run i =>
        simp only [step, St.advance, St.process] at hk
        repeat' split at hk
        all_goals simp [St.emit, St.goto] at hk
    generalize exec (switchHub : Hub α α ε SwitchSt) ls = s at *
    rcases step_tr switchHub s l with h | t
    · rw [h]; exact ih
    · generalize step switchHub s l = s' at *
      cases t with
      | opn k hc ha hd hsh hk hdy =>
        obtain ⟨j, hj⟩ := hcur k rfl
        intro i hi hw
        simp only [St.emit, St.goto] at hw
        split at hw
        · cases hw
        · rw [hop j hj i] at hw; cases hw
      | early j c ev hp hea =>
        intro i hi hw
        simp only [St.emit, St.goto] at hw ⊢
        have hcn : current (s.log ++ [ev]) = current s.log := by
          rw [current_snoc]; rcases hp with ⟨_, rfl⟩ | ⟨e, _, rfl, rfl⟩ <;> rfl
        rw [hcn]
        split at hw
        · next e =>
          subst e
          rcases way_after _ _ hw with ⟨v, hv⟩ | ⟨e, hv⟩
          · have := (sw_act_next hv).2.1
            rw [h1.st] at this
            exact ((hI.cur i).1 this).1
          · have := (sw_act_err hv).2 hi
            rw [h1.st] at this
            exact ((hI.cur i).1 this).1
        · exact ih i hi hw
      | late j c ev hp hea => cases hea
      | finNext j v p hc hp =>
        intro i hi hw
        simp only [St.emit, St.goto, current_snoc] at hw ⊢
        split at hw
        · rcases hp with rfl | ⟨e, rfl⟩ <;> cases hw
        · exact ih i hi hw
      | enter j o hc hl =>
        intro i hi hw
        simp only [St.emit, St.goto, current_snoc] at hw ⊢
        split at hw
        · next e =>
          subst e
          refine ih i hi ?_
          rw [hc]; rcases o with v | e | _ <;> first | rfl | exact hw
        · exact ih i hi hw
      | gone | shut =>
        intro i hi hw
        simp only [St.emit, St.goto, current_snoc] at hw ⊢
        exact ih i hi hw
      | _ =>
        intro i hi hw
        simp only [St.emit, St.goto, current_snoc] at hw ⊢
        split at hw
        · cases hw
        · exact ih i hi hw

/-- With serialized notifications, only values (and errors) of the inner source that arrived last are delivered. -/
theorem C27_only_current (ls : List (Lbl α ε)) (hs : Serial ls) (pre post : List (Ev α α ε)) (i : Nat) (o : Sig α ε)
    (he : (exec switchHub ls).log = pre ++ .beg i o :: post) (ho : (∃ v, o = .next v) ∨ (i ≠ 0 ∧ ∃ e, o = .term (.error e))) :
    current pre = some i := by
  have hi : i ≠ 0 := by
    rcases ho with ⟨v, rfl⟩ | h
    · obtain ⟨p, ev, q, c, _, _, ha⟩ := made_split (told_made _ ls (show Ev.beg i (.next v) ∈ (exec switchHub ls).log by rw [he]; simp))
      exact (sw_act_next ha).1
    · exact h.1
  obtain ⟨n, hn⟩ := prefix_exec switchHub ls (a := pre ++ [.beg i o]) (by rw [he]; exact ⟨post, by simp⟩)
  have hs' : ∀ m, Serial (ls.take m) := fun m p k q h => hs p k (q ++ ls.drop m) (by
    have := List.take_append_drop m ls; rw [h] at this; rw [List.append_assoc] at this; exact this.symm)
  -- the step at which `beg` is logged
  have : ∀ m, (exec switchHub (ls.take m)).log = pre ++ [.beg i o] → current pre = some i := by
    intro m
    induction m with
    | zero => intro h; simp [exec, Hub.initSt] at h
    | succ m ih =>
      intro h
      by_cases hm : m < ls.length
      · have hx : exec (switchHub : Hub α α ε SwitchSt) (ls.take (m + 1)) = step switchHub (exec switchHub (ls.take m)) ls[m] := by
          rw [List.take_succ_eq_append_getElem hm]; unfold exec; rw [List.foldl_append]; rfl
        rw [hx] at h
        have hw := serial_way (ls.take m) (hs' m)
        generalize exec (switchHub : Hub α α ε SwitchSt) (ls.take m) = s at *
        rcases step_tr switchHub s ls[m] with h' | t
        · rw [h'] at h; exact ih h
        · generalize step switchHub s ls[m] = s' at *
          have hinj : ∀ ev, s.log ++ [ev] = pre ++ [.beg i o] → s.log = pre ∧ ev = .beg i o := fun ev hh => by
            obtain ⟨h1, h2⟩ := List.append_inj' hh rfl
            exact ⟨h1, by simpa using h2⟩
          cases t with
          | beg j o' hc hg =>
            obtain ⟨h1, h2⟩ := hinj _ h
            cases h2
            rw [← h1]
            refine hw i hi ?_
            rw [hc]
            rcases ho with ⟨v, rfl⟩ | ⟨_, e, rfl⟩ <;> rfl
          | early j c ev hp hea =>
            have := (hinj _ h).2
            rcases hp with ⟨_, rfl⟩ | ⟨e, _, rfl, rfl⟩ <;> cases this
          | late j c ev hp hea => cases hea
          | drop | enter | skip | mark | rel | relThrow | opened | shut => exact ih h
          | _ => cases (hinj _ h).2
      · rw [List.take_of_length_le (by omega), ← List.take_of_length_le (i := m) (l := ls) (by omega)] at h
        exact ih h
  exact this n hn

/-- And at each switch, everything the previous inner source had notified has been delivered, and nothing of it comes afterwards. -/
theorem C27_switch (ls : List (Lbl α ε)) (hs : Serial ls) (a b : List (Ev α α ε)) (i k : Nat)
    (he : (exec switchHub ls).log = a ++ .opened k :: b) (hi : current a = some i) (hg : .gone ∉ a) (hE : ¬ Ended a) :
    sigVals (toldBy i (exec switchHub ls).log) = sigVals (received i a) := by
  have hL := (inv2 switchHub ls).legal
  have hone := opened_once hL he (current_opened hi)
  have hs' : ∀ m, Serial (ls.take m) := fun m p k q h => hs p k (q ++ ls.drop m) (by
    have := List.take_append_drop m ls; rw [h] at this; rw [List.append_assoc] at this; exact this.symm)
  -- the moment of the switch
  have hq : ∃ m, (exec switchHub (ls.take m)).log = a ∧ Quiet (exec (switchHub : Hub α α ε SwitchSt) (ls.take m)) := by
    obtain ⟨n, hn⟩ := prefix_exec switchHub ls (a := a ++ [.opened k]) (by rw [he]; exact ⟨b, by simp⟩)
    have : ∀ m, (exec switchHub (ls.take m)).log = a ++ [.opened k] →
        ∃ m, (exec switchHub (ls.take m)).log = a ∧ Quiet (exec (switchHub : Hub α α ε SwitchSt) (ls.take m)) := by
      intro m
      induction m with
      | zero => intro h; simp [exec, Hub.initSt] at h
      | succ m ih =>
        intro h
        by_cases hm : m < ls.length
        · have hx : exec (switchHub : Hub α α ε SwitchSt) (ls.take (m + 1)) = step switchHub (exec switchHub (ls.take m)) ls[m] := by
            rw [List.take_succ_eq_append_getElem hm]; unfold exec; rw [List.foldl_append]; rfl
          by_cases hl : ∃ j, ls[m] = .opn j
          · obtain ⟨j, hj⟩ := hl
            have hqm : Quiet (exec (switchHub : Hub α α ε SwitchSt) (ls.take m)) := hs (ls.take m) j (ls.drop (m + 1)) (by
              rw [← hj, List.getElem_cons_drop, List.take_append_drop])
            rw [hx, hj] at h
            simp only [step] at h
            split at h
            · refine ⟨m, ?_, hqm⟩
              simp only [St.emit, St.goto] at h
              exact (List.append_inj' h rfl).1
            · exact ih h
          · refine ih ?_
            rw [hx] at h
            generalize exec (switchHub : Hub α α ε SwitchSt) (ls.take m) = s at *
            generalize hlm : ls[m] = l at *
            have hinj : ∀ ev, s.log ++ [ev] = a ++ [.opened k] → ev = .opened k := fun ev hh => by
              simpa using (List.append_inj' hh rfl).2
            cases l with
            | opn j => exact absurd ⟨j, rfl⟩ hl
            | next i v =>
              simp only [step] at h; split at h
              · cases hinj _ h
              · exact h
            | term i t =>
              simp only [step] at h; split at h
              · cases hinj _ h
              · exact h
            | gone =>
              simp only [step] at h; split at h
              · exact h
              · cases hinj _ h
            | shut => simp only [step] at h; split at h <;> exact h
            | ret i r =>
              simp only [step] at h
              split at h <;> first | exact h | cases hinj _ h
            | run i =>
              simp only [step, St.advance, St.process] at h
              repeat' split at h
              all_goals first | exact h | cases hinj _ h
        · rw [List.take_of_length_le (by omega), ← List.take_of_length_le (i := m) (l := ls) (by omega)] at h
          exact ih h
    exact this n hn
  obtain ⟨m, hm, hq⟩ := hq
  have h1 := C27_current (ls.take m) i (by rw [hm]; exact hi) (hq i) (by rw [hm]; exact hg) (by rw [hm]; exact hE)
  rw [hm] at h1
  rw [← h1, he]
  have : ∀ v, .beg i (.next v) ∉ (.opened k :: b : List (Ev α α ε)) := by
    intro v hv
    obtain ⟨p, q, hpq⟩ := List.append_of_mem hv
    have := C27_only_current ls hs (a ++ p) q i (.next v) (by rw [he, hpq]; simp) (.inl ⟨v, rfl⟩)
    rcases p with _ | ⟨x, p⟩
    · cases hpq
    · cases hpq
      have hc : ∀ p : List (Ev α α ε), current (a ++ .opened k :: p) = some k ∨ ∃ j, .opened j ∈ p ∧ current (a ++ .opened k :: p) = some j := by
        intro p
        induction p using snocInduct with
        | h0 => left; rw [current_snoc]
        | hs p ev ih =>
          rw [show a ++ .opened k :: (p ++ [ev]) = (a ++ .opened k :: p) ++ [ev] by simp, current_snoc]
          cases ev with
          | opened j => exact .inr ⟨j, by simp, rfl⟩
          | _ =>
            rcases ih with h | ⟨j, h1, h2⟩
            · exact .inl h
            · exact .inr ⟨j, List.mem_append_left _ h1, h2⟩
      rcases hc p with h | ⟨j, h1, h2⟩
      · rw [this] at h; cases h; exact hone (by simp)
      · rw [this] at h2; cases h2; exact hone (by simp [h1])
  have hnil : ∀ l : List (Ev α α ε), (∀ v, .beg i (.next v) ∉ l) → sigVals (toldBy i l) = [] := by
    intro l hl
    rcases hx : sigVals (toldBy i l) with _ | ⟨v, t⟩
    · rfl
    · exact absurd (mem_begs.1 (mem_ofSrc.1 (mem_sigVals.1 (show v ∈ sigVals (toldBy i l) by rw [hx]; simp)))) (hl v)
  have happ : toldBy i (a ++ .opened k :: b) = toldBy i a ++ toldBy i (.opened k :: b) := by
    unfold toldBy begs; rw [List.filterMap_append, ofSrc_append]
  rw [happ, sigVals_append, hnil _ this, List.append_nil]

/-- Values 1, 2 of the first inner source, then the second arrives, 3 of the first is dropped, 4 of the second is delivered; the outer source and the
second inner source complete. -/
def switchDemo : List (Lbl Nat Nat) :=
  [.opn 1, .run 0] ++ whole 1 (.next 1 1) ++ whole 1 (.next 1 2) ++ [.opn 2, .run 0] ++ [.next 1 3, .run 1] ++ whole 2 (.next 2 4) ++
    [.term 0 .completed, .run 0] ++ whole 2 (.term 2 .completed)

example : begs (exec switchHub switchDemo).log = [(1, .next 1), (1, .next 2), (2, .next 4), (2, .term .completed)] ∧
    current (exec switchHub switchDemo).log = some 2 := by decide

theorem idle_inactive (ls : List (Lbl α ε)) (i : Nat) (h : (exec switchHub ls).active i = false) : (exec switchHub ls).calls i = .idle := by
  refine exec_induct switchHub (P := fun s => s.active i = false → s.calls i = .idle ∧ True) (fun _ => ⟨rfl, trivial⟩) ?_ ls h |>.1
  intro s s' ih t hi
  have hne : ∀ j, s.calls j ≠ .idle → s.active i = false → j ≠ i := by rintro j hj ha rfl; exact hj (ih ha).1
  cases t <;> simp only [St.emit, St.goto] at hi ⊢ <;> grind [Pending]

example : Serial switchDemo := by
  have key : ∀ n, n < 36 → (match switchDemo[n]? with | some (.opn _) => n == 0 || n == 16 | _ => true) = true := by decide
  have hq0 : Quiet (exec (switchHub : Hub Nat Nat Nat SwitchSt) (switchDemo.take 0)) := fun i => rfl
  have hq1 : Quiet (exec (switchHub : Hub Nat Nat Nat SwitchSt) (switchDemo.take 16)) := fun i => by
    by_cases h0 : i = 0
    · subst h0; decide
    · by_cases h1 : i = 1
      · subst h1; decide
      · refine idle_inactive _ _ ?_
        cases hx : (exec (switchHub : Hub Nat Nat Nat SwitchSt) (switchDemo.take 16)).active i
        · rfl
        · have hlog : ∀ ev ∈ (exec (switchHub : Hub Nat Nat Nat SwitchSt) (switchDemo.take 16)).log, (match ev with | .opened k => k == 1 | _ => true) = true := by decide
          rcases ((inv1 _ _).active i).1 hx with h | h
          · simp [switchHub, h0] at h
          · have := hlog _ h; simp at this; exact absurd this h1
  intro p k q h
  have hlen : p.length < 36 := by
    have := congrArg List.length h
    rw [List.length_append, List.length_cons, show switchDemo.length = 36 from rfl] at this; omega
  have hp : p = switchDemo.take p.length := by rw [h]; simp
  have hk := key p.length hlen
  rw [show switchDemo[p.length]? = some (.opn k) by rw [h]; simp] at hk
  simp at hk
  rcases hk with h0 | h0
  · rw [hp, h0]; exact hq0
  · rw [hp, h0]; exact hq1

/-- Not in general: while a value of the first inner source waits for the mutex, the second arrives; the value is delivered nevertheless. -/
theorem C27_unserialized_stale : ∃ ls : List (Lbl Nat Nat), ∃ pre post,
    (exec switchHub ls).log = pre ++ .beg 1 (.next 5) :: post ∧ current pre = some 2 :=
  ⟨[.opn 1, .run 0, .next 1 5, .run 1, .opn 2, .run 1, .run 1],
    [.opened 1, .recv 1 (.next 5), .act 1 (.next 5), .opened 2], [], by decide, by decide⟩

end Rpp.Comb
