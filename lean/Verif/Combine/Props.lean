import Verif.Combine.ErrorProofs

/-!
# Properties of merge, zip, combine_latest, with_latest_from and take_until

`ls : List (Lbl α ε)` is any schedule: which source notifies when, how the notifications interleave, when callbacks of the
downstream observer return, when it is disposed.
-/

namespace Rpp.Comb

variable {α β ε : Type}

/-- No notification is under way. -/
def Quiet {σ : Type} (s : St α β ε σ) : Prop := ∀ i, s.calls i = .idle

/-! ## C23 merge -/

/-- Every value of every inner source is delivered exactly once and in its own order: as long as the downstream observer is neither disposed
nor ended, what it was told by `k` is what `k` notified, as soon as `k`'s notification has returned. -/
theorem C23_lossless (ls : List (Lbl α ε)) (k : Nat) (hk : k ≠ 0) (hi : (exec mergeHub ls).calls k = .idle)
    (hg : .gone ∉ (exec mergeHub ls).log) (he : ¬ Ended (exec mergeHub ls).log) :
    sigVals (toldBy k (exec mergeHub ls).log) = sigVals (received k (exec mergeHub ls).log) := by
  obtain ⟨rest, h1, h2⟩ := outs_begs mergeHub ls k
  have h3 := merge_made k hk (exec mergeHub ls).log
  have h4 := h2 (not_gone ls hg he)
  subst h4
  rw [h1, hi, processed_eq ls hi] at h3
  simpa [Pc.wait, toldBy] using h3

/-- And never more than that, or in another order. -/
theorem C23_prefix (ls : List (Lbl α ε)) (k : Nat) (hk : k ≠ 0) :
    sigVals (toldBy k (exec mergeHub ls).log) <+: sigVals (received k (exec mergeHub ls).log) := by
  obtain ⟨rest, h1, h2⟩ := outs_begs mergeHub ls k
  have h3 := merge_made k hk (exec mergeHub ls).log
  refine List.IsPrefix.trans ?_ (sigVals_prefix (processed_prefix ls k))
  rw [← h3, h1, sigVals_append, sigVals_append, List.append_assoc]
  exact List.prefix_append ..

/-- Every value comes from an inner source. -/
theorem C23_origin (ls : List (Lbl α ε)) (i : Nat) (v : α) (h : .beg i (.next v) ∈ (exec mergeHub ls).log) :
    i ≠ 0 ∧ .recv i (.next v) ∈ (exec mergeHub ls).log := by
  have hi : i ≠ 0 := by
    rintro rfl
    obtain ⟨p, ev, q, c, _, _, ha⟩ := made_split (told_made _ ls h)
    rcases c with v | _ | _ <;> simp [mergeHub] at ha
    split at ha <;> cases ha
  refine ⟨hi, ?_⟩
  rw [← mem_received, ← mem_sigVals]
  exact (C23_prefix ls i hi).subset (mem_sigVals.2 (mem_ofSrc.2 (mem_begs.2 h)))

/-- It completes only after the outer source and every inner source have, and then everything has been delivered. -/
theorem C23_completes_last (ls : List (Lbl α ε)) (i : Nat) (h : .beg i (.term .completed) ∈ (exec mergeHub ls).log) :
    .recv 0 (.term .completed) ∈ (exec mergeHub ls).log ∧
    ∀ k, .opened k ∈ (exec mergeHub ls).log → .recv k (.term .completed) ∈ (exec mergeHub ls).log ∧
      sigVals (toldBy k (exec mergeHub ls).log) = sigVals (received k (exec mergeHub ls).log) := by
  have hA := completes_only merge_counting (by simp [mergeHub]) ls h
  refine ⟨hA 0 (.inl (by simp [mergeHub])), fun k hk => ⟨hA k (.inr hk), ?_⟩⟩
  have hk0 : k ≠ 0 := by
    rintro rfl
    obtain ⟨p, q, e⟩ := List.append_of_mem hk
    exact ((inv2 mergeHub ls).legal p _ q e).1 (by simp [mergeHub])
  obtain ⟨-, h1, h2⟩ := complete_values merge_counting (by simp [mergeHub]) merge_late merge_val ls ⟨i, h⟩
  rw [← h2, merge_made k hk0, h1]

/-- Every error is a source's. -/
theorem C23_error_origin (ls : List (Lbl α ε)) (i : Nat) (e : ε) (h : .beg i (.term (.error e)) ∈ (exec mergeHub ls).log) :
    .recv i (.term (.error e)) ∈ (exec mergeHub ls).log := by
  refine (error_origin merge_err ls h).resolve_right ?_
  rintro ⟨_, _, c, _, _, _, hh⟩
  rcases c with v | _ | _ <;> simp [mergeHub] at hh
  · split at hh <;> cases hh
  · split at hh <;> cases hh

/-- When an error of an inner source is passed on, all of its values have been before. -/
theorem C23_error_order (ls : List (Lbl α ε)) (i : Nat) (e : ε) (hi : i ≠ 0) (h : .beg i (.term (.error e)) ∈ (exec mergeHub ls).log) :
    sigVals (toldBy i (exec mergeHub ls).log) = sigVals (received i (exec mergeHub ls).log) :=
  merge_error_order ls hi h

/-- Once the outer and every inner source have completed and the calls have returned, it has completed: unless the downstream observer was
disposed or failed itself. -/
theorem C23_completes (ls : List (Lbl α ε)) (hq : Quiet (exec mergeHub ls)) (h0 : .recv 0 (.term .completed) ∈ (exec mergeHub ls).log)
    (hk : ∀ k, .opened k ∈ (exec mergeHub ls).log → .recv k (.term .completed) ∈ (exec mergeHub ls).log)
    (hg : .gone ∉ (exec mergeHub ls).log) (ho : ∀ i e, .own i e ∉ (exec mergeHub ls).log) :
    ∃ i, .beg i (.term .completed) ∈ (exec mergeHub ls).log := by
  have hA : AllDone mergeHub (exec mergeHub ls).log := fun k h => h.elim (fun h => by simp [mergeHub] at h; subst h; exact h0) (hk k)
  rcases completes_when merge_counting (by simp [mergeHub]) ls hq hA with h | ⟨i, t, h⟩ | ⟨i, e, h⟩
  · exact absurd h hg
  · cases t with
    | completed => exact ⟨i, h⟩
    | error e =>
      have hr := C23_error_origin ls i e h
      have := one_terminal mergeHub ls hr (hA i (recv_active (inv2 _ ls) hr))
      cases this
  · exact absurd h (ho i e)

/-- An error of any source ends it. -/
theorem C23_error_ends (ls : List (Lbl α ε)) (i : Nat) (e : ε) (h : .recv i (.term (.error e)) ∈ (exec mergeHub ls).log)
    (hi : (exec mergeHub ls).calls i = .idle) : .gone ∈ (exec mergeHub ls).log ∨ Ended (exec mergeHub ls).log :=
  error_ends merge_err' ls h hi

/-- **C23** (every source is heard): what the main source and the inner sources subscribed to notify is taken by the operator, as long as nothing has ended and no other notification of
that source is under way. -/
theorem C23_heard (ls : List (Lbl α ε)) (i : Nat) (hs : i = 0 ∨ .opened i ∈ (exec mergeHub ls).log)
    (hi : (exec mergeHub ls).calls i = .idle) (hd : ∀ t, .recv i (.term t) ∉ (exec mergeHub ls).log)
    (hg : .gone ∉ (exec mergeHub ls).log) (he : ¬ Ended (exec mergeHub ls).log) :
    (∀ v, (exec mergeHub (ls ++ [.next i v])).log = (exec mergeHub ls).log ++ [.recv i (.next v)]) ∧
    ∀ t, (exec mergeHub (ls ++ [.term i t])).log = (exec mergeHub ls).log ++ [.recv i (.term t)] :=
  heard ls i (hs.imp (fun h => by simp [mergeHub, h]) id) hi hd hg he

/-- The second inner source, while a value of the first is being delivered. -/
example : let s := exec (α := Nat) (ε := Nat) mergeHub [.opn 1, .run 0, .opn 2, .run 0, .next 1 5, .run 1]
    .opened 2 ∈ s.log ∧ (s.calls 2).isIdle = true ∧ received 2 s.log = [] ∧ s.gone = false ∧ received 1 s.log = [.next 5] := by decide

/-- The downstream observer is never called while a callback is running, after it was disposed, or after its end; so there is at most one end. -/
theorem C23_serialized (ls : List (Lbl α ε)) (pre post : List (Ev α α ε)) (i : Nat) (o : Sig α ε)
    (h : (exec mergeHub ls).log = pre ++ .beg i o :: post) : busy pre = false ∧ .gone ∉ pre ∧ ¬ Ended pre :=
  serialized mergeHub ls h

/-- Two inner sources, interleaved; both complete after the outer one. -/
def mergeDemo : List (Lbl Nat Nat) :=
  [.opn 1, .run 0, .opn 2, .run 0, .next 1 10, .next 2 20, .run 2, .run 2, .ret 2 .ok, .run 1, .run 2, .run 1, .run 1, .ret 1 .ok, .run 1,
   .term 0 .completed, .run 0, .term 2 .completed, .run 2, .next 1 11, .run 1, .run 1, .ret 1 .ok, .run 1,
   .term 1 .completed, .run 1, .run 1, .run 1, .ret 1 .ok, .run 1, .run 1]

example : (begs (exec mergeHub mergeDemo).log, received 1 (exec mergeHub mergeDemo).log, received 2 (exec mergeHub mergeDemo).log) =
    ([(2, .next 20), (1, .next 10), (1, .next 11), (1, .term .completed)], [.next 10, .next 11, .term .completed],
     [.next 20, .term .completed]) := by decide
example : (exec mergeHub (mergeDemo.take 24)).calls 1 = .idle ∧ Ev.gone ∉ (exec mergeHub (mergeDemo.take 24)).log ∧
    received 1 (exec mergeHub (mergeDemo.take 24)).log = [.next 10, .next 11] := by decide
/-- An inner error while another inner waits for the mutex. -/
example : begs (exec mergeHub ([.opn 1, .run 0, .opn 2, .run 0, .next 1 10, .term 2 (.error 7), .run 2, .run 2, .run 2, .run 1, .ret 2 .ok, .run 2,
    .run 2, .run 1, .run 1, .run 1] : List (Lbl Nat Nat))).log = [(2, .term (.error 7))] := by decide

/-! ## C24 zip -/

/-- The `k`-th value delivered is the selector applied to the `k`-th values of all sources. -/
theorem C24_by_index (n : Nat) (hn : 0 < n) (sel : List α → Except ε β) (ls : List (Lbl α ε)) (k : Nat) (w : β)
    (h : (values (exec (zipHub n sel) ls).log)[k]? = some w) :
    sel (row n (fun j => sigVals (received j (exec (zipHub n sel) ls).log)) k) = .ok w ∧
    ∀ j < n, k < (sigVals (received j (exec (zipHub n sel) ls).log)).length := by
  obtain ⟨rest, h1, -⟩ := values_order _ (zip_late n sel) ls
  have hz := zip_made hn sel (exec (zipHub n sel) ls).log
  have hk : (nexts (replay (zipHub n sel) (exec (zipHub n sel) ls).log).1)[k]? = some w := by
    rw [h1, List.append_assoc, List.getElem?_append_left (List.getElem?_eq_some_iff.1 h).1]; exact h
  have hlt : ∀ j < n, k < (sigVals (processed j (exec (zipHub n sel) ls).log)).length := fun j hj =>
    Nat.lt_of_lt_of_le (List.getElem?_eq_some_iff.1 hk).1 (hz.pend j hj).1
  refine ⟨?_, fun j hj => Nat.lt_of_lt_of_le (hlt j hj) (sigVals_prefix (processed_prefix ls j)).length_le⟩
  rw [← hz.rows k w hk]
  congr 1
  apply row_congr
  intro j hj
  obtain ⟨t, ht⟩ := sigVals_prefix (processed_prefix (H := zipHub n sel) ls j)
  simp only [← ht]
  exact List.getElem?_append_left (hlt j hj)

/-- As long as it is neither disposed nor ended, and whenever it has completed, exactly as many as the shortest source: if no row makes the selector throw. -/
theorem C24_count (n : Nat) (hn : 0 < n) (sel : List α → Except ε β) (hsel : ∀ l, ∃ w, sel l = .ok w) (ls : List (Lbl α ε))
    (h : (Quiet (exec (zipHub n sel) ls) ∧ .gone ∉ (exec (zipHub n sel) ls).log ∧ ¬ Ended (exec (zipHub n sel) ls).log) ∨
      ∃ i, .beg i (.term .completed) ∈ (exec (zipHub n sel) ls).log) :
    (∀ j < n, (values (exec (zipHub n sel) ls).log).length ≤ (sigVals (received j (exec (zipHub n sel) ls).log)).length) ∧
    ∃ j < n, (values (exec (zipHub n sel) ls).log).length = (sigVals (received j (exec (zipHub n sel) ls).log)).length := by
  have hz := zip_made hn sel (exec (zipHub n sel) ls).log
  have hh : nexts (replay (zipHub n sel) (exec (zipHub n sel) ls).log).1 = values (exec (zipHub n sel) ls).log ∧
      ∀ k, processed k (exec (zipHub n sel) ls).log = received k (exec (zipHub n sel) ls).log := by
    rcases h with ⟨hq, hg, he⟩ | h
    · obtain ⟨rest, h1, h2⟩ := values_order _ (zip_late n sel) ls
      rw [h2 (not_gone ls hg he)] at h1
      refine ⟨?_, fun k => processed_eq ls (hq k)⟩
      rw [h1]
      have : (exec (zipHub n sel) ls).atDoor = [] := by
        unfold St.atDoor
        cases (exec (zipHub n sel) ls).lock with
        | none => rfl
        | some i => simp [hq i]
      simp [this]
    · obtain ⟨h1, h2, -⟩ := complete_values (zip_counting n sel) (by simp [zipHub, hn]) (zip_late n sel) (zip_val n sel) ls h
      exact ⟨h1, h2⟩
  rw [← hh.1]
  simp only [← hh.2]
  refine ⟨fun j hj => (hz.pend j hj).1, ?_⟩
  rcases hz.full with ⟨j, hj, h⟩ | ⟨⟨e, he⟩, -⟩
  · exact ⟨j, hj, h.symm⟩
  · obtain ⟨w, hw⟩ := hsel (row n (fun j => sigVals (processed j (exec (zipHub n sel) ls).log)) (nexts (replay (zipHub n sel) (exec (zipHub n sel) ls).log).1).length)
    rw [hw] at he; cases he

/-- Whatever the selector does: when it has completed, it has delivered as many as the shortest source, unless the selector throws for the next row. -/
theorem C24_complete_count (n : Nat) (hn : 0 < n) (sel : List α → Except ε β) (ls : List (Lbl α ε)) (i : Nat)
    (h : .beg i (.term .completed) ∈ (exec (zipHub n sel) ls).log) :
    (∃ j < n, (values (exec (zipHub n sel) ls).log).length = (sigVals (received j (exec (zipHub n sel) ls).log)).length) ∨
    ∃ e, sel (row n (fun j => sigVals (received j (exec (zipHub n sel) ls).log)) (values (exec (zipHub n sel) ls).log).length) = .error e := by
  obtain ⟨h1, h2, -⟩ := complete_values (zip_counting n sel) (by simp [zipHub, hn]) (zip_late n sel) (zip_val n sel) ls ⟨i, h⟩
  rw [← h1]
  simp only [← h2]
  rcases (zip_made hn sel (exec (zipHub n sel) ls).log).full with ⟨j, hj, h⟩ | ⟨he, -⟩
  · exact .inl ⟨j, hj, h.symm⟩
  · exact .inr he

/-- It completes only when all sources have completed. -/
theorem C24_completes_last (n : Nat) (hn : 0 < n) (sel : List α → Except ε β) (ls : List (Lbl α ε)) (i : Nat)
    (h : .beg i (.term .completed) ∈ (exec (zipHub n sel) ls).log) : ∀ j < n, .recv j (.term .completed) ∈ (exec (zipHub n sel) ls).log :=
  fun j hj => completes_only (zip_counting n sel) (by simp [zipHub, hn]) ls h j (.inl (by simp [zipHub, hj]))

/-- Every error is a source's or the selector's: for the row after the last one that was delivered. -/
theorem C24_error_origin (n : Nat) (hn : 0 < n) (sel : List α → Except ε β) (ls : List (Lbl α ε)) (i : Nat) (e : ε)
    (h : .beg i (.term (.error e)) ∈ (exec (zipHub n sel) ls).log) :
    .recv i (.term (.error e)) ∈ (exec (zipHub n sel) ls).log ∨
    (sel (row n (fun j => sigVals (received j (exec (zipHub n sel) ls).log)) (values (exec (zipHub n sel) ls).log).length) = .error e ∧
      ∀ j < n, (values (exec (zipHub n sel) ls).log).length < (sigVals (received j (exec (zipHub n sel) ls).log)).length) := by
  obtain ⟨pre, post, he⟩ := List.append_of_mem h
  obtain ⟨ks, l, h1, h2⟩ := log_cut _ ls he
  obtain ⟨h3, h4, -⟩ := end_values _ (zip_late n sel) ls he
  have hs : (exec (zipHub n sel) (ks ++ [l])).log = pre ++ [.beg i (.term (.error e))] := by
    rw [← h2]; unfold exec; rw [List.foldl_append]; rfl
  rcases error_origin (zip_err n sel) (ks ++ [l]) (i := i) (e := e) (by rw [hs]; simp) with hr | hT
  · left
    rw [hs] at hr
    rw [he]
    rcases List.mem_append.1 hr with hr | hr
    · exact List.mem_append_left _ hr
    · simp at hr
  · right
    obtain ⟨h5, h6⟩ := zip_threw_row hn sel hT
    have hlen : (nexts (replay (zipHub n sel) (exec (zipHub n sel) (ks ++ [l])).log).1).length = (values (exec (zipHub n sel) ls).log).length := by
      rw [hs, replay_snoc, h4, ← h3]; rfl
    rw [hlen] at h5 h6
    have hpre : ∀ j, sigVals (processed j (exec (zipHub n sel) (ks ++ [l])).log) <+: sigVals (received j (exec (zipHub n sel) ls).log) := fun j => by
      refine (sigVals_prefix (processed_prefix (ks ++ [l]) j)).trans (sigVals_prefix ?_)
      rw [hs, he]
      have : pre ++ Ev.beg i (.term (.error e)) :: post = (pre ++ [.beg i (.term (.error e))]) ++ post := by simp
      rw [this, received_append j (_ ++ _)]
      exact List.prefix_append ..
    refine ⟨?_, fun j hj => Nat.lt_of_lt_of_le (h6 j hj) (hpre j).length_le⟩
    rw [← h5]
    congr 1
    refine row_congr fun j hj => ?_
    obtain ⟨t, ht⟩ := hpre j
    rw [← ht, List.getElem?_append_left (h6 j hj)]

/-- When all sources have completed and the calls have returned, it has completed: unless disposed, or the selector or the downstream observer threw. -/
theorem C24_completes (n : Nat) (hn : 0 < n) (sel : List α → Except ε β) (hsel : ∀ l, ∃ w, sel l = .ok w) (ls : List (Lbl α ε))
    (hq : Quiet (exec (zipHub n sel) ls)) (hk : ∀ j < n, .recv j (.term .completed) ∈ (exec (zipHub n sel) ls).log)
    (hg : .gone ∉ (exec (zipHub n sel) ls).log) (ho : ∀ i e, .own i e ∉ (exec (zipHub n sel) ls).log) :
    ∃ i, .beg i (.term .completed) ∈ (exec (zipHub n sel) ls).log := by
  have hA : AllDone (zipHub n sel) (exec (zipHub n sel) ls).log := fun k h => by
    rcases h with h | h
    · exact hk k (by simpa [zipHub] using h)
    · exact absurd h (no_opened rfl ls k)
  rcases completes_when (zip_counting n sel) (by simp [zipHub, hn]) ls hq hA with h | ⟨i, t, h⟩ | ⟨i, e, h⟩
  · exact absurd h hg
  · cases t with
    | completed => exact ⟨i, h⟩
    | error e =>
      rcases C24_error_origin n hn sel ls i e h with hr | ⟨hl, -⟩
      · have := one_terminal _ ls hr (hA i (recv_active (inv2 _ ls) hr))
        cases this
      · obtain ⟨w, hw⟩ := hsel _; rw [hw] at hl; cases hl
  · exact absurd h (ho i e)

/-- An error of any source, or of the selector, ends it. -/
theorem C24_error_ends (n : Nat) (sel : List α → Except ε β) (ls : List (Lbl α ε)) (i : Nat) (e : ε)
    (h : .recv i (.term (.error e)) ∈ (exec (zipHub n sel) ls).log ∨ Threw (zipHub n sel) (exec (zipHub n sel) ls).log i e)
    (hi : (exec (zipHub n sel) ls).calls i = .idle) : .gone ∈ (exec (zipHub n sel) ls).log ∨ Ended (exec (zipHub n sel) ls).log :=
  h.elim (error_ends (zip_err' n sel) ls · hi) (throw_ends (zip_err' n sel) ls · hi)

/-- The selector of the examples: the list itself, or an error if a value is 99. -/
def demoSel (l : List Nat) : Except Nat (List Nat) := if 99 ∈ l then .error 7 else .ok l

/-- **C24** (every source is heard): what any of the `n` sources notifies is taken by the operator, as long as nothing has ended and no other notification of
that source is under way. -/
theorem C24_heard (n : Nat) (sel : List α → Except ε β) (ls : List (Lbl α ε)) (i : Nat) (hs : i < n)
    (hi : (exec (zipHub n sel) ls).calls i = .idle) (hd : ∀ t, .recv i (.term t) ∉ (exec (zipHub n sel) ls).log)
    (hg : .gone ∉ (exec (zipHub n sel) ls).log) (he : ¬ Ended (exec (zipHub n sel) ls).log) :
    (∀ v, (exec (zipHub n sel) (ls ++ [.next i v])).log = (exec (zipHub n sel) ls).log ++ [.recv i (.next v)]) ∧
    ∀ t, (exec (zipHub n sel) (ls ++ [.term i t])).log = (exec (zipHub n sel) ls).log ++ [.recv i (.term t)] :=
  heard ls i (.inl (List.mem_range.2 hs)) hi hd hg he

example : let s := exec (ε := Nat) (zipHub 2 demoSel) [.next 0 1, .run 0]
    (s.calls 1).isIdle = true ∧ received 1 s.log = [] ∧ s.gone = false := by decide

theorem C24_serialized (n : Nat) (sel : List α → Except ε β) (ls : List (Lbl α ε)) (pre post : List (Ev α β ε)) (i : Nat) (o : Sig β ε)
    (h : (exec (zipHub n sel) ls).log = pre ++ .beg i o :: post) : busy pre = false ∧ .gone ∉ pre ∧ ¬ Ended pre :=
  serialized _ ls h

/-- One whole undisturbed notification of source `i` that produces something. -/
def whole (i : Nat) (l : Lbl Nat Nat) : List (Lbl Nat Nat) := [l, .run i, .run i, .run i, .ret i .ok, .run i, .run i]

/-- An example. -/
def zipDemo : List (Lbl Nat Nat) :=
  whole 0 (.next 0 1) ++ whole 0 (.next 0 2) ++ whole 1 (.next 1 10) ++ whole 0 (.next 0 3) ++ whole 1 (.next 1 20) ++
  whole 0 (.term 0 .completed) ++ whole 1 (.term 1 .completed)

example : begs (exec (zipHub 2 demoSel) zipDemo).log = [(1, .next [1, 10]), (1, .next [2, 20]), (1, .term .completed)] := by decide
example : (exec (zipHub 2 demoSel) (zipDemo.take 35)).calls 0 = .idle ∧ (exec (zipHub 2 demoSel) (zipDemo.take 35)).calls 1 = .idle ∧
    values (exec (zipHub 2 demoSel) (zipDemo.take 35)).log = [[1, 10], [2, 20]] ∧ Ev.gone ∉ (exec (zipHub 2 demoSel) (zipDemo.take 35)).log := by decide
example : begs (exec (zipHub 2 demoSel) (whole 0 (.next 0 99) ++ whole 1 (.next 1 10) ++ [.run 1])).log = [(1, .term (.error 7))] := by decide

/-- With a total selector. -/
example : (∀ l : List Nat, ∃ w, (Except.ok l : Except Nat (List Nat)) = .ok w) ∧
    begs (exec (zipHub 2 fun l => .ok l) zipDemo).log = [(1, .next [1, 10]), (1, .next [2, 20]), (1, .term .completed)] :=
  ⟨fun l => ⟨l, rfl⟩, by decide⟩

/-! ## C25 combine_latest -/

/-- What is delivered is, in order, one result for each value taken once every source has emitted, of the most recent values. -/
theorem C25_prefix (n : Nat) (sel : List α → Except ε β) (ls : List (Lbl α ε)) :
    values (exec (combineLatestHub n sel) ls).log <+: combineLatestSpec n sel (taken (exec (combineLatestHub n sel) ls).log) := by
  obtain ⟨rest, h1, -⟩ := values_order _ (cl_late n sel) ls
  rw [← (cl_made n sel _).2, h1, List.append_assoc]
  exact List.prefix_append ..

/-- And all of it, as long as it is neither disposed nor ended, and whenever it has completed. -/
theorem C25_exact (n : Nat) (hn : 0 < n) (sel : List α → Except ε β) (ls : List (Lbl α ε))
    (h : (Quiet (exec (combineLatestHub n sel) ls) ∧ .gone ∉ (exec (combineLatestHub n sel) ls).log ∧ ¬ Ended (exec (combineLatestHub n sel) ls).log) ∨
      ∃ i, .beg i (.term .completed) ∈ (exec (combineLatestHub n sel) ls).log) :
    values (exec (combineLatestHub n sel) ls).log = combineLatestSpec n sel (taken (exec (combineLatestHub n sel) ls).log) := by
  rw [← (cl_made n sel _).2]
  rcases h with ⟨hq, hg, he⟩ | h
  · obtain ⟨rest, h1, h2⟩ := values_order _ (cl_late n sel) ls
    rw [h2 (not_gone ls hg he)] at h1
    rw [h1]
    have : (exec (combineLatestHub n sel) ls).atDoor = [] := by
      unfold St.atDoor
      cases (exec (combineLatestHub n sel) ls).lock with
      | none => rfl
      | some i => simp [hq i]
    simp [this]
  · exact (complete_values (cl_counting n sel) (by simp [combineLatestHub, hn]) (cl_late n sel) (cl_val n sel) ls h).1.symm

/-- The values are taken in each source's own order, each once, by the time the notification returns; so the history `taken` is an interleaving of what
the sources notified. -/
theorem C25_taken (n : Nat) (sel : List α → Except ε β) (ls : List (Lbl α ε)) (j : Nat) :
    ofTaken j (taken (exec (combineLatestHub n sel) ls).log) <+: sigVals (received j (exec (combineLatestHub n sel) ls).log) ∧
    ((exec (combineLatestHub n sel) ls).calls j = .idle →
      ofTaken j (taken (exec (combineLatestHub n sel) ls).log) = sigVals (received j (exec (combineLatestHub n sel) ls).log)) := by
  rw [ofTaken_taken]
  exact ⟨sigVals_prefix (processed_prefix ls j), fun h => by rw [processed_eq ls h]⟩

theorem C25_completes_last (n : Nat) (hn : 0 < n) (sel : List α → Except ε β) (ls : List (Lbl α ε)) (i : Nat)
    (h : .beg i (.term .completed) ∈ (exec (combineLatestHub n sel) ls).log) :
    ∀ j < n, .recv j (.term .completed) ∈ (exec (combineLatestHub n sel) ls).log :=
  fun j hj => completes_only (cl_counting n sel) (by simp [combineLatestHub, hn]) ls h j (.inl (by simp [combineLatestHub, hj]))

/-- Every error is a source's, after all its values, or the selector's: for the most recent values of all sources at some moment. -/
theorem C25_error_origin (n : Nat) (sel : List α → Except ε β) (ls : List (Lbl α ε)) (i : Nat) (e : ε)
    (h : .beg i (.term (.error e)) ∈ (exec (combineLatestHub n sel) ls).log) :
    (.recv i (.term (.error e)) ∈ (exec (combineLatestHub n sel) ls).log ∧
      ofTaken i (taken (exec (combineLatestHub n sel) ls).log) = sigVals (received i (exec (combineLatestHub n sel) ls).log)) ∨
    ∃ k < (taken (exec (combineLatestHub n sel) ls).log).length, ∃ t,
      latestAll (List.range n) ((taken (exec (combineLatestHub n sel) ls).log).take (k + 1)) = some t ∧ sel t = .error e :=
  (error_acted (cl_err n sel) ls h).imp (fun h => ⟨h.1, by rw [ofTaken_taken, h.2]⟩) (cl_threw_at n sel)

theorem C25_completes (n : Nat) (hn : 0 < n) (sel : List α → Except ε β) (hsel : ∀ l, ∃ w, sel l = .ok w) (ls : List (Lbl α ε))
    (hq : Quiet (exec (combineLatestHub n sel) ls)) (hk : ∀ j < n, .recv j (.term .completed) ∈ (exec (combineLatestHub n sel) ls).log)
    (hg : .gone ∉ (exec (combineLatestHub n sel) ls).log) (ho : ∀ i e, .own i e ∉ (exec (combineLatestHub n sel) ls).log) :
    ∃ i, .beg i (.term .completed) ∈ (exec (combineLatestHub n sel) ls).log := by
  have hA : AllDone (combineLatestHub n sel) (exec (combineLatestHub n sel) ls).log := fun k h => by
    rcases h with h | h
    · exact hk k (by simpa [combineLatestHub] using h)
    · exact absurd h (no_opened rfl ls k)
  rcases completes_when (cl_counting n sel) (by simp [combineLatestHub, hn]) ls hq hA with h | ⟨i, t, h⟩ | ⟨i, e, h⟩
  · exact absurd h hg
  · cases t with
    | completed => exact ⟨i, h⟩
    | error e =>
      rcases C25_error_origin n sel ls i e h with ⟨hr, -⟩ | ⟨_, _, l, _, hl⟩
      · have := one_terminal _ ls hr (hA i (recv_active (inv2 _ ls) hr))
        cases this
      · obtain ⟨w, hw⟩ := hsel l; rw [hw] at hl; cases hl
  · exact absurd h (ho i e)

theorem C25_error_ends (n : Nat) (sel : List α → Except ε β) (ls : List (Lbl α ε)) (i : Nat) (e : ε)
    (h : .recv i (.term (.error e)) ∈ (exec (combineLatestHub n sel) ls).log ∨ Threw (combineLatestHub n sel) (exec (combineLatestHub n sel) ls).log i e)
    (hi : (exec (combineLatestHub n sel) ls).calls i = .idle) :
    .gone ∈ (exec (combineLatestHub n sel) ls).log ∨ Ended (exec (combineLatestHub n sel) ls).log :=
  h.elim (error_ends (cl_err' n sel) ls · hi) (throw_ends (cl_err' n sel) ls · hi)

/-- **C25** (every source is heard): what any of the `n` sources notifies is taken by the operator, as long as nothing has ended and no other notification of
that source is under way. -/
theorem C25_heard (n : Nat) (sel : List α → Except ε β) (ls : List (Lbl α ε)) (i : Nat) (hs : i < n)
    (hi : (exec (combineLatestHub n sel) ls).calls i = .idle) (hd : ∀ t, .recv i (.term t) ∉ (exec (combineLatestHub n sel) ls).log)
    (hg : .gone ∉ (exec (combineLatestHub n sel) ls).log) (he : ¬ Ended (exec (combineLatestHub n sel) ls).log) :
    (∀ v, (exec (combineLatestHub n sel) (ls ++ [.next i v])).log = (exec (combineLatestHub n sel) ls).log ++ [.recv i (.next v)]) ∧
    ∀ t, (exec (combineLatestHub n sel) (ls ++ [.term i t])).log = (exec (combineLatestHub n sel) ls).log ++ [.recv i (.term t)] :=
  heard ls i (.inl (List.mem_range.2 hs)) hi hd hg he

example : let s := exec (ε := Nat) (combineLatestHub 2 demoSel) [.next 0 1, .run 0]
    (s.calls 1).isIdle = true ∧ received 1 s.log = [] ∧ s.gone = false := by decide

theorem C25_serialized (n : Nat) (sel : List α → Except ε β) (ls : List (Lbl α ε)) (pre post : List (Ev α β ε)) (i : Nat) (o : Sig β ε)
    (h : (exec (combineLatestHub n sel) ls).log = pre ++ .beg i o :: post) : busy pre = false ∧ .gone ∉ pre ∧ ¬ Ended pre :=
  serialized _ ls h

example : begs (exec (combineLatestHub 2 demoSel) zipDemo).log =
    [(1, .next [2, 10]), (0, .next [3, 10]), (1, .next [3, 20]), (1, .term .completed)] := by decide
example : combineLatestSpec 2 demoSel [(0, 1), (0, 2), (1, 10), (0, 3), (1, 20)] = [[2, 10], [3, 10], [3, 20]] := by decide
/-- Source 1 notifies while source 0 is inside the downstream observer, and has to wait. -/
example : begs (exec (combineLatestHub 2 demoSel) (whole 1 (.next 1 10) ++ [.next 0 1, .run 0, .run 0, .next 1 20, .run 1, .ret 0 .ok, .run 0, .run 1, .run 1])).log =
    [(0, .next [1, 10]), (1, .next [1, 20])] := by decide

/-! ## C26 with_latest_from -/

/-- What is delivered is, in order, one result for each main value taken when every other source has emitted, paired with their most recent values. -/
theorem C26_prefix (n : Nat) (sel : α → List α → Except ε β) (ls : List (Lbl α ε)) :
    values (exec (withLatestHub n sel) ls).log <+: withLatestSpec n sel (taken (exec (withLatestHub n sel) ls).log) := by
  obtain ⟨-, h2, h3⟩ := wl_made n sel (exec (withLatestHub n sel) ls).log
  obtain ⟨rest, h4, -⟩ := outs_begs (withLatestHub n sel) ls 0
  rw [values_eq, nexts_of_zero fun i v h => h3 i v (told_made _ ls (mem_begs.1 h)), ← h2, h4, List.append_assoc, sigVals_append]
  exact List.prefix_append ..

/-- And all of it as long as it is neither disposed nor ended. -/
theorem C26_exact (n : Nat) (sel : α → List α → Except ε β) (ls : List (Lbl α ε)) (h0 : (exec (withLatestHub n sel) ls).calls 0 = .idle)
    (hg : .gone ∉ (exec (withLatestHub n sel) ls).log) (he : ¬ Ended (exec (withLatestHub n sel) ls).log) :
    values (exec (withLatestHub n sel) ls).log = withLatestSpec n sel (taken (exec (withLatestHub n sel) ls).log) := by
  obtain ⟨-, h2, h3⟩ := wl_made n sel (exec (withLatestHub n sel) ls).log
  obtain ⟨rest, h4, h5⟩ := outs_begs (withLatestHub n sel) ls 0
  rw [h5 (not_gone ls hg he), h0] at h4
  rw [values_eq, nexts_of_zero fun i v h => h3 i v (told_made _ ls (mem_begs.1 h)), ← h2, h4]
  simp [Pc.wait]

theorem C26_taken (n : Nat) (sel : α → List α → Except ε β) (ls : List (Lbl α ε)) (j : Nat) :
    ofTaken j (taken (exec (withLatestHub n sel) ls).log) <+: sigVals (received j (exec (withLatestHub n sel) ls).log) ∧
    ((exec (withLatestHub n sel) ls).calls j = .idle →
      ofTaken j (taken (exec (withLatestHub n sel) ls).log) = sigVals (received j (exec (withLatestHub n sel) ls).log)) := by
  rw [ofTaken_taken]
  exact ⟨sigVals_prefix (processed_prefix ls j), fun h => by rw [processed_eq ls h]⟩

/-- Only the main source's completion completes it. -/
theorem C26_completes_only (n : Nat) (sel : α → List α → Except ε β) (ls : List (Lbl α ε)) (i : Nat)
    (h : .beg i (.term .completed) ∈ (exec (withLatestHub n sel) ls).log) : i = 0 ∧ .recv 0 (.term .completed) ∈ (exec (withLatestHub n sel) ls).log := by
  obtain ⟨c, x, ha, hc⟩ := completed_origin ls h
  have : c = .term .completed ∧ i = 0 := by
    rcases c with v | e | _ <;> simp only [withLatestHub] at ha
    · split at ha
      · split at ha
        · split at ha <;> cases ha
        · cases ha
      · cases ha
    · cases ha
    · split at ha
      · next h0 => exact ⟨rfl, h0⟩
      · cases ha
  obtain ⟨rfl, rfl⟩ := this
  rcases hc with hc | ⟨e, hc⟩
  · exact ⟨rfl, hc⟩
  · cases hc

/-- When it completes, everything has been delivered. -/
theorem C26_complete_exact (n : Nat) (sel : α → List α → Except ε β) (ls : List (Lbl α ε)) (i : Nat)
    (h : .beg i (.term .completed) ∈ (exec (withLatestHub n sel) ls).log) :
    values (exec (withLatestHub n sel) ls).log = withLatestSpec n sel (taken (exec (withLatestHub n sel) ls).log) := by
  obtain ⟨rfl, -⟩ := C26_completes_only n sel ls i h
  obtain ⟨-, h2, h3⟩ := wl_made n sel (exec (withLatestHub n sel) ls).log
  obtain ⟨rest, h4, -⟩ := outs_begs (withLatestHub n sel) ls 0
  obtain ⟨p, q, he⟩ := List.append_of_mem (mem_ofSrc.2 (mem_begs.2 h))
  have hlast := (wl_completed_last n sel (exec (withLatestHub n sel) ls).log fun a b t hab => by
    obtain ⟨c, hc⟩ := processed_prefix (H := withLatestHub n sel) ls 0
    rw [hab] at hc
    have := term_last (inv2 _ ls).legal 0 (a := a) (t := t) (b := b ++ c) (by rw [← hc]; simp)
    exact (List.append_eq_nil_iff.1 this).1).2
  have h5 := hlast p (q ++ (rest ++ ((exec (withLatestHub n sel) ls).calls 0).wait)) (by rw [h4, he]; simp)
  rw [values_eq, nexts_of_zero fun i v h => h3 i v (told_made _ ls (mem_begs.1 h)), ← h2, h4, List.append_assoc, sigVals_append]
  rw [sigVals_append] at h5
  rw [(List.append_eq_nil_iff.1 h5).2, List.append_nil]

/-- The main source's completion, and an error of any source or of the selector, ends it. -/
theorem C26_ends (n : Nat) (sel : α → List α → Except ε β) (ls : List (Lbl α ε)) (i : Nat) (hi : (exec (withLatestHub n sel) ls).calls i = .idle)
    (h : (i = 0 ∧ .recv 0 (.term .completed) ∈ (exec (withLatestHub n sel) ls).log) ∨
      ∃ e, .recv i (.term (.error e)) ∈ (exec (withLatestHub n sel) ls).log ∨ Threw (withLatestHub n sel) (exec (withLatestHub n sel) ls).log i e) :
    .gone ∈ (exec (withLatestHub n sel) ls).log ∨ Ended (exec (withLatestHub n sel) ls).log := by
  rcases h with ⟨rfl, h⟩ | ⟨e, h | h⟩
  · obtain ⟨p, q, he⟩ := List.append_of_mem (recv_act (inv1 _ ls) h hi)
    have hm := split_made (H := withLatestHub n sel) (p := p) (q := q) (i := 0) (c := .term .completed) (o := .term .completed) (.inl rfl) rfl
    rw [← he] at hm
    rcases made_told _ ls hm hi with h | h | h
    · exact .inr (.inl ⟨0, _, h⟩)
    · exact .inl h
    · exact .inr h
  · exact error_ends (wl_err' n sel) ls h hi
  · exact throw_ends (wl_err' n sel) ls h hi

/-- Every error is a source's, after all its values, or the selector's: for a value of the main source and the most recent values of the others then. -/
theorem C26_error_origin (n : Nat) (sel : α → List α → Except ε β) (ls : List (Lbl α ε)) (i : Nat) (e : ε)
    (h : .beg i (.term (.error e)) ∈ (exec (withLatestHub n sel) ls).log) :
    (.recv i (.term (.error e)) ∈ (exec (withLatestHub n sel) ls).log ∧
      ofTaken i (taken (exec (withLatestHub n sel) ls).log) = sigVals (received i (exec (withLatestHub n sel) ls).log)) ∨
    ∃ k v t, (taken (exec (withLatestHub n sel) ls).log)[k]? = some (0, v) ∧
      latestAll ((List.range n).map (· + 1)) ((taken (exec (withLatestHub n sel) ls).log).take k) = some t ∧ sel v t = .error e :=
  (error_acted (wl_err n sel) ls h).imp (fun h => ⟨h.1, by rw [ofTaken_taken, h.2]⟩) (wl_threw_at n sel)

/-- **C26** (every source is heard): what the main source or any of the `n` others notifies is taken by the operator, as long as nothing has ended and no other notification of
that source is under way. -/
theorem C26_heard (n : Nat) (sel : α → List α → Except ε β) (ls : List (Lbl α ε)) (i : Nat) (hs : i ≤ n)
    (hi : (exec (withLatestHub n sel) ls).calls i = .idle) (hd : ∀ t, .recv i (.term t) ∉ (exec (withLatestHub n sel) ls).log)
    (hg : .gone ∉ (exec (withLatestHub n sel) ls).log) (he : ¬ Ended (exec (withLatestHub n sel) ls).log) :
    (∀ v, (exec (withLatestHub n sel) (ls ++ [.next i v])).log = (exec (withLatestHub n sel) ls).log ++ [.recv i (.next v)]) ∧
    ∀ t, (exec (withLatestHub n sel) (ls ++ [.term i t])).log = (exec (withLatestHub n sel) ls).log ++ [.recv i (.term t)] :=
  heard ls i (.inl (List.mem_range.2 (Nat.lt_succ_of_le hs))) hi hd hg he

example : let s := exec (ε := Nat) (withLatestHub 2 fun v l => demoSel (v :: l)) [.next 0 1, .run 0]
    (s.calls 2).isIdle = true ∧ received 2 s.log = [] ∧ s.gone = false := by decide

theorem C26_serialized (n : Nat) (sel : α → List α → Except ε β) (ls : List (Lbl α ε)) (pre post : List (Ev α β ε)) (i : Nat) (o : Sig β ε)
    (h : (exec (withLatestHub n sel) ls).log = pre ++ .beg i o :: post) : busy pre = false ∧ .gone ∉ pre ∧ ¬ Ended pre :=
  serialized _ ls h

/-- An example. -/
def withLatestDemo : List (Lbl Nat Nat) :=
  whole 0 (.next 0 1) ++ [.next 1 10, .run 1] ++ whole 0 (.next 0 2) ++ [.next 1 20, .run 1] ++ [.next 1 30, .run 1, .term 1 .completed, .run 1] ++
    whole 0 (.next 0 3) ++ whole 0 (.term 0 .completed)

example : begs (exec (withLatestHub 1 fun v l => demoSel (v :: l)) withLatestDemo).log =
    [(0, .next [2, 10]), (0, .next [3, 30]), (0, .term .completed)] := by decide

/-! ## C35 take_until -/

/-- What the downstream observer is told by the source is what the source notified, in order, from the beginning on. -/
theorem C35_mirror (ls : List (Lbl α ε)) : toldBy 0 (exec takeUntilHub ls).log <+: received 0 (exec takeUntilHub ls).log := by
  obtain ⟨h1, -⟩ := tu_made _ (tu_nothrow (inv2 takeUntilHub ls).legal)
  obtain ⟨rest, h4, -⟩ := outs_begs takeUntilHub ls 0
  refine List.IsPrefix.trans ?_ (processed_prefix ls 0)
  refine List.IsPrefix.trans ?_ h1
  rw [h4, List.append_assoc]
  exact List.prefix_append ..

/-- And only the source's values are delivered. -/
theorem C35_values (ls : List (Lbl α ε)) (i : Nat) (v : α) (h : .beg i (.next v) ∈ (exec takeUntilHub ls).log) : i = 0 :=
  (tu_made _ (tu_nothrow (inv2 takeUntilHub ls).legal)).2.2.2 i v (told_made _ ls h)

/-- Before the notifier notifies, the source is mirrored completely, its end included. -/
theorem C35_mirror_exact (ls : List (Lbl α ε)) (h1 : ∀ c, .recv 1 c ∉ (exec takeUntilHub ls).log) (hi : (exec takeUntilHub ls).calls 0 = .idle)
    (hg : .gone ∉ (exec takeUntilHub ls).log) (ho : ∀ i e, .own i e ∉ (exec takeUntilHub ls).log) :
    toldBy 0 (exec takeUntilHub ls).log = received 0 (exec takeUntilHub ls).log := by
  have hsrc : ∀ i c, .act i c ∈ (exec takeUntilHub ls).log → i = 0 := fun i c h => by
    have hr := act_recv (inv1 _ ls) h
    rcases recv_active (inv2 _ ls) hr with h | h
    · simp [takeUntilHub] at h
      rcases h with rfl | rfl
      · rfl
      · exact absurd hr (h1 c)
    · exact absurd h (no_opened rfl ls i)
  have hnt := tu_nothrow (inv2 takeUntilHub ls).legal
  have hmade : ∀ i o, (i, o) ∈ (replay takeUntilHub (exec takeUntilHub ls).log).1 → i = 0 := fun i o h => by
    obtain ⟨p, ev, q, c, he, hev, _⟩ := made_split h
    rcases hev with rfl | ⟨e, _, rfl⟩
    · exact hsrc i c (by rw [he]; simp)
    · exact absurd (by rw [he]; simp) (hnt i e)
  obtain ⟨rest, h4, h5⟩ := outs_begs takeUntilHub ls 0
  rw [hi] at h4
  obtain ⟨h6, h7, h8, -⟩ := tu_made _ hnt
  cases hgo : (exec takeUntilHub ls).gone with
  | false =>
    rw [h5 hgo] at h4
    simp only [Pc.wait, List.append_nil] at h4
    rw [toldBy, ← h4]
    cases hx : (replay takeUntilHub (exec takeUntilHub ls).log).2 with
    | false => rw [(h7 hx).1]; exact processed_eq ls hi
    | true =>
      obtain ⟨i, t, hm⟩ := h8 hx
      have := hmade i _ hm
      subst this
      exact prefix_term (inv2 _ ls).legal (h6.trans (processed_prefix ls 0)) (mem_ofSrc.2 hm)
  | true =>
    rcases (inv3 takeUntilHub ls).why hgo with h | ⟨i, t, h⟩ | ⟨i, e, h⟩
    · exact absurd h hg
    · have := hmade i _ (told_made _ ls h)
      subst this
      exact prefix_term (inv2 _ ls).legal (C35_mirror ls) (mem_ofSrc.2 (mem_begs.2 h))
    · exact absurd h (ho i e)

/-- A notification of the notifier, whatever it is, ends it: by the time the calls have returned. -/
theorem C35_notifier_ends (ls : List (Lbl α ε)) (c : Sig α ε) (h : .recv 1 c ∈ (exec takeUntilHub ls).log) (h0 : (exec takeUntilHub ls).calls 0 = .idle)
    (h1 : (exec takeUntilHub ls).calls 1 = .idle) : .gone ∈ (exec takeUntilHub ls).log ∨ Ended (exec takeUntilHub ls).log := by
  have hnt := tu_nothrow (inv2 takeUntilHub ls).legal
  obtain ⟨-, h7, h8, -⟩ := tu_made _ hnt
  have ha := recv_act (inv1 _ ls) h h1
  cases hx : (replay takeUntilHub (exec takeUntilHub ls).log).2 with
  | false => exact absurd ha ((h7 hx).2.1 c)
  | true =>
    obtain ⟨i, t, hm⟩ := h8 hx
    have hi : (exec takeUntilHub ls).calls i = .idle := by
      obtain ⟨p, ev, q, c, he, hev, _⟩ := made_split hm
      rcases hev with rfl | ⟨e, _, rfl⟩
      · have hr := act_recv (inv1 takeUntilHub ls) (i := i) (c := c) (by rw [he]; simp)
        rcases recv_active (inv2 _ ls) hr with h | h
        · simp [takeUntilHub] at h
          rcases h with rfl | rfl
          · exact h0
          · exact h1
        · exact absurd h (no_opened rfl ls i)
      · exact absurd (by rw [he]; simp) (hnt i e)
    rcases made_told _ ls hm hi with h | h | h
    · exact .inr (.inl ⟨i, _, h⟩)
    · exact .inl h
    · exact .inr h

/-- Why it ends: the source or the notifier ended the same way, or the notifier emitted. -/
theorem C35_origin (ls : List (Lbl α ε)) (i : Nat) (t : Term ε) (h : .beg i (.term t) ∈ (exec takeUntilHub ls).log) :
    .recv i (.term t) ∈ (exec takeUntilHub ls).log ∨ (i = 1 ∧ t = .completed ∧ ∃ v, .recv 1 (.next v) ∈ (exec takeUntilHub ls).log) := by
  obtain ⟨p, ev, q, c, he, hev, ha⟩ := made_split (told_made _ ls h)
  rcases hev with rfl | ⟨e, _, rfl⟩
  · have hr := act_recv (inv1 takeUntilHub ls) (i := i) (c := c) (by rw [he]; simp)
    rcases c with v | t'
    · simp only [takeUntilHub] at ha
      split at ha
      · split at ha <;> cases ha
      · next h0 =>
        split at ha
        · cases ha
        · cases ha
          right
          rcases recv_active (inv2 _ ls) hr with h | h
          · simp [takeUntilHub, h0] at h
            subst h; exact ⟨rfl, rfl, v, hr⟩
          · exact absurd h (no_opened rfl ls i)
    · simp only [takeUntilHub] at ha
      split at ha
      · cases ha
      · cases ha; exact .inl hr
  · exact absurd (by rw [he]; simp) (tu_nothrow (inv2 takeUntilHub ls).legal i e)

/-- Nothing is delivered after the end, no callback overlaps another, there is at most one end. -/
theorem C35_serialized (ls : List (Lbl α ε)) (pre post : List (Ev α α ε)) (i : Nat) (o : Sig α ε)
    (h : (exec takeUntilHub ls).log = pre ++ .beg i o :: post) : busy pre = false ∧ .gone ∉ pre ∧ ¬ Ended pre :=
  serialized takeUntilHub ls h

/-- The notifier emits while the source's second value is waiting for the mutex: the value is dropped. -/
def takeUntilDemo : List (Lbl Nat Nat) :=
  whole 0 (.next 0 1) ++ [.next 0 2, .run 0, .next 1 5, .run 1, .run 1, .run 1, .run 0, .ret 1 .ok, .run 1, .run 1, .run 0, .run 0, .run 0,
    .next 0 3, .run 0]

example : begs (exec takeUntilHub takeUntilDemo).log = [(0, .next 1), (1, .term .completed)] ∧
    (exec takeUntilHub takeUntilDemo).calls 0 = .idle ∧ (exec takeUntilHub takeUntilDemo).calls 1 = .idle := by decide
example : begs (exec takeUntilHub (whole 0 (.next 0 1) ++ whole 0 (.next 0 2) ++ whole 0 (.term 0 (.error 4)))).log =
    [(0, .next 1), (0, .next 2), (0, .term (.error 4))] := by decide

end Rpp.Comb
