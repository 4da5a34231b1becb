import Verif.Window.FeedBackProofs

/-! # C108: group_by and window fed by their own subscribers -/

namespace Rpp.WFeed

namespace Group

variable {κ α : Type} [DecidableEq κ]

/-- C108, group_by (part): subscribers may feed the source from inside any callback, at any depth. Unless a value of key
`k` is fed or the source ends while the group of `k` is being announced (`calm`), one group is announced per key, in the
order in which the keys appear, and each group is given the values of its key in the order in which they were fed, all
of them as soon as its announcement has returned. Missing: see `C108_announced_twice_refutes`, `C108_never_ends_refutes`. -/
theorem C108_group_by_partial (key : α → κ) (ls : List (Lbl α)) (hc : (exec key ls).calm = true) :
    let s := exec key ls
    opens s.log = firsts (s.fed.map key) ∧
    ∀ g k, (opens s.log)[g]? = some k →
      gets g s.log <+: s.fed.filter (fun a => key a = k) ∧
      (opening k s.stack = false → gets g s.log = s.fed.filter (fun a => key a = k)) := by
  intro s
  have h := inv key ls hc
  refine ⟨h.order, fun g k hk => ⟨⟨_, h.gets g k hk⟩, fun ho => ?_⟩⟩
  have h1 := h.gets g k hk
  have h2 : waits g s.stack = [] := by
    rw [waits, List.filterMap_eq_nil_iff]
    intro f hf
    cases f with
    | value => rfl
    | opening g' k' a' =>
      dsimp only
      split
      · next e =>
        subst e
        have h3 := (h.stk _ _ _ hf).1
        rw [hk] at h3; cases h3
        have : opening k s.stack = true := opening_iff.2 ⟨_, _, hf⟩
        rw [ho] at this; cases this
      · rfl
  rw [h2, List.append_nil] at h1
  exact h1

/-- C108, group_by (part): under the same condition the end of the source ends every group exactly once, and nothing else
does. -/
theorem C108_group_by_ends_partial (key : α → κ) (ls : List (Lbl α)) (hc : (exec key ls).calm = true) (g : Nat) :
    let s := exec key ls
    ends g s.log = if s.closed = true ∧ g < (opens s.log).length then 1 else 0 := by
  intro s
  have h : Inv key s := inv key ls hc
  rw [h.ends g]
  cases hcl : s.closed with
  | false => simp
  | true =>
    simp only [if_true, true_and]
    have hq := h.quiet hcl
    have hnd : (s.map.map (·.2)).Nodup := by
      have := h.uniq
      rw [List.Nodup, List.pairwise_map] at this ⊢
      refine this.imp_of_mem ?_
      intro p q hp hq hne e
      have h1 := h.map p hp
      have h2 := h.map q hq
      rw [e, h2] at h1
      exact hne (Option.some.inj h1).symm
    split
    · next hlt =>
      have hk := List.getElem?_eq_getElem hlt
      rcases h.all _ (List.mem_of_getElem? hk) with ⟨g', hm⟩ | ho
      · have := idx_inj h (h.map _ hm) hk
        dsimp only at this; subst this
        have hmem : g' ∈ s.map.map (·.2) := List.mem_map.2 ⟨_, hm, rfl⟩
        have h1 := List.count_pos_iff.2 hmem
        have h2 := List.nodup_iff_count.1 hnd g'
        omega
      · obtain ⟨g', a, hm⟩ := opening_iff.1 ho
        have := List.all_eq_true.1 hq _ hm
        simp [Frame.key?] at this
    · next hlt =>
      rw [List.count_eq_zero]
      intro hm
      obtain ⟨p, hp, rfl⟩ := List.mem_map.1 hm
      obtain ⟨a1, _⟩ := List.getElem?_eq_some_iff.1 (h.map p hp)
      exact hlt a1

/-- Every key once. -/
theorem C108_firsts (ks : List κ) : (firsts ks).Nodup ∧ ∀ k, k ∈ firsts ks ↔ k ∈ ks :=
  ⟨firsts_nodup ks, mem_firsts ks⟩

/-- Non-vacuity: a value of another key is fed while a group is announced, values of the same key while a value is being
told; the source ends inside a callback. -/
example :
    let s := exec (fun n : Nat => n % 2) [.feed 1, .feed 2, .ret, .ret, .ret, .feed 3, .feed 4, .ret, .ret, .feed 5, .ret,
      .finish]
    s.calm = true ∧ s.log = [.opened 0 1, .opened 1 0, .val 1 2, .val 0 1, .val 0 3, .val 1 4, .val 0 5, .ended 1,
      .ended 0, .over] := by decide

/-- C108 is false for group_by: the group enters the map only after it was announced (group_by.hpp 132-136). A value of
the same key fed by the announcement's callback announces the key again; the first group is given nothing at all, the
second one is given the two values in the wrong order. -/
theorem C108_announced_twice_refutes :
    let s := exec (fun n : Nat => n % 2) [.feed 1, .feed 3, .ret, .ret, .ret, .ret, .feed 5, .ret, .finish]
    s.stack = [] ∧ opens s.log = [1, 1] ∧ gets 0 s.log = [] ∧ gets 1 s.log = [3, 1, 5] ∧ ends 0 s.log = 0 ∧
    ends 1 s.log = 1 ∧ firsts (s.fed.map (· % 2)) = [1] := by decide

/-- C108 is false for group_by: a source that ends while a group is being announced ends the other groups but not this one,
which is told its value afterwards and never ends. -/
theorem C108_never_ends_refutes :
    let s := exec (fun n : Nat => n % 2) [.feed 2, .ret, .ret, .feed 1, .finish, .ret, .ret]
    s.stack = [] ∧ s.closed = true ∧ s.log = [.opened 0 0, .val 0 2, .opened 1 1, .ended 0, .over, .val 1 1] ∧
    ends 1 s.log = 0 := by decide

end Group

namespace Count

variable {α : Type}

/-- C108, window (part): subscribers may feed the source and end it from inside the callbacks of a window that is not yet
full. Unless a value is fed while a window is being announced or ended, or while the callback for its last value is
running, or the source ends while a window is being announced (`calm`), the `i`-th value fed goes to window `i / count`,
windows are announced and ended in order, each full one when it is full and the last one with the source, and no empty
`std::optional` is read. Missing: see `C108_window_…_refutes`. -/
theorem C108_window_partial (count : Nat) (ls : List (Lbl α)) (hc : (exec count ls).calm = true) :
    let n := max 1 count
    let s := exec count ls
    s.ub = false ∧ vals s.log <+: spread n s.fed ∧
    (s.stack = [] → vals s.log = spread n s.fed ∧ opens s.log = List.range ((s.fed.length + (n - 1)) / n) ∧
      (s.closed = false → ends s.log = List.range (s.fed.length / n))) ∧
    (s.closed = true → vals s.log = spread n s.fed ∧ ends s.log = List.range ((s.fed.length + (n - 1)) / n) ∧
      s.log.getLast? = some .over) ∧
    overs s.log = if s.closed then 1 else 0 := by
  intro n s
  have hn : 0 < n := by simp only [n]; omega
  have hdiv : ∀ w r, r < n → (w * n + r) / n = w := by
    intro w r hr
    rw [Nat.mul_comm, Nat.mul_add_div hn, Nat.div_eq_of_lt hr, Nat.add_zero]
  have h : Inv n s := inv count ls hc
  have ho : ∀ {b : Bool}, b = false → b = true → False := by intro b h1 h2; rw [h1] at h2; cases h2
  cases h with
  | idle h1 h2 h3 h4 h5 h6 h7 h8 h9 h10 h11 =>
    refine ⟨h8, by rw [h5]; exact List.prefix_refl _, fun _ => ⟨h5, ?_, fun _ => ?_⟩, fun h => (ho h10 h).elim,
      by rw [h10]; exact h11⟩
    · rw [h6, h4, hdiv _ _ (by omega)]
    · rw [h7, h4, Nat.mul_div_cancel _ hn]
  | opening w a h1 h2 h3 h4 h5 h6 h7 h8 h9 h10 h11 =>
    exact ⟨h8, ⟨_, h5⟩, fun h => (by rw [h1] at h; cases h), fun h => (ho h10 h).elim, by rw [h10]; exact h11⟩
  | inside w m h1 h2 h3 h3' h3'' h0 h4 h5 h6 h7 h8 h9 h10 h11 =>
    refine ⟨h8, by rw [h5]; exact List.prefix_refl _, fun h => ⟨h5, ?_, fun _ => ?_⟩, fun h => (ho h10 h).elim,
      by rw [h10]; exact h11⟩
    · rw [h6, h4, up hn _ _ h0 h3'']
    · have hm : m = 0 := by rw [h1] at h; simpa using h
      subst hm
      rw [h7, h4, hdiv _ _ (by omega)]
  | ending w h1 h2 h3 h3' h4 h5 h6 h7 h8 h9 h10 h11 =>
    exact ⟨h8, by rw [h5]; exact List.prefix_refl _, fun h => (by rw [h1] at h; cases h), fun h => (ho h10 h).elim,
      by rw [h10]; exact h11⟩
  | shut k h5 h4 h6 h7 h8 h9 h10 h11 h12 h1 =>
    exact ⟨h8, by rw [h5]; exact List.prefix_refl _, fun h => ⟨h5, by rw [h6, h4], fun h => (ho h h10).elim⟩,
      fun _ => ⟨h5, by rw [h7, h4], h12⟩, by rw [h10]; exact h11⟩

/-- Non-vacuity: the second value of three is fed by the callback for the first one. -/
example :
    let s := exec 3 [.feed 1, .ret, .feed 2, .ret, .ret, .feed 3, .ret, .ret, .feed 4, .ret, .ret]
    s.calm = true ∧ s.stack = [] ∧ s.log = [.opened 0, .val 0 1, .val 0 2, .val 0 3, .ended 0, .opened 1, .val 1 4] := by
  decide

/-- Non-vacuity: the source ends inside the callback for the last value of a window. -/
example :
    let s := exec 2 [.feed 1, .ret, .ret, .feed 2, .finish, .ret]
    s.calm = true ∧ s.stack = [] ∧ s.closed = true ∧ s.log = [.opened 0, .val 0 1, .val 0 2, .ended 0, .over] := by
  decide

/-- C108 is false for window: a source that ends while the window is being announced ends the window, which then does not get
the value it was opened for. -/
theorem C108_window_finish_refutes :
    let s := exec 2 [.feed 1, .finish, .ret]
    s.fed = [1] ∧ s.stack = [] ∧ s.log = [.opened 0, .ended 0, .over] := by decide

/-- C108 is false for window: a value fed while the window is being announced announces another one; the first never gets a
value nor an end, and the order of the values is reversed. -/
theorem C108_window_announced_refutes :
    let s := exec 2 [.feed 1, .feed 2, .ret, .ret, .ret, .ret]
    s.stack = [] ∧ s.ub = false ∧ opens s.log = [0, 1] ∧ vals s.log = [(1, 2), (1, 1)] ∧ ends s.log = [] ∧
    spread 2 s.fed = [(0, 1), (0, 2)] := by decide

/-- C108 is false for window: with one value per window the same reads an empty `std::optional`. -/
theorem C108_window_announced_ub_refutes :
    (exec 1 [.feed 1, .feed 2, .ret, .ret, .ret, .ret]).log = [.opened 0, .opened 1, .val 1 2, .ended 1, .ub] := by decide

/-- C108 is false for window: a value fed by the callback for the last value of a window is put into the same window, and
the next value reads an empty `std::optional`, since the counter has passed the size. -/
theorem C108_window_last_refutes :
    (exec 2 [.feed 1, .ret, .ret, .feed 2, .feed 3, .ret, .ret, .ret, .feed 4]).log =
      [.opened 0, .val 0 1, .val 0 2, .val 0 3, .ended 0, .ub] := by decide

/-- C108 is false for window: a value fed when a window ends is put into a new window, which is then dropped without end; the
next value reads an empty `std::optional`. -/
theorem C108_window_end_refutes :
    (exec 2 [.feed 1, .ret, .ret, .feed 2, .ret, .feed 3, .ret, .ret, .ret, .feed 4]).log =
      [.opened 0, .val 0 1, .val 0 2, .ended 0, .opened 1, .val 1 3, .ub] := by decide

end Count

end Rpp.WFeed
