import Verif.Combine.SwitchFineInv

/-!
# switch_on_next, atomic operation by atomic operation: references and the count keep the invariant
-/

namespace Rpp.SwFine

open Comb (Sig)

variable {α ε : Type}

theorem inv_exchRef {s : St α ε} (h : Inv s) {r : Nat} (hp : s.pc 0 = .exch (some r) .ref) (hf : s.flags r = false) (hr : s.cur = some r) :
    Inv ({ s with flags := fun j => if j = r then true else s.flags j }.goto 0 (.rel r .ref)) := by
  simp only [St.goto]
  obtain ⟨a1, a2, a3, a4, a5, a6, a7, a8, a9, a10, a11, a12, a13, a14, a15, a16, a17, a18, a19, a20, a21, a22, a23, a24, a25, a26, a27, a28⟩ := h
  have hr0 : 0 ≠ r := fun e => (a18 r hr).2 e.symm
  have hr1 := (a18 r hr).1
  constructor <;> dsimp only
  case late =>
    intro q hq hh
    by_cases e : q = r
    · exact ⟨0, .ref, by rw [if_pos rfl, e]⟩
    · rw [if_neg e] at hq
      obtain ⟨j, m, hj⟩ := a7 q hq hh
      exact ⟨j, m, by rw [if_neg (fun e => by rw [e, hp] at hj; cases hj)]; exact hj⟩
  all_goals first | assumption | grind [Busy, Past, isOpen_append, current_append]

theorem inv_exchOwn {s : St α ε} (h : Inv s) {i : Nat} (hp : s.pc i = .exch (some i) .test) (hf : s.flags i = false) :
    Inv ({ s with flags := fun j => if j = i then true else s.flags j }.goto i (.rel i .test)) := by
  simp only [St.goto]
  obtain ⟨a1, a2, a3, a4, a5, a6, a7, a8, a9, a10, a11, a12, a13, a14, a15, a16, a17, a18, a19, a20, a21, a22, a23, a24, a25, a26, a27, a28⟩ := h
  constructor <;> dsimp only
  case late =>
    intro q hq hh
    by_cases e : q = i
    · exact ⟨i, .test, by rw [if_pos rfl, e]⟩
    · rw [if_neg e] at hq
      obtain ⟨j, m, hj⟩ := a7 q hq hh
      exact ⟨j, m, by rw [if_neg (fun e => by rw [e, hp] at hj; cases hj)]; exact hj⟩
  case busy =>
    intro j hj
    by_cases e : j = i
    · rw [if_pos e] at hj; cases hj
    · rw [if_neg e] at hj
      obtain ⟨h1, h2⟩ := a12 j hj
      subst h1
      exact ⟨rfl, by rw [if_neg e]; exact h2⟩
  case past =>
    intro hj r hr
    by_cases e : 0 = i
    · rw [if_pos e] at hj; cases hj
    · rw [if_neg e] at hj
      rw [a15 hj r hr]; exact ite_self _
  all_goals first | assumption | grind [Busy, Past, isOpen_append, current_append]

theorem inv_exch {s : St α ε} (h : Inv s) {i r : Nat} {n : After} (hp : s.pc i = .exch (some r) n) (hf : s.flags r = false) :
    Inv ({ s with flags := fun j => if j = r then true else s.flags j }.goto i (.rel r n)) := by
  rcases (h.exch i r n hp).2 with ⟨rfl, rfl, h1⟩ | ⟨rfl, rfl, -⟩
  · exact inv_exchRef h hp hf h1
  · exact inv_exchOwn h hp hf

theorem inv_rel1 {s : St α ε} (h : Inv s) {i r : Nat} {n : After} (hp : s.pc i = .rel r n) (hc : s.cnt = some 1) :
    Inv ({ s with held := s.held.erase r, cnt := none }.goto i (.flag n)) := by
  obtain ⟨h1, h2, h3⟩ := h.rel i r n hp
  have hl : s.held = [r] := by
    have := (h.cntS 1 hc).1
    match hh : s.held with
    | [] => rw [hh] at this; cases this
    | [x] => rw [hh, List.mem_singleton] at h1; rw [h1]
    | x :: y :: l => rw [hh] at this; simp at this
  have hn : n = .test := by
    rcases h3 with ⟨rfl, rfl⟩ | h3
    · have hb := (h.busy 0 (by rw [hp]; trivial)).2
      have : 0 ∈ s.held := by
        apply Classical.byContradiction
        intro hm
        rw [h.out 0 (by have := h.nxt; omega) hm] at hb
        cases hb
      rw [hl, List.mem_singleton] at this
      rw [← this, hb] at h2
      cases h2
    · exact h3
  subst hn
  have he : s.held.erase r = [] := by rw [hl]; simp
  rw [he]
  simp only [St.goto]
  obtain ⟨a1, a2, a3, a4, a5, a6, a7, a8, a9, a10, a11, a12, a13, a14, a15, a16, a17, a18, a19, a20, a21, a22, a23, a24, a25, a26, a27, a28⟩ := h
  constructor <;> dsimp only
  all_goals first | assumption | grind [Busy, Past, isOpen_append, current_append]

theorem inv_relR {s : St α ε} (h : Inv s) {i r c : Nat} (hp : s.pc i = .rel r .ref) (hc : s.cnt = some c) (hc1 : c ≠ 1) : Inv ({ s with held := s.held.erase r, cnt := some (c - 1) }.goto i .ref) := by
  simp only [St.goto]
  obtain ⟨a1, a2, a3, a4, a5, a6, a7, a8, a9, a10, a11, a12, a13, a14, a15, a16, a17, a18, a19, a20, a21, a22, a23, a24, a25, a26, a27, a28⟩ := h
  constructor <;> dsimp only
  all_goals first | assumption | grind [Busy, Past, isOpen_append, current_append]

theorem inv_relT {s : St α ε} (h : Inv s) {i r c : Nat} (hp : s.pc i = .rel r .test) (hc : s.cnt = some c) (hc1 : c ≠ 1) : Inv ({ s with held := s.held.erase r, cnt := some (c - 1) }.goto i .test) := by
  simp only [St.goto]
  obtain ⟨a1, a2, a3, a4, a5, a6, a7, a8, a9, a10, a11, a12, a13, a14, a15, a16, a17, a18, a19, a20, a21, a22, a23, a24, a25, a26, a27, a28⟩ := h
  constructor <;> dsimp only
  all_goals first | assumption | grind [Busy, Past, isOpen_append, current_append]

theorem inv_flag {s : St α ε} (h : Inv s) {i : Nat} (hp : s.pc i = .flag .test) : Inv ({ s with dead := true }.goto i .test) := by
  simp only [St.goto]
  obtain ⟨a1, a2, a3, a4, a5, a6, a7, a8, a9, a10, a11, a12, a13, a14, a15, a16, a17, a18, a19, a20, a21, a22, a23, a24, a25, a26, a27, a28⟩ := h
  constructor <;> dsimp only
  all_goals first | assumption | grind [Busy, Past, isOpen_append, current_append]

theorem inv_ref {s : St α ε} (h : Inv s) {i c : Nat} (hp : s.pc i = .ref) (hc : s.cnt = some c) : Inv ({ s with cnt := some (c + 1), next := s.next + 1, held := s.held ++ [s.next] }.goto i (.reg s.next)) := by
  simp only [St.goto]
  obtain ⟨a1, a2, a3, a4, a5, a6, a7, a8, a9, a10, a11, a12, a13, a14, a15, a16, a17, a18, a19, a20, a21, a22, a23, a24, a25, a26, a27, a28⟩ := h
  constructor <;> dsimp only
  all_goals first | assumption | grind [Busy, Past, isOpen_append, current_append]

theorem inv_reg {s : St α ε} (h : Inv s) {i k : Nat} (hp : s.pc i = .reg k) : Inv (s.after i (.give k)) := by
  simp only [St.goto, St.emit, St.after]
  obtain ⟨a1, a2, a3, a4, a5, a6, a7, a8, a9, a10, a11, a12, a13, a14, a15, a16, a17, a18, a19, a20, a21, a22, a23, a24, a25, a26, a27, a28⟩ := h
  constructor <;> dsimp only
  all_goals first | assumption | grind [Busy, Past, isOpen_append, current_append]

theorem inv_test {s : St α ε} (h : Inv s) {i : Nat} (hp : s.pc i = .test) (hd : s.dead = true) : Inv (s.goto i (.call (.term .completed))) := by
  simp only [St.goto]
  obtain ⟨a1, a2, a3, a4, a5, a6, a7, a8, a9, a10, a11, a12, a13, a14, a15, a16, a17, a18, a19, a20, a21, a22, a23, a24, a25, a26, a27, a28⟩ := h
  constructor <;> dsimp only
  all_goals first | assumption | grind [Busy, Past, isOpen_append, current_append]

theorem inv_testN {s : St α ε} (h : Inv s) {i : Nat} (hp : s.pc i = .test) (hd : s.dead = false) : Inv (s.goto i .idle) := by
  simp only [St.goto]
  obtain ⟨a1, a2, a3, a4, a5, a6, a7, a8, a9, a10, a11, a12, a13, a14, a15, a16, a17, a18, a19, a20, a21, a22, a23, a24, a25, a26, a27, a28⟩ := h
  constructor <;> dsimp only
  all_goals first | assumption | grind [Busy, Past, isOpen_append, current_append]

theorem inv_call {s : St α ε} (h : Inv s) {i : Nat} {v : α} (hp : s.pc i = .call (.next v)) : Inv (s.goto i .idle |>.emit (.told i (.next v))) := by
  simp only [St.goto, St.emit]
  obtain ⟨a1, a2, a3, a4, a5, a6, a7, a8, a9, a10, a11, a12, a13, a14, a15, a16, a17, a18, a19, a20, a21, a22, a23, a24, a25, a26, a27, a28⟩ := h
  constructor <;> dsimp only
  all_goals first | assumption | grind [Busy, Past, isOpen_append, current_append]

theorem inv_kill {s : St α ε} (h : Inv s) {k : Nat} (hd : s.dead = true) (hk : k < s.next) : Inv ({ s with flags := fun j => if j = k then true else s.flags j }) := by
  obtain ⟨a1, a2, a3, a4, a5, a6, a7, a8, a9, a10, a11, a12, a13, a14, a15, a16, a17, a18, a19, a20, a21, a22, a23, a24, a25, a26, a27, a28⟩ := h
  constructor <;> dsimp only
  all_goals first | assumption | grind [Busy, Past, isOpen_append, current_append]

end Rpp.SwFine
