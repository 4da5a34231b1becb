import Verif.Combine.SwitchFineInv

/-!
# switch_on_next, atomic operation by atomic operation: the calls of sources keep the invariant
-/

namespace Rpp.SwFine

open Comb (Sig)

variable {α ε : Type}

theorem inv_outer {s : St α ε} (h : Inv s) (hr : s.ready 0 = true) : Inv (s.goto 0 (.exch s.cur .ref)) := by
  simp only [St.ready, Bool.and_eq_true, Bool.not_eq_true', St.goto] at hr ⊢
  have hi := idle_of hr.1.1.1
  obtain ⟨a1, a2, a3, a4, a5, a6, a7, a8, a9, a10, a11, a12, a13, a14, a15, a16, a17, a18, a19, a20, a21, a22, a23, a24, a25, a26, a27, a28⟩ := h
  constructor <;> dsimp only
  all_goals first | assumption | grind [Busy, Past]

theorem inv_emit {s : St α ε} (h : Inv s) {i : Nat} {v : α} (h0 : i ≠ 0) (hr : s.ready i = true) : Inv (s.goto i (.call (.next v)) |>.emit (.recv i (.next v))) := by
  simp only [St.ready, Bool.and_eq_true, Bool.not_eq_true', St.goto, St.emit] at hr ⊢
  have hi := idle_of hr.1.1.1
  obtain ⟨a1, a2, a3, a4, a5, a6, a7, a8, a9, a10, a11, a12, a13, a14, a15, a16, a17, a18, a19, a20, a21, a22, a23, a24, a25, a26, a27, a28⟩ := h
  constructor <;> dsimp only
  all_goals first | assumption | grind [Busy, Past, isOpen_append, current_append]

theorem inv_fin {s : St α ε} (h : Inv s) {i : Nat} (hr : s.ready i = true) : Inv ({ s with ended := fun j => if j = i then true else s.ended j }.goto i (.exch (some i) .test) |>.emit (.recv i (.term .completed))) := by
  simp only [St.ready, Bool.and_eq_true, Bool.not_eq_true', St.goto, St.emit] at hr ⊢
  have hi := idle_of hr.1.1.1
  obtain ⟨a1, a2, a3, a4, a5, a6, a7, a8, a9, a10, a11, a12, a13, a14, a15, a16, a17, a18, a19, a20, a21, a22, a23, a24, a25, a26, a27, a28⟩ := h
  constructor <;> dsimp only
  all_goals first | assumption | grind [Busy, Past, isOpen_append, current_append]

theorem inv_fail {s : St α ε} (h : Inv s) {i : Nat} {e : ε} (hr : s.ready i = true) : Inv ({ s with ended := fun j => if j = i then true else s.ended j }.goto i (.call (.term (.error e))) |>.emit (.recv i (.term (.error e)))) := by
  simp only [St.ready, Bool.and_eq_true, Bool.not_eq_true', St.goto, St.emit] at hr ⊢
  have hi := idle_of hr.1.1.1
  obtain ⟨a1, a2, a3, a4, a5, a6, a7, a8, a9, a10, a11, a12, a13, a14, a15, a16, a17, a18, a19, a20, a21, a22, a23, a24, a25, a26, a27, a28⟩ := h
  constructor <;> dsimp only
  all_goals first | assumption | grind [Busy, Past, isOpen_append, current_append]

theorem inv_exchN {s : St α ε} (h : Inv s) {i : Nat} {n : After} (hp : s.pc i = .exch none n) : Inv (s.after i n) := by
  obtain rfl := (h.exchN i n hp).1
  simp only [St.goto, St.after]
  obtain ⟨a1, a2, a3, a4, a5, a6, a7, a8, a9, a10, a11, a12, a13, a14, a15, a16, a17, a18, a19, a20, a21, a22, a23, a24, a25, a26, a27, a28⟩ := h
  constructor <;> dsimp only
  all_goals first | assumption | grind [Busy, Past, isOpen_append, current_append]

theorem inv_exchR {s : St α ε} (h : Inv s) {i r : Nat} (hp : s.pc i = .exch (some r) .ref) (hf : s.flags r = true) : Inv (s.goto i .ref) := by
  simp only [St.goto]
  obtain ⟨a1, a2, a3, a4, a5, a6, a7, a8, a9, a10, a11, a12, a13, a14, a15, a16, a17, a18, a19, a20, a21, a22, a23, a24, a25, a26, a27, a28⟩ := h
  constructor <;> dsimp only
  all_goals first | assumption | grind [Busy, Past, isOpen_append, current_append]

theorem inv_exchT {s : St α ε} (h : Inv s) {i r : Nat} (hp : s.pc i = .exch (some r) .test) (hf : s.flags r = true) : Inv (s.goto i .test) := by
  simp only [St.goto]
  obtain ⟨a1, a2, a3, a4, a5, a6, a7, a8, a9, a10, a11, a12, a13, a14, a15, a16, a17, a18, a19, a20, a21, a22, a23, a24, a25, a26, a27, a28⟩ := h
  constructor <;> dsimp only
  all_goals first | assumption | grind [Busy, Past, isOpen_append, current_append]

end Rpp.SwFine
