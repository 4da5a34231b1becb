import Verif.Resub.Proofs

namespace Rpp.Resub

open Rpp.Comb (Sig Res)

variable {α β ε σ : Type}

set_option maxHeartbeats 4000000 in
theorem Inv.tr {P : Policy β ε σ} {s s' : St α β ε σ} {own : Option Who} {cur : Bool} (hN : InvN s) (h : Inv s own cur) (t : Tr P s s') :
    ∃ own' cur', Inv s' own' cur' := by
  obtain ⟨a1, a2, a3, a4, a5, a6, a7, a8, a9, a10, a11, a12, a13, a14, a15, a16, a17, a18, a19, a20, a21, a22⟩ := id h
  have b1 : s.active (.src (s.n + 1)) = false := by cases h : s.active (.src (s.n + 1)) with
    | false => rfl
    | true => have := (hN.active _).mp h; omega
  have b2 : s.active (.ntf (s.n + 1)) = false := by cases h : s.active (.ntf (s.n + 1)) with
    | false => rfl
    | true => have := hN.activeN _ h; omega
  have b3 : s.n + 1 ≠ s.n := by omega
  have b4 : s.n + 1 ≠ 0 := by omega
  have b5 : .handed (s.n + 1) ∉ s.log := fun h => by have := hN.handed _ h; omega
  clear hN
  cases t with
  | sub w x hc =>
    refine ⟨some w, true, ?_⟩
    have hq : ∀ w', (s.calls w').speaks = false := fun w' => h.quiet (w := w) (by rw [hc]; rfl)
    constructor <;> simp only [St.goto, St.emit, St.start, St.finish, List.mem_append, List.mem_singleton] at * <;>
      grind [Pc.owner, Pc.free, Pc.waiting, Pc.speaks, owner_of_free, owner_of_waiting]
  | exSYes w hc hf =>
    refine ⟨Option.none, cur, ?_⟩
    constructor <;> simp only [St.goto, St.emit, St.start, St.finish, List.mem_append, List.mem_singleton] at * <;>
      grind [Pc.owner, Pc.free, Pc.waiting, Pc.speaks, owner_of_free, owner_of_waiting]
  | exYes w n hc hf =>
    refine ⟨own, false, ?_⟩
    constructor <;> simp only [St.goto, St.emit, St.start, St.finish, List.mem_append, List.mem_singleton] at * <;>
      grind [Pc.owner, Pc.free, Pc.waiting, Pc.speaks, owner_of_free, owner_of_waiting]
  | exNo w n hc hf =>
    refine ⟨some w, false, ?_⟩
    have hu : own = Option.none := h.unowned (a8 w n hc).2.1 (a8 w n hc).2.2.1 hf
    constructor <;> simp only [St.goto, St.emit, St.start, St.finish, List.mem_append, List.mem_singleton] at * <;>
      grind [Pc.owner, Pc.free, Pc.waiting, Pc.speaks, owner_of_free, owner_of_waiting]
  | pickNone w hc hn =>
    refine ⟨own, cur, ?_⟩
    have hq : ∀ w', (s.calls w').speaks = false := fun w' => h.quiet (w := w) (by rw [hc]; rfl)
    constructor <;> simp only [St.goto, St.emit, St.start, St.finish, List.mem_append, List.mem_singleton] at * <;>
      grind [Pc.owner, Pc.free, Pc.waiting, Pc.speaks, owner_of_free, owner_of_waiting]
  | skip w hc hg =>
    refine ⟨own, cur, ?_⟩
    have hs : (s.calls w).speaks = true := by rcases hc with ⟨o, hc⟩ | ⟨e, hc⟩ <;> rw [hc] <;> rfl
    constructor <;> simp only [St.goto, St.emit, St.start, St.finish, List.mem_append, List.mem_singleton] at * <;>
      grind [Pc.owner, Pc.free, Pc.waiting, Pc.speaks, owner_of_free, owner_of_waiting]
  | finTerm w hc =>
    refine ⟨own, cur, ?_⟩
    have hs : (s.calls w).speaks = true := by rcases hc with ⟨o, hc⟩ | hc <;> rw [hc] <;> rfl
    constructor <;> simp only [St.goto, St.emit, St.start, St.finish, List.mem_append, List.mem_singleton] at * <;>
      grind [Pc.owner, Pc.free, Pc.waiting, Pc.speaks, owner_of_free, owner_of_waiting]
  | _ =>
    refine ⟨own, cur, ?_⟩
    constructor <;> simp only [St.goto, St.emit, St.start, St.finish, List.mem_append, List.mem_singleton] at * <;>
      grind [Pc.owner, Pc.free, Pc.waiting, Pc.speaks, owner_of_free, owner_of_waiting]

end Rpp.Resub
