import Verif.Net.AllProofs
import Verif.Time.StagesLive

/-! Every operator can always come to rest: nothing gets stuck. -/

namespace Rpp.Net

open Comb (Sig)

variable {α β ε σ : Type}

/-- Not a disposal from outside (that the disposal reaches the operator, `shut`, is its consequence); a test on the constructor. -/
def HubAct.safe : HubAct → Bool
  | .gone => false
  | _ => true

/-- Not a disposal from outside; a test on the constructor. -/
def DelayAct.safe : DelayAct → Bool
  | .dispose => false
  | _ => true

/-- Some steps of the operator, allowed by `ok`, lead from `s` to a state with `P`; models no code. -/
def Goes (M : Machine α β ε) (ok : M.A → Bool) (s : M.S) (P : M.S → Prop) : Prop :=
  ∃ as : List M.A, (∀ a ∈ as, ok a = true) ∧ P (as.foldl M.act s)

section
variable {M : Machine α β ε} {ok : M.A → Bool} {s : M.S} {P Q : M.S → Prop}

theorem Goes.here (h : P s) : Goes M ok s P := ⟨[], (fun _ h => by cases h), h⟩

theorem Goes.step (a : M.A) (ha : ok a = true) (h : Goes M ok (M.act s a) P) : Goes M ok s P := by
  obtain ⟨as, h1, h2⟩ := h
  refine ⟨a :: as, fun b hb => ?_, h2⟩
  rcases List.mem_cons.1 hb with rfl | hb
  · exact ha
  · exact h1 b hb

theorem Goes.bind (h : Goes M ok s P) (hq : ∀ s', P s' → Goes M ok s' Q) : Goes M ok s Q := by
  obtain ⟨as, h1, h2⟩ := h
  obtain ⟨bs, h3, h4⟩ := hq _ h2
  refine ⟨as ++ bs, fun a ha => ?_, by rw [List.foldl_append]; exact h4⟩
  rcases List.mem_append.1 ha with ha | ha
  · exact h1 a ha
  · exact h3 a ha

end

/-! ## Operators with a mutex -/

/-- Steps a notification still has to make; models no code. -/
def load : Comb.Pc α β ε → Nat
  | .idle => 0
  | .rel | .opening => 1
  | .mark => 2
  | .cb _ | .cbErr => 3
  | .inn _ | .err _ => 4
  | .out _ => 5
  | .preE _ => 6
  | .relThrow _ => 7
  | .pre _ => 8

theorem down (H : Comb.Hub α β ε σ) (hE : ∀ i e x e', (H.act i (.term (.error e)) x).1 ≠ .throw e')
    (s : Comb.St α β ε σ) (k : Nat) (hl : s.lock = none ∨ (s.calls k).holds = true) (hk : s.calls k ≠ .idle) :
    ∃ l : Comb.Lbl α ε, (l = .run k ∨ l = .ret k .ok) ∧ load ((Comb.step H s l).calls k) < load (s.calls k) ∧
      (∀ j, j ≠ k → (Comb.step H s l).calls j = s.calls j) ∧ Calm s (Comb.step H s l) := by
  have fin : ∀ (s' : Comb.St α β ε σ) p, s'.calls = (fun j => if j = k then p else s.calls j) → load p < load (s.calls k) →
      load (s'.calls k) < load (s.calls k) ∧ ∀ j, j ≠ k → s'.calls j = s.calls j := by
    intro s' p e h
    rw [e]
    exact ⟨by simpa using h, fun j hj => by simp [hj]⟩
  have run : ∀ p, (Comb.step H s (.run k)).calls = (fun j => if j = k then p else s.calls j) → load p < load (s.calls k) →
      ∃ l : Comb.Lbl α ε, (l = .run k ∨ l = .ret k .ok) ∧ load ((Comb.step H s l).calls k) < load (s.calls k) ∧
      (∀ j, j ≠ k → (Comb.step H s l).calls j = s.calls j) ∧ Calm s (Comb.step H s l) := fun p e h =>
    ⟨.run k, .inl rfl, (fin _ p e h).1, (fin _ p e h).2, calm_run H s k⟩
  have ret : ∀ p, (Comb.step H s (.ret k .ok)).calls = (fun j => if j = k then p else s.calls j) → load p < load (s.calls k) →
      ∃ l : Comb.Lbl α ε, (l = .run k ∨ l = .ret k .ok) ∧ load ((Comb.step H s l).calls k) < load (s.calls k) ∧
      (∀ j, j ≠ k → (Comb.step H s l).calls j = s.calls j) ∧ Calm s (Comb.step H s l) := fun p e h =>
    ⟨.ret k .ok, .inr rfl, (fin _ p e h).1, (fin _ p e h).2, calm_ret H s k _⟩
  have nolock : (s.calls k).holds = false → s.lock = none := fun h => hl.resolve_right (by rw [h]; simp)
  cases hp : s.calls k with
  | idle => exact absurd hp hk
  | cb o =>
    rw [hp] at ret
    cases o with
    | next v => refine ret .rel ?_ (by simp [load]); simp only [Comb.step, hp]; rfl
    | term t => refine ret .mark ?_ (by simp [load]); simp only [Comb.step, hp]; rfl
  | cbErr => rw [hp] at ret; refine ret .mark ?_ (by simp [load]); simp only [Comb.step, hp]; rfl
  | rel => rw [hp] at run; refine run .idle ?_ (by simp [load]); simp only [Comb.step, Comb.St.advance, hp]; rfl
  | opening => rw [hp] at run; refine run .idle ?_ (by simp [load]); simp only [Comb.step, Comb.St.advance, hp]; rfl
  | mark => rw [hp] at run; refine run .rel ?_ (by simp [load]); simp only [Comb.step, Comb.St.advance, hp]; rfl
  | relThrow e => rw [hp] at run; refine run (.preE e) ?_ (by simp [load]); simp only [Comb.step, Comb.St.advance, hp]; rfl
  | out o =>
    have hn := nolock (by rw [hp]; rfl)
    rw [hp] at run; refine run (.inn o) ?_ (by simp [load]); simp only [Comb.step, Comb.St.advance, hp, hn]; rfl
  | inn o =>
    rw [hp] at run
    cases hg : s.gone with
    | true => refine run .rel ?_ (by simp [load]); simp only [Comb.step, Comb.St.advance, hp, hg]; rfl
    | false => refine run (.cb o) ?_ (by simp [load]); simp only [Comb.step, Comb.St.advance, hp, hg]; rfl
  | err e =>
    rw [hp] at run
    cases hg : s.gone with
    | true => refine run .rel ?_ (by simp [load]); simp only [Comb.step, Comb.St.advance, hp, hg]; rfl
    | false => refine run .cbErr ?_ (by simp [load]); simp only [Comb.step, Comb.St.advance, hp, hg]; rfl
  | preE e =>
    have hn := nolock (by rw [hp]; rfl)
    rw [hp] at run
    cases hs : s.shut with
    | true => refine run .idle ?_ (by decide : 0 < 6); simp only [Comb.step, Comb.St.advance, hp, hs]; rfl
    | false =>
      cases he : H.early k (.term (.error e)) with
      | true =>
        cases ho : (H.act k (.term (.error e)) s.st).1 with
        | silent => refine run .idle ?_ (by decide : 0 < 6); simp only [Comb.step, Comb.St.advance, hp, hs, Comb.St.process, he, ho]; rfl
        | out o => refine run (.out o) ?_ (by decide : 5 < 6); simp only [Comb.step, Comb.St.advance, hp, hs, Comb.St.process, he, ho]; rfl
        | throw e' => exact absurd ho (hE k e s.st e')
      | false =>
        cases ho : (H.act k (.term (.error e)) s.st).1 with
        | silent => refine run .rel ?_ (by decide : 1 < 6); simp only [Comb.step, Comb.St.advance, hp, hs, Comb.St.process, he, ho, hn]; rfl
        | out o => refine run (.inn o) ?_ (by decide : 4 < 6); simp only [Comb.step, Comb.St.advance, hp, hs, Comb.St.process, he, ho, hn]; rfl
        | throw e' => exact absurd ho (hE k e s.st e')
  | pre c =>
    have hn := nolock (by rw [hp]; rfl)
    rw [hp] at run
    cases he : H.early k c with
    | true =>
      cases ho : (H.act k c s.st).1 with
      | silent => refine run .idle ?_ (by decide : 0 < 8); simp only [Comb.step, Comb.St.advance, hp, Comb.St.process, he, ho]; rfl
      | out o => refine run (.out o) ?_ (by decide : 5 < 8); simp only [Comb.step, Comb.St.advance, hp, Comb.St.process, he, ho]; rfl
      | throw e => refine run (.preE e) ?_ (by decide : 6 < 8); simp only [Comb.step, Comb.St.advance, hp, Comb.St.process, he, ho]; rfl
    | false =>
      cases ho : (H.act k c s.st).1 with
      | silent => refine run .rel ?_ (by decide : 1 < 8); simp only [Comb.step, Comb.St.advance, hp, Comb.St.process, he, ho, hn]; rfl
      | out o => refine run (.inn o) ?_ (by decide : 4 < 8); simp only [Comb.step, Comb.St.advance, hp, Comb.St.process, he, ho, hn]; rfl
      | throw e => refine run (.relThrow e) ?_ (by decide : 7 < 8); simp only [Comb.step, Comb.St.advance, hp, Comb.St.process, he, ho, hn]; rfl

/-- Sum of `f 0 … f (B - 1)`; models no code. -/
def total (f : Nat → Nat) : Nat → Nat
  | 0 => 0
  | B + 1 => total f B + f B

theorem total_lt {f g : Nat → Nat} {k B : Nat} (hk : k < B) (h : g k < f k) (ho : ∀ j, j ≠ k → g j = f j) : total g B < total f B := by
  induction B with
  | zero => omega
  | succ B ih =>
    simp only [total]
    by_cases e : k = B
    · subst e
      have : total g k = total f k := by
        have : ∀ b ≤ k, total g b = total f b := by
          intro b hb
          induction b with
          | zero => rfl
          | succ b ihb => simp only [total]; rw [ihb (by omega), ho b (by omega)]
        exact this k (Nat.le_refl k)
      omega
    · have := ih (by omega)
      rw [ho B (fun h => e h.symm)]
      omega

theorem bounded (H : Comb.Hub α β ε σ) (ls : List (Comb.Lbl α ε)) : ∃ B, ∀ i, B ≤ i → (Comb.exec H ls).calls i = .idle := by
  refine Comb.exec_induct H (P := fun s => ∃ B, ∀ i, B ≤ i → s.calls i = .idle) ⟨0, fun _ _ => rfl⟩ (fun s s' ⟨B, hB⟩ t => ?_) ls
  have : ∃ k, ∀ j, j ≠ k → s'.calls j = s.calls j := by
    cases t with
    | recv i => exact ⟨i, fun j hj => by simp [Comb.St.goto, Comb.St.emit, hj]⟩
    | opn => exact ⟨0, fun j hj => by simp [Comb.St.goto, Comb.St.emit, hj]⟩
    | early i => exact ⟨i, fun j hj => by simp [Comb.St.goto, Comb.St.emit, hj]⟩
    | late i => exact ⟨i, fun j hj => by simp [Comb.St.goto, Comb.St.emit, hj]⟩
    | drop i => exact ⟨i, fun j hj => by simp [Comb.St.goto, Comb.St.emit, hj]⟩
    | enter i => exact ⟨i, fun j hj => by simp [Comb.St.goto, Comb.St.emit, hj]⟩
    | skip i => exact ⟨i, fun j hj => by simp [Comb.St.goto, Comb.St.emit, hj]⟩
    | beg i => exact ⟨i, fun j hj => by simp [Comb.St.goto, Comb.St.emit, hj]⟩
    | own i => exact ⟨i, fun j hj => by simp [Comb.St.goto, Comb.St.emit, hj]⟩
    | mark i => exact ⟨i, fun j hj => by simp [Comb.St.goto, Comb.St.emit, hj]⟩
    | rel i => exact ⟨i, fun j hj => by simp [Comb.St.goto, Comb.St.emit, hj]⟩
    | relThrow i => exact ⟨i, fun j hj => by simp [Comb.St.goto, Comb.St.emit, hj]⟩
    | opened i => exact ⟨i, fun j hj => by simp [Comb.St.goto, Comb.St.emit, hj]⟩
    | finNext i => exact ⟨i, fun j hj => by simp [Comb.St.goto, Comb.St.emit, hj]⟩
    | finTerm i => exact ⟨i, fun j hj => by simp [Comb.St.goto, Comb.St.emit, hj]⟩
    | gone => exact ⟨0, fun j hj => rfl⟩
    | shut => exact ⟨0, fun j hj => rfl⟩
  obtain ⟨k, hk⟩ := this
  refine ⟨B + k + 1, fun i hi => ?_⟩
  rw [hk i (by omega)]
  exact hB i (by omega)

theorem Calm.trans {a b c : Comb.St α β ε σ} (h : Calm a b) (g : Calm b c) : Calm a c := by
  obtain ⟨r, hr⟩ := h.told
  obtain ⟨q, hq⟩ := g.told
  exact ⟨g.active.trans h.active, g.done.trans h.done, fun i => (g.recv i).trans (h.recv i), r ++ q, by rw [hq, hr, List.append_assoc]⟩

/-- Whatever has happened, the notifications in progress can be brought to an end by the operator and its observer alone. -/
theorem hub_ends (H : Comb.Hub α β ε σ) (hE : ∀ i e x e', (H.act i (.term (.error e)) x).1 ≠ .throw e') (ls : List (Comb.Lbl α ε)) :
    ∃ ks : List (Comb.Lbl α ε), (∀ l ∈ ks, ∃ k, l = .run k ∨ l = .ret k .ok) ∧
      (∀ i, (ks.foldl (Comb.step H) (Comb.exec H ls)).calls i = .idle) ∧ Calm (Comb.exec H ls) (ks.foldl (Comb.step H) (Comb.exec H ls)) := by
  obtain ⟨B, hB⟩ := bounded H ls
  suffices hh : ∀ (m : Nat) (ls : List (Comb.Lbl α ε)), (∀ i, B ≤ i → (Comb.exec H ls).calls i = .idle) →
      total (fun i => load ((Comb.exec H ls).calls i)) B = m → ∃ ks : List (Comb.Lbl α ε), (∀ l ∈ ks, ∃ k, l = .run k ∨ l = .ret k .ok) ∧
      (∀ i, (ks.foldl (Comb.step H) (Comb.exec H ls)).calls i = .idle) ∧ Calm (Comb.exec H ls) (ks.foldl (Comb.step H) (Comb.exec H ls)) from
    hh _ ls hB rfl
  intro m
  induction m using Nat.strongRecOn with
  | ind m ih =>
    intro ls hB hm
    by_cases hq : ∀ i, (Comb.exec H ls).calls i = .idle
    · exact ⟨[], (fun _ h => by cases h), hq, .refl _⟩
    · have : ∃ k, ((Comb.exec H ls).lock = none ∨ ((Comb.exec H ls).calls k).holds = true) ∧ (Comb.exec H ls).calls k ≠ .idle := by
        cases hl : (Comb.exec H ls).lock with
        | none =>
          obtain ⟨i, hi⟩ := Classical.not_forall.1 hq
          exact ⟨i, .inl rfl, hi⟩
        | some k =>
          have := ((Comb.inv1 H ls).lock k).1 hl
          exact ⟨k, .inr this, fun e => by rw [e] at this; cases this⟩
      obtain ⟨k, hl, hk⟩ := this
      obtain ⟨l, ha, hlt, ho, hc⟩ := down H hE (Comb.exec H ls) k hl hk
      have hkB : k < B := Nat.lt_of_not_le fun hle => hk (hB k hle)
      have e : Comb.exec H (ls ++ [l]) = Comb.step H (Comb.exec H ls) l := List.foldl_append ..
      rw [← e] at hlt ho hc
      obtain ⟨ks, h1, h2, h3⟩ := ih _ (by
        rw [← hm]
        exact total_lt (g := fun i => load ((Comb.exec H (ls ++ [l])).calls i)) hkB hlt fun j hj => by rw [ho j hj])
        (ls ++ [l]) (fun i hi => by rw [ho i (by omega)]; exact hB i hi) rfl
      refine ⟨l :: ks, fun a hm => ?_, ?_, ?_⟩
      · rcases List.mem_cons.1 hm with rfl | hm
        · exact ⟨k, ha⟩
        · exact h1 a hm
      · intro i; rw [List.foldl_cons, ← e]; exact h2 i
      · rw [List.foldl_cons, ← e]; exact hc.trans h3

/-- The same for the machines. -/
theorem hub_quiet (H : Comb.Hub α β ε σ) (n : Nat) (port : Nat → Nat) (hE : ∀ i e x e', (H.act i (.term (.error e)) x).1 ≠ .throw e')
    {s : Comb.St α β ε σ} (h : (hubMachine H n port).Reach s) :
    Goes (hubMachine H n port) HubAct.safe s (fun s' => (hubMachine H n port).Reach s' ∧
      (∀ i, Comb.St.calls (α := α) (β := β) (ε := ε) (σ := σ) s' i = .idle) ∧ Calm (α := α) (β := β) (ε := ε) (σ := σ) s s') := by
  have hks : ∃ ks : List (Comb.Lbl α ε), (∀ l ∈ ks, ∃ k, l = .run k ∨ l = .ret k .ok) ∧
      (∀ i, (ks.foldl (Comb.step H) s).calls i = .idle) ∧ Calm s (ks.foldl (Comb.step H) s) := by
    obtain ⟨ls, rfl⟩ := hub_exec H n port h
    exact hub_ends H hE ls
  obtain ⟨ks, h1, h2, h3⟩ := hks
  suffices hh : ∀ (ks : List (Comb.Lbl α ε)) (s : Comb.St α β ε σ), (∀ l ∈ ks, ∃ k, l = .run k ∨ l = .ret k .ok) → (hubMachine H n port).Reach s →
      Goes (hubMachine H n port) HubAct.safe s (fun s' => (hubMachine H n port).Reach s' ∧ s' = ks.foldl (Comb.step H) s) from
    (hh ks s h1 h).bind fun s' hs => .here ⟨hs.1, fun i => by rw [hs.2]; exact h2 i, by rw [hs.2]; exact h3⟩
  intro ks
  induction ks with
  | nil => exact fun s _ h => .here ⟨h, rfl⟩
  | cons l ks ih =>
    intro s hl h
    obtain ⟨k, rfl | rfl⟩ := hl l List.mem_cons_self
    · exact .step (HubAct.run k) rfl (ih _ (fun a ha => hl a (List.mem_cons_of_mem _ ha)) (.act (HubAct.run k) h))
    · exact .step (HubAct.ret k) rfl (ih _ (fun a ha => hl a (List.mem_cons_of_mem _ ha)) (.act (HubAct.ret k) h))

end Rpp.Net
