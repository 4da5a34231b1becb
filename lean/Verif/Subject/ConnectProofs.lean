import Verif.Subject.Connect
import Verif.Scheduler.CurrentThreadProofs

/-!
# connect(): invariants
-/

namespace Rpp.Connect

theorem split_snoc {γ : Type} {l l1 l2 : List γ} {e x : γ} (h : l ++ [e] = l1 ++ x :: l2) :
    (l2 = [] ∧ x = e ∧ l1 = l) ∨ ∃ l2', l2 = l2' ++ [e] ∧ l = l1 ++ x :: l2' := by
  rcases List.eq_nil_or_concat l2 with rfl | ⟨l2', y, rfl⟩
  · have h2 := List.append_inj' h rfl
    simp at h2
    exact .inl ⟨rfl, h2.2.symm, h2.1.symm⟩
  · have h' : l ++ [e] = (l1 ++ x :: l2') ++ [y] := by simpa using h
    have h2 := List.append_inj' h' rfl
    simp at h2
    exact .inr ⟨l2', by simp [h2.2], h2.1⟩

/-- What the logs satisfy (for the proofs); models no code. -/
def Ok (pre : List Ev) : Ev → Prop
  | .opened c _ => .closed ∉ pre ∧ (∀ c' w', .opened c' (some w') ∈ pre → .down w' ∈ pre) ∧
      (∀ w, .opened c w ∉ pre) ∧ (∀ w, .joined c w ∉ pre) ∧ .refused c ∉ pre
  | .joined c w => .closed ∉ pre ∧ (∃ c', .opened c' (some w) ∈ pre) ∧ .down w ∉ pre ∧
      (∀ w, .opened c w ∉ pre) ∧ (∀ w, .joined c w ∉ pre) ∧ .refused c ∉ pre
  | .refused c => .closed ∈ pre ∧ (∀ w, .opened c w ∉ pre) ∧ (∀ w, .joined c w ∉ pre) ∧ .refused c ∉ pre
  | .subscribed c w => .opened c (some w) ∈ pre ∧ .down w ∉ pre ∧ (∀ c' w', .subscribed c' w' ∈ pre → .down w' ∈ pre) ∧
      (∀ w', .subscribed c w' ∉ pre)
  | .took c d => (∃ w, .subscribed c w ∈ pre ∧ .down w ∉ pre) ∧ .closed ∉ pre ∧ .freed d ∉ pre
  | .began c => (∃ w, .subscribed c w ∈ pre ∧ .down w ∉ pre) ∧ .closed ∉ pre
  | .freed d => .freed d ∉ pre
  | .down w => .down w ∉ pre
  | .closed => .closed ∉ pre
  | .ended _ => True

/-- What the logs satisfy (for the proofs); models no code. -/
def AllOk (log : List Ev) : Prop := ∀ pre e post, log = pre ++ e :: post → Ok pre e

theorem AllOk.snoc {log : List Ev} {e : Ev} (h : AllOk log) (he : Ok log e) : AllOk (log ++ [e]) := by
  intro pre x post hx
  rcases split_snoc hx with ⟨_, rfl, rfl⟩ | ⟨l2', _, h2⟩
  · exact he
  · exact h _ _ _ h2

/-- What the log says about the events `e` that are no `freed`. -/
def Same (l l' : List Ev) : Prop := ∀ e, (∀ d, e ≠ .freed d) → (e ∈ l' ↔ e ∈ l)

theorem freeAll_props (ds : List Nat) : ∀ (log : List Ev), AllOk log → AllOk (freeAll log ds) ∧ Same log (freeAll log ds) ∧
    (∀ d, (.freed d ∈ freeAll log ds ↔ .freed d ∈ log ∨ d ∈ ds)) := by
  induction ds with
  | nil => intro log h; exact ⟨h, fun _ _ => Iff.rfl, by simp [freeAll]⟩
  | cons d ds ih =>
    intro log h
    simp only [freeAll]
    by_cases hd : Ev.freed d ∈ log
    · rw [if_pos hd]
      obtain ⟨a, b, c⟩ := ih log h
      refine ⟨a, b, fun x => ?_⟩
      rw [c x]
      constructor
      · rintro (h | h) <;> simp [h]
      · rintro (h | h)
        · exact .inl h
        · rcases List.mem_cons.1 h with rfl | h
          · exact .inl hd
          · exact .inr h
    · rw [if_neg hd]
      obtain ⟨a, b, c⟩ := ih (log ++ [.freed d]) (h.snoc (e := .freed d) hd)
      refine ⟨a, fun e he => ?_, fun x => ?_⟩
      · rw [b e he]
        simp [he d]
      · rw [c x]
        simp
        constructor
        · rintro ((h | h) | h) <;> simp [h]
        · rintro (h | h | h) <;> simp [h]

/-- Invariant of the proofs; models no code. -/
structure Inv (s : St) : Prop where
  ok : AllOk s.log
  clo : s.closed = true ↔ .closed ∈ s.log
  dwn : ∀ w, w ∈ s.down ↔ .down w ∈ s.log
  src : ∀ c w, s.src c = some w ↔ .subscribed c w ∈ s.log
  idle : ∀ c, s.calls c = .idle → (∀ w, .opened c w ∉ s.log) ∧ (∀ w, .joined c w ∉ s.log) ∧ .refused c ∉ s.log
  sub : ∀ c w, s.calls c = .sub w → .opened c w ∈ s.log ∧ ∀ w', .subscribed c w' ∉ s.log
  opn : ∀ c w, .opened c (some w) ∈ s.log → s.calls c = .sub (some w) ∨ .subscribed c w ∈ s.log ∨ .down w ∈ s.log
  subo : ∀ c w, .subscribed c w ∈ s.log → .opened c (some w) ∈ s.log
  cur : ∀ c w, .opened c (some w) ∈ s.log → .down w ∉ s.log → s.cur = some w
  curo : ∀ w, s.cur = some w → ∃ c, .opened c (some w) ∈ s.log
  uniq : ∀ c c' w, .opened c (some w) ∈ s.log → .opened c' (some w) ∈ s.log → .down w ∉ s.log → c = c'
  kid : ∀ c w d, .took c d ∈ s.log → .subscribed c w ∈ s.log → d ∈ s.kids w ∨ .freed d ∈ s.log
  kidn : ∀ w, w ∈ s.down → s.kids w = []
  keep : ∀ c d, .took c d ∈ s.log → d ∈ s.keeps ∨ .freed d ∈ s.log
  keepn : s.closed = true → s.keeps = []
  fl : ∀ c, s.flight c ≠ none → ∃ w, s.src c = some w

theorem inv0 : Inv {} := by
  refine ⟨?_, ?_, ?_, ?_, ?_, ?_, ?_, ?_, ?_, ?_, ?_, ?_, ?_, ?_, ?_, ?_⟩ <;> simp
  intro pre e post h; simp at h

theorem Inv.free {s : St} (h : Inv s) (d : Nat) (hd : .freed d ∉ s.log) : Inv (s.say (.freed d)) := by
  obtain ⟨h1, h2, h3, h4, h5, h6, h7, h8, h9, h10, h11, h12, h13, h14, h15, h16⟩ := h
  constructor <;> (try simp only [St.say, List.mem_append, List.mem_singleton, reduceCtorEq, or_false]) <;> first | assumption | skip
  · exact h1.snoc hd
  · intro c w x ht hs
    rcases h12 c w x ht hs with h | h <;> simp [h]
  · intro c x ht
    rcases h14 c x ht with h | h <;> simp [h]

theorem Inv.dispose {s : St} (h : Inv s) (w : Nat) : Inv (disposeW s w) := by
  unfold disposeW
  split
  · exact h
  · rename_i hw
    obtain ⟨h1, h2, h3, h4, h5, h6, h7, h8, h9, h10, h11, h12, h13, h14, h15, h16⟩ := h
    have hw' : Ev.down w ∉ s.log := fun hc => hw ((h3 w).2 hc)
    obtain ⟨a, b, c⟩ := freeAll_props (s.kids w) (s.log ++ [.down w]) (h1.snoc (e := .down w) hw')
    have eo : ∀ c w', Ev.opened c w' ∈ freeAll (s.log ++ [.down w]) (s.kids w) ↔ Ev.opened c w' ∈ s.log := by
      intro c w'; rw [b _ (by simp)]; simp
    have ej : ∀ c w', Ev.joined c w' ∈ freeAll (s.log ++ [.down w]) (s.kids w) ↔ Ev.joined c w' ∈ s.log := by
      intro c w'; rw [b _ (by simp)]; simp
    have er : ∀ c, Ev.refused c ∈ freeAll (s.log ++ [.down w]) (s.kids w) ↔ Ev.refused c ∈ s.log := by
      intro c; rw [b _ (by simp)]; simp
    have es : ∀ c w', Ev.subscribed c w' ∈ freeAll (s.log ++ [.down w]) (s.kids w) ↔ Ev.subscribed c w' ∈ s.log := by
      intro c w'; rw [b _ (by simp)]; simp
    have et : ∀ c w', Ev.took c w' ∈ freeAll (s.log ++ [.down w]) (s.kids w) ↔ Ev.took c w' ∈ s.log := by
      intro c w'; rw [b _ (by simp)]; simp
    have ec : Ev.closed ∈ freeAll (s.log ++ [.down w]) (s.kids w) ↔ Ev.closed ∈ s.log := by
      rw [b _ (by simp)]; simp
    have ed : ∀ w', Ev.down w' ∈ freeAll (s.log ++ [.down w]) (s.kids w) ↔ Ev.down w' ∈ s.log ∨ w' = w := by
      intro w'; rw [b _ (by simp)]; simp
    have ef : ∀ d, Ev.freed d ∈ freeAll (s.log ++ [.down w]) (s.kids w) ↔ Ev.freed d ∈ s.log ∨ d ∈ s.kids w := by
      intro d; rw [c d]; simp
    constructor <;> simp only [eo, ej, er, es, et, ec, ed, ef]
    · exact a
    · exact h2
    · intro x; rw [List.mem_cons, h3 x]; exact Or.comm
    · exact h4
    · exact h5
    · exact h6
    · intro c x hx
      rcases h7 c x hx with h | h | h <;> simp [h]
    · exact h8
    · intro c x hx hn; exact h9 c x hx (fun hc => hn (.inl hc))
    · exact h10
    · intro c c' x hx hx' hn; exact h11 c c' x hx hx' (fun hc => hn (.inl hc))
    · intro c x d ht hs
      rcases h12 c x d ht hs with h | h
      · by_cases hx : x = w
        · subst hx; exact .inr (.inr h)
        · exact .inl (by simp [set, hx, h])
      · exact .inr (.inl h)
    · intro x hx
      simp only [set]
      split
      · rfl
      · rename_i hne
        exact h13 x (by simpa [hne] using hx)
    · intro c d ht
      rcases h14 c d ht with h | h <;> simp [h]
    · exact h15
    · exact h16

theorem Inv.close {s : St} (h : Inv s) : Inv (close s) := by
  unfold Connect.close
  split
  · exact h
  · rename_i hw
    obtain ⟨h1, h2, h3, h4, h5, h6, h7, h8, h9, h10, h11, h12, h13, h14, h15, h16⟩ := h
    have hw' : Ev.closed ∉ s.log := fun hc => hw (h2.2 hc)
    obtain ⟨a, b, c⟩ := freeAll_props s.keeps (s.log ++ [.closed]) (h1.snoc (e := .closed) hw')
    have eo : ∀ c w', Ev.opened c w' ∈ freeAll (s.log ++ [.closed]) s.keeps ↔ Ev.opened c w' ∈ s.log := by
      intro c w'; rw [b _ (by simp)]; simp
    have ej : ∀ c w', Ev.joined c w' ∈ freeAll (s.log ++ [.closed]) s.keeps ↔ Ev.joined c w' ∈ s.log := by
      intro c w'; rw [b _ (by simp)]; simp
    have er : ∀ c, Ev.refused c ∈ freeAll (s.log ++ [.closed]) s.keeps ↔ Ev.refused c ∈ s.log := by
      intro c; rw [b _ (by simp)]; simp
    have es : ∀ c w', Ev.subscribed c w' ∈ freeAll (s.log ++ [.closed]) s.keeps ↔ Ev.subscribed c w' ∈ s.log := by
      intro c w'; rw [b _ (by simp)]; simp
    have et : ∀ c w', Ev.took c w' ∈ freeAll (s.log ++ [.closed]) s.keeps ↔ Ev.took c w' ∈ s.log := by
      intro c w'; rw [b _ (by simp)]; simp
    have ec : Ev.closed ∈ freeAll (s.log ++ [.closed]) s.keeps ↔ True := by
      rw [b _ (by simp)]; simp
    have ed : ∀ w', Ev.down w' ∈ freeAll (s.log ++ [.closed]) s.keeps ↔ Ev.down w' ∈ s.log := by
      intro w'; rw [b _ (by simp)]; simp
    have ef : ∀ d, Ev.freed d ∈ freeAll (s.log ++ [.closed]) s.keeps ↔ Ev.freed d ∈ s.log ∨ d ∈ s.keeps := by
      intro d; rw [c d]; simp
    constructor <;> simp only [eo, ej, er, es, et, ec, ed, ef] <;> first | assumption | skip
    · intro c x d ht hs
      rcases h12 c x d ht hs with h | h <;> simp [h]
    · intro c d ht
      exact .inr ((h14 c d ht).symm)
    · intro _; trivial

/-- Only `flight` and the log change, the latter by the beginning or the end of an emission. -/
theorem Inv.fly {s : St} (h : Inv s) (c : Nat) (f : Option Bool) (e : Ev) (hs : ∃ w, s.src c = some w)
    (he : e = .ended c ∨ (e = .began c ∧ Ok s.log (.began c))) : Inv ({ s with flight := set s.flight c f }.say e) := by
  obtain ⟨h1, h2, h3, h4, h5, h6, h7, h8, h9, h10, h11, h12, h13, h14, h15, h16⟩ := h
  have hm : ∀ x, (∀ c, x ≠ .ended c) → (∀ c, x ≠ .began c) → (x ∈ s.log ++ [e] ↔ x ∈ s.log) := by
    intro x hx hy
    rcases he with rfl | ⟨rfl, _⟩ <;> simp [hx, hy]
  have eo : ∀ c w', Ev.opened c w' ∈ s.log ++ [e] ↔ Ev.opened c w' ∈ s.log := fun c w' => hm _ (by simp) (by simp)
  have ej : ∀ c w', Ev.joined c w' ∈ s.log ++ [e] ↔ Ev.joined c w' ∈ s.log := fun c w' => hm _ (by simp) (by simp)
  have er : ∀ c, Ev.refused c ∈ s.log ++ [e] ↔ Ev.refused c ∈ s.log := fun c => hm _ (by simp) (by simp)
  have es : ∀ c w', Ev.subscribed c w' ∈ s.log ++ [e] ↔ Ev.subscribed c w' ∈ s.log := fun c w' => hm _ (by simp) (by simp)
  have et : ∀ c w', Ev.took c w' ∈ s.log ++ [e] ↔ Ev.took c w' ∈ s.log := fun c w' => hm _ (by simp) (by simp)
  have ec : Ev.closed ∈ s.log ++ [e] ↔ Ev.closed ∈ s.log := hm _ (by simp) (by simp)
  have ed : ∀ w', Ev.down w' ∈ s.log ++ [e] ↔ Ev.down w' ∈ s.log := fun w' => hm _ (by simp) (by simp)
  have ef : ∀ d, Ev.freed d ∈ s.log ++ [e] ↔ Ev.freed d ∈ s.log := fun w' => hm _ (by simp) (by simp)
  constructor <;> simp only [St.say, eo, ej, er, es, et, ec, ed, ef] <;> first | assumption | skip
  · refine h1.snoc ?_
    rcases he with rfl | ⟨rfl, h⟩
    · trivial
    · exact h
  · intro x hx
    simp only [set] at hx
    split at hx
    · rename_i hxc; subst hxc; exact hs
    · exact h16 x hx

theorem step_inv {s : St} (h : Inv s) (l : Lbl) : Inv (step s l) := by
  cases l with
  | connect c w =>
    simp only [step]
    split
    · rename_i hc
      obtain ⟨i1, i2, i3⟩ := h.idle c hc
      have hidle : ∀ x p, p ≠ Pc.idle → set s.calls c p x = .idle → x ≠ c ∧ s.calls x = .idle := by
        intro x p hp hx
        simp only [set] at hx
        split at hx
        · exact absurd hx hp
        · rename_i hne; exact ⟨hne, hx⟩
      split
      · rename_i hcl
        obtain ⟨h1, h2, h3, h4, h5, h6, h7, h8, h9, h10, h11, h12, h13, h14, h15, h16⟩ := h
        constructor <;> (try simp only [St.say, List.mem_append, List.mem_singleton, reduceCtorEq, or_false]) <;> first | assumption | skip
        · exact h1.snoc ⟨h2.1 hcl, i1, i2, i3⟩
        · intro x hx
          obtain ⟨hne, hx⟩ := hidle x _ (by simp) hx
          obtain ⟨a, b, d⟩ := h5 x hx
          exact ⟨a, b, by simp [d, hne]⟩
        · intro x w' hx
          simp only [set] at hx
          split at hx
          · cases hx
          · exact h6 x w' hx
        · intro x w' hx
          have hne : x ≠ c := fun e => i1 _ (e ▸ hx)
          simpa [set, hne] using h7 x w' hx
      · rename_i hcl
        have hclog : Ev.closed ∉ s.log := fun hc => hcl (h.clo.2 hc)
        split
        · rename_i x hcur hdn
          have hx : Ev.down x ∉ s.log := by
            rw [hcur] at hdn
            simp only [St.isDown, decide_eq_false_iff_not] at hdn
            exact fun hc => hdn ((h.dwn x).2 hc)
          obtain ⟨h1, h2, h3, h4, h5, h6, h7, h8, h9, h10, h11, h12, h13, h14, h15, h16⟩ := h
          constructor <;> (try simp only [St.say, List.mem_append, List.mem_singleton, reduceCtorEq, or_false]) <;> first | assumption | skip
          · exact h1.snoc ⟨hclog, h10 x hcur, hx, i1, i2, i3⟩
          · intro y hy
            obtain ⟨hne, hy⟩ := hidle y _ (by simp) hy
            obtain ⟨a, b, d⟩ := h5 y hy
            exact ⟨a, fun w => by simp [b w, hne], d⟩
          · intro y w' hx
            simp only [set] at hx
            split at hx
            · cases hx
            · exact h6 y w' hx
          · intro y w' hx
            have hne : y ≠ c := fun e => i1 _ (e ▸ hx)
            simpa [set, hne] using h7 y w' hx
        · rename_i hno
          have hall : ∀ c' w', Ev.opened c' (some w') ∈ s.log → Ev.down w' ∈ s.log := by
            intro c' w' ho
            apply Classical.byContradiction
            intro hn
            have hcur := h.cur c' w' ho hn
            refine hno w' hcur ?_
            rw [hcur]
            simp only [St.isDown, decide_eq_false_iff_not]
            exact fun hc => hn ((h.dwn w').1 hc)
          obtain ⟨h1, h2, h3, h4, h5, h6, h7, h8, h9, h10, h11, h12, h13, h14, h15, h16⟩ := h
          constructor <;> (try simp only [St.say, List.mem_append, List.mem_singleton, reduceCtorEq, or_false]) <;> first | assumption | skip
          · exact h1.snoc ⟨hclog, hall, i1, i2, i3⟩
          · intro y hy
            obtain ⟨hne, hy⟩ := hidle y _ (by simp) hy
            obtain ⟨a, b, d⟩ := h5 y hy
            exact ⟨fun w => by simp [a w, hne], b, d⟩
          · intro y w' hx
            simp only [set] at hx
            split at hx
            · rename_i hyc
              cases hx
              subst hyc
              exact ⟨.inr rfl, fun w' hs => i1 _ (h8 _ _ hs)⟩
            · exact ⟨.inl (h6 y w' hx).1, (h6 y w' hx).2⟩
          · rintro y w' (hx | hx)
            · have hne : y ≠ c := fun e => i1 _ (e ▸ hx)
              simpa [set, hne] using h7 y w' hx
            · cases hx
              exact .inl (by simp [set])
          · intro y w' hs; exact .inl (h8 y w' hs)
          · rintro y w' (hx | hx) hn
            · exact absurd (hall _ _ hx) hn
            · cases hx; rfl
          · intro w' hw
            exact ⟨c, .inr (by rw [hw])⟩
          · rintro y y' w' (hx | hx) (hx' | hx') hn
            · exact absurd (hall _ _ hx) hn
            · exact absurd (hall _ _ hx) hn
            · exact absurd (hall _ _ hx') hn
            · cases hx; cases hx'; rfl
    · exact h
  | subscribe c =>
    simp only [step]
    have hfin : ∀ w, s.calls c = .sub w → (∀ w', w = some w' → .down w' ∈ s.log) → Inv { s with calls := set s.calls c .fin } := by
      intro w hc hw
      obtain ⟨h1, h2, h3, h4, h5, h6, h7, h8, h9, h10, h11, h12, h13, h14, h15, h16⟩ := h
      constructor <;> first | assumption | skip
      · intro x hx
        simp only [set] at hx
        split at hx
        · cases hx
        · exact h5 x hx
      · intro x w' hx
        simp only [set] at hx
        split at hx
        · cases hx
        · exact h6 x w' hx
      · intro x w' hx
        rcases h7 x w' hx with h | h
        · by_cases hxc : x = c
          · subst hxc
            rw [h] at hc
            exact .inr (.inr (hw w' (by cases hc; rfl)))
          · exact .inl (by simp [set, hxc, h])
        · exact .inr h
    split
    · rename_i w hc
      split
      · rename_i hd
        exact hfin _ hc (fun w' hw => by cases hw; exact (h.dwn w).1 hd)
      · rename_i hd
        have hd' : Ev.down w ∉ s.log := fun hh => hd ((h.dwn w).2 hh)
        obtain ⟨hop, hns⟩ := h.sub c _ hc
        have hothers : ∀ c' w', Ev.subscribed c' w' ∈ s.log → Ev.down w' ∈ s.log := by
          intro c' w' hs
          apply Classical.byContradiction
          intro hn
          have e1 := h.cur _ _ (h.subo _ _ hs) hn
          have e2 := h.cur _ _ hop hd'
          rw [e1] at e2
          cases e2
          have := h.uniq _ _ _ (h.subo _ _ hs) hop hn
          subst this
          exact hns _ hs
        have hkn : ∀ d, Ev.took c d ∉ s.log := by
          intro d hm
          obtain ⟨p, q, e⟩ := List.append_of_mem hm
          obtain ⟨⟨w', hw', _⟩, _⟩ := h.ok p _ q e
          exact hns w' (by rw [e]; simp [hw'])
        obtain ⟨h1, h2, h3, h4, h5, h6, h7, h8, h9, h10, h11, h12, h13, h14, h15, h16⟩ := h
        constructor <;> (try simp only [St.say, List.mem_append, List.mem_singleton, reduceCtorEq, or_false]) <;> first | assumption | skip
        · exact h1.snoc ⟨hop, hd', hothers, hns⟩
        · intro x w'
          simp only [set]
          split
          · rename_i hxc
            subst hxc
            simp [hns w']
            exact eq_comm
          · rename_i hxc
            simp [h4 x w', hxc]
        · intro x hx
          simp only [set] at hx
          split at hx
          · cases hx
          · exact h5 x hx
        · intro x w' hx
          simp only [set] at hx
          split at hx
          · cases hx
          · rename_i hxc
            refine ⟨(h6 x w' hx).1, fun w'' => ?_⟩
            simp [(h6 x w' hx).2 w'', hxc]
        · intro x w' hx
          rcases h7 x w' hx with h | h | h
          · by_cases hxc : x = c
            · subst hxc
              rw [h] at hc
              cases hc
              exact .inr (.inl (.inr rfl))
            · exact .inl (by simp [set, hxc, h])
          · exact .inr (.inl (.inl h))
          · exact .inr (.inr h)
        · rintro x w' (hx | hx)
          · exact h8 x w' hx
          · cases hx; exact hop
        · rintro x w' d ht (hx | hx)
          · exact h12 x w' d ht hx
          · cases hx; exact absurd ht (hkn d)
        · intro x hx
          obtain ⟨w', hw'⟩ := h16 x hx
          simp only [set]
          split
          · exact ⟨w, rfl⟩
          · exact ⟨w', hw'⟩
    · rename_i hc
      exact hfin _ hc (by simp)
    · exact h
  | upstream c d =>
    simp only [step]
    split
    · exact h
    · rename_i w hw
      split
      · exact h
      · rename_i hd
        split
        · exact h.free d hd
        · rename_i hdeaf
          have hclosed : s.closed = false := by simp [St.deaf] at hdeaf; exact hdeaf.2
          have hdown : w ∉ s.down := by simp [St.deaf, hw, St.isDown] at hdeaf; exact hdeaf.1
          obtain ⟨h1, h2, h3, h4, h5, h6, h7, h8, h9, h10, h11, h12, h13, h14, h15, h16⟩ := h
          constructor <;> (try simp only [St.say, List.mem_append, List.mem_singleton, reduceCtorEq, or_false]) <;> first | assumption | skip
          · refine h1.snoc ⟨⟨w, (h4 c w).1 hw, fun hc => hdown ((h3 w).2 hc)⟩, fun hc => ?_, hd⟩
            rw [h2.2 hc] at hclosed; cases hclosed
          · rintro x w' y (ht | ht) hs
            · rcases h12 x w' y ht hs with h | h
              · refine .inl ?_
                simp only [set]
                split
                · rename_i e; subst e; simp [h]
                · exact h
              · exact .inr h
            · cases ht
              have : some w = some w' := by rw [← hw]; exact (h4 c w').2 hs
              cases this
              exact .inl (by simp [set])
          · intro x hx
            simp only [set]
            split
            · rename_i e; subst e; exact absurd hx hdown
            · exact h13 x hx
          · rintro x y (ht | ht)
            · rcases h14 x y ht with h | h <;> simp [h]
            · cases ht; simp
          · intro hc; rw [hc] at hclosed; cases hclosed
  | emit c last =>
    simp only [step]
    split
    · rename_i w hw hf
      split
      · exact h
      · rename_i hdeaf
        have hclosed : s.closed = false := by simp [St.deaf] at hdeaf; exact hdeaf.2
        have hdown : w ∉ s.down := by simp [St.deaf, hw, St.isDown] at hdeaf; exact hdeaf.1
        refine h.fly c _ _ ⟨w, hw⟩ (.inr ⟨rfl, ⟨w, (h.src c w).1 hw, fun hc => hdown ((h.dwn w).2 hc)⟩, fun hc => ?_⟩)
        rw [h.clo.2 hc] at hclosed; cases hclosed
    · exact h
  | done c =>
    simp only [step]
    split
    · rename_i w hw _
      exact h.fly c none _ ⟨w, hw⟩ (.inl rfl)
    · rename_i w hw _
      exact ((h.fly c none _ ⟨w, hw⟩ (.inl rfl)).close).dispose w
    · exact h
  | dispose w => exact h.dispose w
  | shut => exact h.close

theorem exec_snoc (ls : List Lbl) (l : Lbl) : exec (ls ++ [l]) = step (exec ls) l := by simp [exec]

theorem exec_inv (ls : List Lbl) : Inv (exec ls) := by
  refine Sched.snoc_ind (P := fun ls => Inv (exec ls)) inv0 ?_ ls
  intro ls l h
  rw [exec_snoc]
  exact step_inv h l

end Rpp.Connect
