/-!
# `base_disposable` / `callback_disposable` used from any number of threads (C50)

Models disposables/details/base_disposable.hpp 21-47 and disposables/callback_disposable.hpp 27-46.
Simplification: only `dispose()` (and `is_disposed()`, which reads `flag`) are operations; sequentially
consistent atomics.
-/

namespace Rpp.Base

/-- Program points of one `dispose()` call. -/
inductive Frame where
  | xchg          -- base_disposable.hpp 39: m_disposed.exchange(true) == false
  | act           -- base_disposable.hpp 40 / callback_disposable.hpp 42: run the callback
deriving DecidableEq, Repr

/-- `acts` counts (ghost) how often the callback was invoked. (disposables/details/base_disposable.hpp 21-47, callback_disposable.hpp 27-46) -/
structure St where
  flag : Bool := false
  acts : Nat := 0
  th : Nat → List Frame := fun _ => []

/-- Replace one component of the state; no counterpart in /repo. -/
def St.put (s : St) (t : Nat) (stk : List Frame) : St :=
  { s with th := fun u => if u = t then stk else s.th u }

/-- What may happen next; the choice is arbitrary; no counterpart in /repo. -/
inductive Lbl where
  | dispose (t : Nat)
  | run (t : Nat)
deriving DecidableEq, Repr

/-- `again` is the number of times the callback calls `dispose()` on the same disposable. (disposables/details/base_disposable.hpp 21-47, callback_disposable.hpp 27-46) -/
def step (again : Nat) (s : St) : Lbl → St
  | .dispose t => match s.th t with
    | [] => s.put t [.xchg]
    | _ => s
  | .run t => match s.th t with
    | [] => s
    | .xchg :: rest =>
      if s.flag = false then { s with flag := true }.put t (.act :: rest)
      else s.put t rest
    | .act :: rest => { s with acts := s.acts + 1 }.put t (List.replicate again Frame.xchg ++ rest)

/-- The state after a sequence of steps; no counterpart in /repo. -/
def exec (again : Nat) (s : St) (ls : List Lbl) : St := ls.foldl (step again) s

/-- `p` is the thread that won the exchange and has not run the callback yet. -/
structure Inv (s : St) (p : Option Nat) : Prop where
  cnt : ∀ t, (s.th t).count .act = if p = some t then 1 else 0
  acts : s.acts + (if p = none then 0 else 1) = if s.flag then 1 else 0

theorem Inv.step {again s p} (h : Inv s p) (l : Lbl) : ∃ p', Inv (step again s l) p' := by
  cases l with
  | dispose t =>
    simp only [Base.step]
    split
    · rename_i ht
      refine ⟨p, ?_, h.acts⟩
      intro u
      have := h.cnt u
      by_cases hu : u = t
      · subst hu; rw [ht] at this; simpa [St.put] using this
      · simpa [St.put, hu] using this
    · exact ⟨p, h⟩
  | run t =>
    simp only [Base.step]
    split
    · exact ⟨p, h⟩
    · rename_i rest ht
      have hc := h.cnt t
      rw [ht] at hc
      simp at hc
      split
      · rename_i hf
        have ha := h.acts
        rw [hf] at ha
        have hp : p = none := by
          cases p with
          | none => rfl
          | some x => simp at ha
        subst hp
        refine ⟨some t, ?_, ?_⟩
        · intro u
          have hu := h.cnt u
          by_cases e : u = t
          · subst e; simpa [St.put] using hc
          · have : t ≠ u := fun x => e x.symm
            simpa [St.put, e, this] using hu
        · simp at ha; simp [St.put, ha]
      · refine ⟨p, ?_, h.acts⟩
        intro u
        have hu := h.cnt u
        by_cases e : u = t
        · subst e; simpa [St.put] using hc
        · simpa [St.put, e] using hu
    · rename_i rest ht
      have hc := h.cnt t
      rw [ht] at hc
      simp at hc
      have hp : p = some t := by
        by_cases e : p = some t
        · exact e
        · rw [if_neg e] at hc; omega
      subst hp
      refine ⟨none, ?_, ?_⟩
      · intro u
        have hu := h.cnt u
        by_cases e : u = t
        · subst e; simp at hc
          simp [St.put, List.count_replicate, hc]
        · have : t ≠ u := fun x => e x.symm
          simpa [St.put, e, this] using hu
      · have := h.acts; simpa [St.put] using this

theorem inv (again : Nat) : ∀ (ls : List Lbl) (s p), Inv s p → ∃ p', Inv (exec again s ls) p' := by
  intro ls
  induction ls with
  | nil => intro s p h; exact ⟨p, h⟩
  | cons l ls ih => intro s p h; obtain ⟨p', h'⟩ := h.step (again := again) l; exact ih _ p' h'

theorem flag_of_returned (again : Nat) (t : Nat) : ∀ (ls : List Lbl) (s : St),
    (s.flag = true ∨ Frame.xchg ∈ s.th t) →
    ((exec again s ls).flag = true ∨ Frame.xchg ∈ (exec again s ls).th t) := by
  intro ls
  induction ls with
  | nil => intro s h; exact h
  | cons l ls ih =>
    intro s h
    refine ih _ ?_
    rcases h with h | h
    · left
      cases l with
      | dispose u => simp only [step]; split <;> simp [St.put, h]
      | run u => simp only [step]; split <;> (try split) <;> simp [St.put, h]
    · cases l with
      | dispose u =>
        simp only [step]
        split
        · rename_i hu
          by_cases e : t = u
          · subst e; rw [hu] at h; simp at h
          · right; simpa [St.put, e] using h
        · exact Or.inr h
      | run u =>
        simp only [step]
        split
        · exact Or.inr h
        · rename_i rest hu
          split
          · left; rfl
          · rename_i hf; left; simpa [St.put] using hf
        · rename_i rest hu
          by_cases e : t = u
          · subst e; rw [hu] at h; simp at h; right; simp [St.put, h]
          · right; simpa [St.put, e] using h

/-- C50: however many threads call `dispose()`, in whatever interleaving and even if the callback disposes
the same disposable again, the callback runs at most once; it has run exactly once as soon as some
`dispose()` call was made and all calls have returned. -/
theorem C50_callback_once (again : Nat) (ls : List Lbl) :
    (exec again {} ls).acts ≤ 1 ∧
    ((∃ t, Lbl.dispose t ∈ ls) → (∀ t, (exec again {} ls).th t = []) → (exec again {} ls).acts = 1) := by
  have h0 : Inv {} none := ⟨by simp, by simp⟩
  obtain ⟨p, h⟩ := inv again ls {} none h0
  have ha := h.acts
  refine ⟨?_, ?_⟩
  · split at ha <;> split at ha <;> omega
  · rintro ⟨t, ht⟩ hq
    have hp : p = none := by
      cases p with
      | none => rfl
      | some x => have := h.cnt x; rw [hq x] at this; simp at this
    -- some call was accepted by an idle thread: the first one
    have hfl : (exec again {} ls).flag = true := by
      have : ∀ (ls : List Lbl) (s : St), Lbl.dispose t ∈ ls →
          (∀ u, s.th u ≠ [] → s.flag = true ∨ Frame.xchg ∈ s.th u) →
          (exec again s ls).flag = true ∨ ∃ u, Frame.xchg ∈ (exec again s ls).th u := by
        intro ls
        induction ls with
        | nil => intro s h; simp at h
        | cons l ls ih =>
          intro s hm hs
          by_cases e : l = .dispose t
          · subst e
            have : (step again s (.dispose t)).flag = true ∨ Frame.xchg ∈ (step again s (.dispose t)).th t := by
              simp only [step]
              split
              · right; simp [St.put]
              · rename_i hne; exact hs t (by simpa using hne)
            rcases flag_of_returned again t ls _ this with h | h
            · exact Or.inl h
            · exact Or.inr ⟨t, h⟩
          · refine ih _ (by simpa [Ne.symm e] using hm) ?_
            intro u hu
            have hs' : (s.flag = true ∨ Frame.xchg ∈ s.th u) ∨ s.th u = [] := by
              by_cases e : s.th u = []
              · exact Or.inr e
              · exact Or.inl (hs u e)
            rcases hs' with h | h
            · exact flag_of_returned again u [l] s h
            · cases l with
              | dispose v =>
                simp only [step] at hu ⊢
                split
                · rename_i hv
                  by_cases e : u = v
                  · subst e; right; simp [St.put]
                  · rw [hv] at hu; simp [St.put, e, h] at hu
                · rename_i hv
                  exfalso; apply hu
                  split
                  · rename_i hv'; exact absurd hv' (by simpa using hv)
                  · exact h
              | run v =>
                exfalso; apply hu
                have e : s.th v = [] ∨ u ≠ v := by
                  by_cases e : u = v
                  · subst e; exact Or.inl h
                  · exact Or.inr e
                rcases e with e | e
                · simp only [step, e]; exact h
                · simp only [step]
                  split <;> (try split) <;> simp [St.put, e, h]
      rcases this ls {} ht (by simp) with h | ⟨u, h⟩
      · exact h
      · rw [hq u] at h; simp at h
    rw [hp, hfl] at ha
    simpa using ha

-- Non-vacuity: two threads race, the second loses the exchange.
example : let s := exec 1 {} [.dispose 1, .dispose 2, .run 1, .run 2, .run 1, .run 1]
    s.acts = 1 ∧ s.th 1 = [] ∧ s.th 2 = [] := by decide

end Rpp.Base
