import Verif.Subject.ConcurrentProofs

/-! # Invariant of serialized subjects -/

namespace Rpp.Subj.Conc
open Rpp.Subj

variable {α ε σ : Type} [DecidableEq α] [DecidableEq ε]

/-! ## Specification vocabulary -/

/-- Call `i` is inside a callback of observer `k`. -/
def Open (log : List (Ev α ε)) (i k : Nat) : Prop := ∃ a c b, log = a ++ .beg i k c :: b ∧ Ev.fin i k ∉ b

/-- Call `i` is an `on_next`, `on_error` or `on_completed` of the subject. -/
def Emission (log : List (Ev α ε)) (i : Nat) : Prop := (∃ v, .emit i v ∈ log) ∨ ∃ t, .finish i t ∈ log

/-- What serialization means for the entry into a callback. -/
def Ok2 (pre : List (Ev α ε)) : Ev α ε → Prop
  | .beg i k _ => (∀ j, ¬ Open pre j k) ∧ (∀ j t, Ev.beg j k (.term t) ∉ pre) ∧
      (Emission pre i → ∀ j m, Emission pre j → ¬ Open pre j m)
  | _ => True

/-- Used in the proofs; models no code. -/
def Legal2 (log : List (Ev α ε)) : Prop := ∀ pre ev post, log = pre ++ ev :: post → Ok2 pre ev

theorem Legal2.snoc {log : List (Ev α ε)} {ev : Ev α ε} (h : Legal2 log) (ho : Ok2 log ev) : Legal2 (log ++ [ev]) := by
  intro pre e post he
  rcases List.eq_nil_or_concat post with rfl | ⟨post', x, rfl⟩
  · obtain ⟨rfl, h2⟩ := List.append_inj' he rfl
    cases h2; exact ho
  · rw [List.concat_eq_append, ← List.cons_append, ← List.append_assoc] at he
    exact h pre e post' (List.append_inj_left' he rfl)

theorem Open.snoc {log : List (Ev α ε)} {ev : Ev α ε} {i k} (h : Open (log ++ [ev]) i k) :
    (∃ c, ev = .beg i k c) ∨ (Open log i k ∧ ev ≠ .fin i k) := by
  obtain ⟨a, c, b, h1, h2⟩ := h
  rcases List.eq_nil_or_concat b with rfl | ⟨b', x, rfl⟩
  · obtain ⟨rfl, h3⟩ := List.append_inj' h1 rfl
    left; exact ⟨c, by simpa using h3⟩
  · rw [List.concat_eq_append] at h1 h2
    rw [← List.cons_append, ← List.append_assoc] at h1
    obtain ⟨h3, h4⟩ := List.append_inj' h1 rfl
    simp only [List.cons.injEq, and_true] at h4
    subst h4
    right
    exact ⟨⟨a, c, b', h3, fun h => h2 (by simp [h])⟩, fun h => h2 (by simp [h])⟩

theorem Open.beg_mem {log : List (Ev α ε)} {i k} (h : Open log i k) : ∃ c, .beg i k c ∈ log := by
  obtain ⟨a, c, b, rfl, _⟩ := h; exact ⟨c, by simp⟩

/-! ## The invariant -/

/-- Used in the proofs; models no code. -/
def Pc.holds : Pc α ε → Bool
  | .tExch _ | .work (.nxt ..) _ _ | .work (.term _) _ _ => true
  | _ => false

/-- Inside a callback of `k`. -/
def Pc.within : Pc α ε → Option Nat
  | .work _ _ (.inCb k _) => some k
  | _ => none

/-- A terminal callback of `k` has begun and `k` is not disposed yet. -/
def Pc.ends : Pc α ε → Option Nat
  | .work _ _ (.inCb k (.term _)) => some k
  | .work _ _ (.mark k) => some k
  | _ => none

/-- Invariant of the proofs; models no code. -/
structure SInv (s : St α ε σ) : Prop where
  lock : ∀ i, (s.calls i).holds = true ↔ s.lock = some i
  opn : ∀ i k, Open s.log i k → (s.calls i).within = some k
  term : ∀ i k t, .beg i k (.term t) ∈ s.log → .gone k ∈ s.log ∨ ∃ j, (s.calls j).ends = some k
  legal : Legal2 s.log

variable {C : Cfg α σ} {s : St α ε σ}

/-- A call moves without entering or leaving a callback. -/
theorem SInv.silent (h : SInv s) (s' : St α ε σ) (i : Nat) (p : Pc α ε)
    (hw : (s.calls i).within = none) (he : (s.calls i).ends = none)
    (hlog : s'.log = s.log) (hcalls : s'.calls = fun j => if j = i then p else s.calls j)
    (hlock : (s'.lock = s.lock ∧ p.holds = (s.calls i).holds) ∨
      (s.lock = none ∧ s'.lock = some i ∧ p.holds = true) ∨
      (s.lock = some i ∧ s'.lock = none ∧ p.holds = false)) : SInv s' := by
  obtain ⟨h1, h2, h3, h4⟩ := h
  refine ⟨?_, ?_, ?_, by rw [hlog]; exact h4⟩
  · intro j; rw [hcalls]; have := h1 j; have := h1 i; grind
  · intro j k hk; rw [hlog] at hk; rw [hcalls]; have := h2 j k hk; grind
  · intro j k t hk
    rw [hlog] at hk ⊢
    rcases h3 j k t hk with h | ⟨j', h⟩
    · exact Or.inl h
    · refine Or.inr ⟨j', ?_⟩
      rw [hcalls]; grind

/-- The same with an event that is neither. -/
theorem SInv.emits (h : SInv s) (s' : St α ε σ) (i : Nat) (p : Pc α ε) (ev : Ev α ε)
    (hw : (s.calls i).within = none) (he : (s.calls i).ends = none) (hev : ∀ a b c, ev ≠ .beg a b c)
    (hlog : s'.log = s.log ++ [ev]) (hcalls : s'.calls = fun j => if j = i then p else s.calls j)
    (hlock : (s'.lock = s.lock ∧ p.holds = (s.calls i).holds) ∨
      (s.lock = some i ∧ s'.lock = none ∧ p.holds = false)) : SInv s' := by
  obtain ⟨h1, h2, h3, h4⟩ := h
  refine ⟨?_, ?_, ?_, by rw [hlog]; exact h4.snoc (by cases ev <;> first | trivial | exact absurd rfl (hev _ _ _))⟩
  · intro j; rw [hcalls]; have := h1 j; have := h1 i; grind
  · intro j k hk
    rw [hlog] at hk
    rcases hk.snoc with ⟨c, rfl⟩ | ⟨hk, _⟩
    · exact absurd rfl (hev _ _ _)
    · rw [hcalls]; have := h2 j k hk; grind
  · intro j k t hk
    rw [hlog] at hk ⊢
    simp only [List.mem_append, List.mem_singleton] at hk ⊢
    rcases hk with hk | hk
    · rcases h3 j k t hk with h | ⟨j', h⟩
      · exact Or.inl (Or.inl h)
      · refine Or.inr ⟨j', ?_⟩
        rw [hcalls]; grind
    · exact absurd hk.symm (hev _ _ _)

/-- Who may be inside a callback of `k`, or about to dispose it. -/
theorem Inv.owner (h : Inv C s) (hs : SInv s) {i k : Nat} (hw : (s.calls i).within = some k ∨ (s.calls i).ends = some k) :
    (i = k ∧ .reg k ∉ s.log ∧ ¬ Emission s.log i) ∨ (s.lock = some i ∧ .reg k ∈ s.log) := by
  have hp := h.pc i
  have hl := hs.lock i
  have hsnap : ∀ v l, .snap i v l ∈ s.log → ∀ k ∈ l, .reg k ∈ s.log := by
    intro v l hm m hml
    obtain ⟨pre, post, he⟩ := List.append_of_mem hm
    have := (h.legal _ _ _ he).2.2.1.subset hml
    rw [he]; exact List.mem_append_left _ (mem_regs.1 this)
  have hne : NoEm s.log i → ¬ Emission s.log i := by
    rintro hn (⟨v, hv⟩ | ⟨t, ht⟩)
    · have := hn _ hv rfl; simp [Ev.sub] at this
    · have := hn _ ht rfl; simp [Ev.sub] at this
  cases hc : s.calls i with
  | work j todo cur =>
    rw [hc] at hp hl hw
    have hk : (∃ c, cur = .inCb k c) ∨ cur = .mark k := by
      cases cur with
      | none => simp [Pc.within, Pc.ends] at hw
      | err a b => simp [Pc.within, Pc.ends] at hw
      | mark m => simp [Pc.within, Pc.ends] at hw; exact Or.inr (by rw [hw])
      | inCb m c =>
        left; refine ⟨c, ?_⟩
        cases c <;> simp [Pc.within, Pc.ends] at hw <;> rw [hw]
    cases j with
    | nxt v l d =>
      right
      refine ⟨hl.1 rfl, hsnap v l hp.1 k ?_⟩
      rcases hk with ⟨c, rfl⟩ | rfl
      · exact hp.2.2.2.2.2.2.1
      · exact hp.2.2.2.2.2.2.1
    | term t =>
      right
      refine ⟨hl.1 rfl, ?_⟩
      rcases hk with ⟨c, rfl⟩ | rfl
      · exact hp.2.2.2.2.1
      · exact hp.2.2.2.2
    | sub =>
      left
      have : k = i := by
        rcases hk with ⟨c, rfl⟩ | rfl
        · exact hp.2.2.2.1
        · exact hp.2.2.2
      subst this
      exact ⟨rfl, hp.2.2.1, hne hp.2.1⟩
    | late =>
      left
      have : k = i := by
        rcases hk with ⟨c, rfl⟩ | rfl
        · exact hp.2.2.2.1
        · exact hp.2.2.2
      subst this
      exact ⟨rfl, hp.2.2.1, hne hp.2.1⟩
  | _ => rw [hc] at hw; simp [Pc.within, Pc.ends] at hw

/-- Who calls observer `k` next. -/
theorem Inv.caller (h : Inv C s) (hs : SInv s) {i j todo cur k} (hc : s.calls i = .work j todo cur)
    (hk : (∃ c rest, todo = (k, c) :: rest ∧ cur = .none) ∨ ∃ e, cur = .err k e) :
    (i = k ∧ .reg k ∉ s.log ∧ ¬ Emission s.log i) ∨ (s.lock = some i ∧ .reg k ∈ s.log) := by
  have hp := h.pc i
  have hl := hs.lock i
  rw [hc] at hp hl
  have hsnap : ∀ v l, .snap i v l ∈ s.log → ∀ k ∈ l, .reg k ∈ s.log := by
    intro v l hm m hml
    obtain ⟨pre, post, he⟩ := List.append_of_mem hm
    have := (h.legal _ _ _ he).2.2.1.subset hml
    rw [he]; exact List.mem_append_left _ (mem_regs.1 this)
  have hne : NoEm s.log i → ¬ Emission s.log i := by
    rintro hn (⟨v, hv⟩ | ⟨t, ht⟩)
    · have := hn _ hv rfl; simp [Ev.sub] at this
    · have := hn _ ht rfl; simp [Ev.sub] at this
  cases j with
  | nxt v l d =>
    right
    refine ⟨hl.1 rfl, hsnap v l hp.1 k ?_⟩
    rcases hk with ⟨c, rest, rfl, rfl⟩ | ⟨e, rfl⟩
    · exact (hp.2.2.2.1 (k, c) (by simp)).2.1
    · exact hp.2.2.2.2.2.2.1
  | term t =>
    right
    refine ⟨hl.1 rfl, ?_⟩
    rcases hk with ⟨c, rest, rfl, rfl⟩ | ⟨e, rfl⟩
    · exact (hp.2.1 (k, c) (by simp)).2
    · exact hp.2.2.2.2.elim
  | sub =>
    left
    have : k = i := by
      rcases hk with ⟨c, rest, rfl, rfl⟩ | ⟨e, rfl⟩
      · obtain ⟨d, n, vs, _, h2, _⟩ := hp.1
        exact (h2 (k, c) (by simp)).1
      · exact hp.2.2.2.1
    subst this
    exact ⟨rfl, hp.2.2.1, hne hp.2.1⟩
  | late =>
    left
    have : k = i := by
      rcases hk with ⟨c, rest, rfl, rfl⟩ | ⟨e, rfl⟩
      · exact (hp.1 (k, c) (by simp)).1
      · exact hp.2.2.2.elim
    subst this
    exact ⟨rfl, hp.2.2.1, hne hp.2.1⟩

theorem SInv.turn (h : Inv C s) (hs : SInv s) {i j todo cur k rest} (c : Sig α ε) (hc : s.calls i = .work j todo cur)
    (hk : (∃ c rest, todo = (k, c) :: rest ∧ cur = .none) ∨ ∃ e, cur = .err k e) : SInv (s.turn i j k c rest) := by
  have hw : (s.calls i).within = none := by
    rw [hc]; rcases hk with ⟨_, _, _, rfl⟩ | ⟨_, rfl⟩ <;> rfl
  have he : (s.calls i).ends = none := by
    rw [hc]; rcases hk with ⟨_, _, _, rfl⟩ | ⟨_, rfl⟩ <;> rfl
  have hh : ∀ todo' cur', (Pc.work j todo' cur').holds = (s.calls i).holds := by
    intro a b; rw [hc]; cases j <;> rfl
  unfold St.turn
  split
  · exact hs.silent _ i _ hw he rfl rfl (Or.inl ⟨rfl, hh _ _⟩)
  · next hg =>
    have hg' : Ev.gone k ∉ s.log := fun h' => hg ((h.gone k).2 h')
    have hcall := h.caller hs hc hk
    have hopen : ∀ m, ¬ Open s.log m k := by
      intro m ho
      have h1 := hs.opn m k ho
      have h2 := h.owner hs (Or.inl h1)
      have : m = i := by grind
      subst this; simp [hw] at h1
    have hterm : ∀ m t, Ev.beg m k (.term t) ∉ s.log := by
      intro m t ht
      rcases hs.term m k t ht with h1 | ⟨m', h1⟩
      · exact hg' h1
      · have h2 := h.owner hs (Or.inr h1)
        have : m' = i := by grind
        subst this; simp [he] at h1
    have hem : Emission s.log i → ∀ m x, Emission s.log m → ¬ Open s.log m x := by
      intro h1 m x h2 ho
      have h3 := hs.opn m x ho
      have h4 := h.owner hs (Or.inl h3)
      have : m = i := by grind
      subst this; simp [hw] at h3
    obtain ⟨h1, h2, h3, h4⟩ := hs
    refine ⟨?_, ?_, ?_, h4.snoc ⟨hopen, hterm, hem⟩⟩
    · intro m
      simp only [St.goto, St.emit]
      have := h1 m; have := hh rest (.inCb k c); grind
    · intro m x hm
      simp only [St.goto, St.emit] at hm ⊢
      rcases hm.snoc with ⟨c', he'⟩ | ⟨hm, _⟩
      · injection he' with e1 e2 e3; subst e1 e2; simp [Pc.within]
      · have := h2 m x hm; grind
    · intro m x t hm
      simp only [St.goto, St.emit, List.mem_append, List.mem_singleton] at hm ⊢
      rcases hm with hm | hm
      · rcases h3 m x t hm with h | ⟨m', h⟩
        · exact Or.inl (Or.inl h)
        · refine Or.inr ⟨m', ?_⟩
          split
          · next e => subst e; simp [he] at h
          · exact h
      · injection hm with e1 e2 e3; subst e1 e2 e3
        exact Or.inr ⟨m, by simp [Pc.ends]⟩

theorem SInv.advance (hser : C.serialized = true) (h : Inv C s) (hs : SInv s) (i : Nat) (now : Int) :
    SInv (s.advance C i now) := by
  have hl := hs.lock i
  unfold St.advance
  split
  · exact hs
  · exact hs
  · next v hc => exact hs.emits _ i (.nSnap v) (.stored i v now) (by rw [hc]; rfl) (by rw [hc]; rfl) (by simp) rfl rfl (Or.inl ⟨rfl, by rw [hc]; rfl⟩)
  · next v hc =>
    split
    · next d l _ => exact hs.emits _ i (.nLock v l d) (.snap i v l) (by rw [hc]; rfl) (by rw [hc]; rfl) (by simp) rfl rfl (Or.inl ⟨rfl, by rw [hc]; rfl⟩)
    · exact hs.emits _ i .done (.done i) (by rw [hc]; rfl) (by rw [hc]; rfl) (by simp) rfl rfl (Or.inl ⟨rfl, by rw [hc]; rfl⟩)
    · exact hs.emits _ i .done (.done i) (by rw [hc]; rfl) (by rw [hc]; rfl) (by simp) rfl rfl (Or.inl ⟨rfl, by rw [hc]; rfl⟩)
  · next v l d hc =>
    unfold St.acquire
    rw [if_pos hser]
    split
    · next hn => exact hs.silent _ i _ (by rw [hc]; rfl) (by rw [hc]; rfl) rfl rfl (Or.inr (Or.inl ⟨hn, rfl, rfl⟩))
    · exact hs
  · next t hc =>
    unfold St.acquire
    rw [if_pos hser]
    split
    · next hn => exact hs.silent _ i _ (by rw [hc]; rfl) (by rw [hc]; rfl) rfl rfl (Or.inr (Or.inl ⟨hn, rfl, rfl⟩))
    · exact hs
  · next t hc =>
    split
    · exact hs.silent _ i _ (by rw [hc]; rfl) (by rw [hc]; rfl) rfl rfl (Or.inl ⟨rfl, by rw [hc]; rfl⟩)
    · exact hs.silent _ i _ (by rw [hc]; rfl) (by rw [hc]; rfl) rfl rfl (Or.inl ⟨rfl, by rw [hc]; rfl⟩)
  · next d hc =>
    exact hs.emits _ i _ (.read i d now (C.store.get d now s.store).1) (by rw [hc]; rfl) (by rw [hc]; rfl) (by simp) rfl rfl
      (Or.inl ⟨rfl, by rw [hc]; rfl⟩)
  · next hc =>
    split
    · exact hs.emits _ i .done (.reg i) (by rw [hc]; rfl) (by rw [hc]; rfl) (by simp) rfl rfl (Or.inl ⟨rfl, by rw [hc]; rfl⟩)
    · next d l hl =>
      have h1 : SInv ({ s with phase := .live (some d) (l ++ [i]) }.goto i .done |>.emit (.reg i)) :=
        hs.emits _ i .done (.reg i) (by rw [hc]; rfl) (by rw [hc]; rfl) (by simp) rfl rfl (Or.inl ⟨rfl, by rw [hc]; rfl⟩)
      dsimp only
      split
      · refine h1.emits _ i .done (.ub i) ?_ ?_ (by simp) rfl ?_ (Or.inl ⟨rfl, ?_⟩)
        · simp [St.goto, St.emit, Pc.within]
        · simp [St.goto, St.emit, Pc.ends]
        · funext j; simp only [St.goto, St.emit]; split <;> simp_all
        · simp [St.goto, St.emit, Pc.holds]
      · exact h1
    · exact hs.silent _ i _ (by rw [hc]; rfl) (by rw [hc]; rfl) rfl rfl (Or.inl ⟨rfl, by rw [hc]; rfl⟩)
    · exact hs.silent _ i _ (by rw [hc]; rfl) (by rw [hc]; rfl) rfl rfl (Or.inl ⟨rfl, by rw [hc]; rfl⟩)
  · next j k c rest hc => exact hs.turn h c hc (Or.inl ⟨c, rest, rfl, rfl⟩)
  · exact hs
  · next j todo k e hc => exact hs.turn h _ hc (Or.inr ⟨e, rfl⟩)
  · next j todo k hc =>
    obtain ⟨h1, h2, h3, h4⟩ := hs
    refine ⟨?_, ?_, ?_, h4.snoc trivial⟩
    · intro m
      have := h1 m
      simp only [St.goto, St.emit]
      split
      · next e => subst e; rw [← this, hc]; cases j <;> simp [Pc.holds]
      · exact this
    · intro m x hm
      simp only [St.goto, St.emit] at hm ⊢
      rcases hm.snoc with ⟨c', he'⟩ | ⟨hm, _⟩
      · simp at he'
      · have := h2 m x hm
        split
        · next e => subst e; simp [hc, Pc.within] at this
        · exact this
    · intro m x t hm
      simp only [St.goto, St.emit, List.mem_append, List.mem_singleton] at hm ⊢
      rcases hm with hm | hm
      · rcases h3 m x t hm with h | ⟨m', h⟩
        · exact Or.inl (Or.inl h)
        · by_cases e : m' = i
          · subst e; simp [hc, Pc.ends] at h; subst h; exact Or.inl (Or.inr rfl)
          · exact Or.inr ⟨m', by rw [if_neg e]; exact h⟩
      · simp at hm
  · next v l d hc =>
    refine hs.emits _ i .done (.done i) (by rw [hc]; rfl) (by rw [hc]; rfl) (by simp) ?_ ?_ (Or.inr ⟨hl.1 (by rw [hc]; rfl), ?_, rfl⟩)
    · simp [St.goto, St.emit, St.release, hser]
    · simp [St.goto, St.emit, St.release, hser]
    · simp [St.goto, St.emit, St.release, hser]
  · next t hc =>
    refine hs.silent _ i .dFlag (by rw [hc]; rfl) (by rw [hc]; rfl) ?_ ?_ (Or.inr (Or.inr ⟨hl.1 (by rw [hc]; rfl), ?_, rfl⟩))
    · simp [St.goto, St.release, hser]
    · simp [St.goto, St.release, hser]
    · simp [St.goto, St.release, hser]
  · next hc => exact hs.silent _ i _ (by rw [hc]; rfl) (by rw [hc]; rfl) rfl rfl (Or.inl ⟨rfl, by rw [hc]; rfl⟩)
  · next hc => exact hs.silent _ i _ (by rw [hc]; rfl) (by rw [hc]; rfl) rfl rfl (Or.inl ⟨rfl, by rw [hc]; rfl⟩)
  · next hc =>
    split <;> exact hs.silent _ i _ (by rw [hc]; rfl) (by rw [hc]; rfl) rfl rfl (Or.inl ⟨rfl, by rw [hc]; rfl⟩)
  · next hc =>
    split <;> exact hs.silent _ i _ (by rw [hc]; rfl) (by rw [hc]; rfl) rfl rfl (Or.inl ⟨rfl, by rw [hc]; rfl⟩)

theorem SInv.step (hser : C.serialized = true) (h : Inv C s) (hs : SInv s) (l : Lbl α ε) : SInv (step C s l) := by
  cases l with
  | next i v =>
    simp only [Conc.step]
    split
    · next hc => exact hs.emits _ i (.nPut v) (.emit i v) (by rw [hc.1]; rfl) (by rw [hc.1]; rfl) (by simp) rfl rfl (Or.inl ⟨rfl, by rw [hc.1]; rfl⟩)
    · exact hs
  | finish i t =>
    simp only [Conc.step]
    split
    · next hc => exact hs.emits _ i (.tLock t) (.finish i t) (by rw [hc.1]; rfl) (by rw [hc.1]; rfl) (by simp) rfl rfl (Or.inl ⟨rfl, by rw [hc.1]; rfl⟩)
    · exact hs
  | sub k =>
    simp only [Conc.step]
    split
    · next hc => exact hs.silent _ k _ (by rw [hc]; rfl) (by rw [hc]; rfl) rfl rfl (Or.inl ⟨rfl, by rw [hc]; rfl⟩)
    · exact hs
  | down i =>
    simp only [Conc.step]
    split
    · next hc => exact hs.silent _ i _ (by rw [hc]; rfl) (by rw [hc]; rfl) rfl rfl (Or.inl ⟨rfl, by rw [hc]; rfl⟩)
    · exact hs
  | run i now => exact hs.advance hser h i now
  | ret i r =>
    simp only [Conc.step]
    split
    · next j todo k c hc =>
      obtain ⟨h1, h2, h3, h4⟩ := hs
      have key : ∀ cur, (∀ m, (Pc.work j todo (.inCb k c)).ends = some m → (Pc.work j todo cur).ends = some m) →
          SInv ((s.goto i (.work j todo cur)).emit (.fin i k)) := by
        intro cur hcur
        refine ⟨?_, ?_, ?_, h4.snoc trivial⟩
        · intro m
          have := h1 m
          simp only [St.goto, St.emit]
          split
          · next e => subst e; rw [← this, hc]; cases j <;> simp [Pc.holds]
          · exact this
        · intro m x hm
          simp only [St.goto, St.emit] at hm ⊢
          rcases hm.snoc with ⟨c', he'⟩ | ⟨hm, hne⟩
          · simp at he'
          · have := h2 m x hm
            split
            · next e => subst e; simp [hc, Pc.within] at this; subst this; exact absurd rfl hne
            · exact this
        · intro m x t hm
          simp only [St.goto, St.emit, List.mem_append, List.mem_singleton] at hm ⊢
          rcases hm with hm | hm
          · rcases h3 m x t hm with h | ⟨m', h⟩
            · exact Or.inl (Or.inl h)
            · refine Or.inr ⟨m', ?_⟩
              split
              · next e => subst e; rw [hc] at h; exact hcur _ h
              · exact h
          · simp at hm
      split
      · exact key _ (by simp [Pc.ends])
      · exact key _ (by simp [Pc.ends])
      · exact key _ (by simp [Pc.ends])
    · exact hs
  | gone k =>
    simp only [Conc.step]
    split
    · exact hs
    · obtain ⟨h1, h2, h3, h4⟩ := hs
      refine ⟨h1, ?_, ?_, h4.snoc trivial⟩
      · intro m x hm
        rcases Open.snoc hm with ⟨c', he'⟩ | ⟨hm, _⟩
        · simp at he'
        · exact h2 m x hm
      · intro m x t hm
        simp only [St.emit, List.mem_append, List.mem_singleton] at hm ⊢
        rcases hm with hm | hm
        · rcases h3 m x t hm with h | h
          · exact Or.inl (Or.inl h)
          · exact Or.inr h
        · simp at hm
  | clean k =>
    simp only [Conc.step]
    split
    · split
      · obtain ⟨h1, h2, h3, h4⟩ := hs
        exact ⟨h1, h2, h3, h4⟩
      · exact hs
    · exact hs

theorem sinv (hser : C.serialized = true) (ls : List (Lbl α ε)) : SInv (exec C ls) := by
  unfold exec
  generalize hs : ({ store := C.store.init } : St α ε σ) = s0
  have h : Inv C s0 := hs ▸ Inv.init
  have h' : SInv s0 := by
    subst hs
    refine ⟨by simp [Pc.holds], ?_, by simp, by intro pre ev post h; simp at h⟩
    rintro i k ⟨a, c, b, he, _⟩; simp at he
  clear hs
  induction ls generalizing s0 with
  | nil => exact h'
  | cons l ls ih => exact ih _ (h.step l) (h'.step hser h l)

end Rpp.Subj.Conc
