import Verif.Resub.Machine

/-! Invariants of the resubscription machine. -/

namespace Rpp.Resub

open Rpp.Comb (Sig Res)

variable {α β ε σ : Type}

/-- How one step changes state and log (for the proofs); models no code. -/
inductive Tr (P : Policy β ε σ) (s : St α β ε σ) : St α β ε σ → Prop where
  | nextS (n : Nat) (v : α) (h : s.calls (.src n) = .idle) (ha : s.active (.src n) = true) (hd : s.done (.src n) = false) (hs : s.dead = false) :
      Tr P s (s.goto (.src n) (.out (.next v)) |>.emit (.recv (.src n) (.next v)))
  | nextR (n : Nat) (v : α) (h : s.calls (.ntf n) = .idle) (ha : s.active (.ntf n) = true) (hd : s.done (.ntf n) = false) (hs : s.dead = false)
      (hr : P.resume = true) : Tr P s (s.goto (.ntf n) (.out (.next v)) |>.emit (.recv (.ntf n) (.next v)))
  | nextN (n : Nat) (v : α) (h : s.calls (.ntf n) = .idle) (ha : s.active (.ntf n) = true) (hd : s.done (.ntf n) = false) (hs : s.dead = false)
      (hr : P.resume = false) : Tr P s (s.finish (.ntf n) |>.goto (.ntf n) (.ex n) |>.emit (.recv (.ntf n) (.next v)))
  | finish (n : Nat) (t : Term ε) (h : s.calls (.src n) = .idle) (ha : s.active (.src n) = true) (hd : s.done (.src n) = false) (hs : s.dead = false)
      (hj : P.judge s.st t = .finish ∨ P.judge s.st t = .ask ∧ t = .completed) :
      Tr P s ({ s.finish (.src n) with over := true }.goto (.src n) (.out (.term t)) |>.emit (.recv (.src n) (.term t)))
  | again (n : Nat) (t : Term ε) (h : s.calls (.src n) = .idle) (ha : s.active (.src n) = true) (hd : s.done (.src n) = false) (hs : s.dead = false)
      (hj : P.judge s.st t = .again) : Tr P s ((s.finish (.src n)).goto (.src n) (.ex n) |>.emit (.recv (.src n) (.term t)))
  | query (n : Nat) (e : ε) (h : s.calls (.src n) = .idle) (ha : s.active (.src n) = true) (hd : s.done (.src n) = false) (hs : s.dead = false)
      (hj : P.judge s.st (.error e) = .ask) : Tr P s ((s.finish (.src n)).goto (.src n) (.ask e) |>.emit (.recv (.src n) (.term (.error e))))
  | termN (n : Nat) (t : Term ε) (h : s.calls (.ntf n) = .idle) (ha : s.active (.ntf n) = true) (hd : s.done (.ntf n) = false) (hs : s.dead = false) :
      Tr P s ({ s.finish (.ntf n) with over := true }.goto (.ntf n) (.out (.term t)) |>.emit (.recv (.ntf n) (.term t)))
  | loopDead (w : Who) (h : s.calls w = .loop) (hd : s.dead = true) : Tr P s (s.goto w .idle)
  | loop (w : Who) (h : s.calls w = .loop) (hd : s.dead = false) : Tr P s (s.goto w .pick)
  | pickNone (w : Who) (h : s.calls w = .pick) (hn : P.next s.st = none) : Tr P s ({ s with over := true }.goto w (.out (.term .completed)))
  | pick (w : Who) (x : β) (st : σ) (h : s.calls w = .pick) (hn : P.next s.st = some (x, st)) : Tr P s ({ s with st := st }.goto w (.store x))
  | store (w : Who) (x : β) (h : s.calls w = .store x) : Tr P s ({ s with flag := true }.goto w (.sub x))
  | sub (w : Who) (x : β) (h : s.calls w = .sub x) :
      Tr P s ({ s with n := s.n + 1 }.start (.src (s.n + 1)) |>.goto w .insub |>.emit (.opened (s.n + 1) x))
  | insub (w : Who) (h : s.calls w = .insub) : Tr P s (s.goto w .exS)
  | exSYes (w : Who) (h : s.calls w = .exS) (hf : s.flag = true) : Tr P s ({ s with flag := false }.goto w .idle)
  | exSNo (w : Who) (h : s.calls w = .exS) (hf : s.flag = false) : Tr P s (s.goto w .loop)
  | exYes (w : Who) (n : Nat) (h : s.calls w = .ex n) (hf : s.flag = true) : Tr P s ({ s with flag := false }.goto w .idle |>.emit (.handed n))
  | exNo (w : Who) (n : Nat) (h : s.calls w = .ex n) (hf : s.flag = false) : Tr P s (s.goto w .loop |>.emit (.handed n))
  | insubN (w : Who) (h : s.calls w = .insubN) : Tr P s (s.goto w .idle)
  | skip (w : Who) (h : (∃ o, s.calls w = .out o) ∨ ∃ e, s.calls w = .err e) (hg : s.gone = true) : Tr P s (s.goto w .idle)
  | beg (w : Who) (o : Sig α ε) (h : s.calls w = .out o) (hg : s.gone = false) : Tr P s ((s.goto w (.cb o)).emit (.beg w o))
  | own (w : Who) (e : ε) (h : s.calls w = .err e) (hg : s.gone = false) : Tr P s ((s.goto w .cbErr).emit (.own w e))
  | mark (w : Who) (h : s.calls w = .mark) : Tr P s ({ s with gone := true }.goto w .idle)
  | finOk (w : Who) (v : α) (h : s.calls w = .cb (.next v)) : Tr P s ((s.goto w .idle).emit (.fin w))
  | finThrow (w : Who) (v : α) (e : ε) (h : s.calls w = .cb (.next v)) : Tr P s ((s.goto w (.err e)).emit (.fin w))
  | finTerm (w : Who) (h : (∃ t, s.calls w = .cb (.term t)) ∨ s.calls w = .cbErr) : Tr P s ((s.goto w .mark).emit (.fin w))
  | askOk (n : Nat) (e : ε) (h : s.calls (.src n) = .ask e) : Tr P s (s.start (.ntf n) |>.goto (.src n) .insubN |>.emit (.asked n e))
  | askThrow (n : Nat) (e e' : ε) (h : s.calls (.src n) = .ask e) :
      Tr P s ({ s with over := true }.goto (.src n) (.out (.term (.error e'))) |>.emit (.denied n e'))
  | throw (w : Who) (e : ε) (h : s.calls w = .insub) (hc : P.catches = true) (h1 : s.calls (.src s.n) = .idle) (h2 : s.calls (.ntf s.n) = .idle)
      (h3 : s.active (.ntf s.n) = false ∨ s.done (.ntf s.n) = true) :
      Tr P s ({ s with over := true }.finish (.src s.n) |>.goto w (.out (.term (.error e))) |>.emit (.threw s.n e))
  | throwN (n : Nat) (e : ε) (h : s.calls (.src n) = .insubN) (h1 : s.calls (.ntf n) = .idle) (h2 : s.done (.ntf n) = false) :
      Tr P s ({ s with over := true }.finish (.ntf n) |>.goto (.src n) (.out (.term (.error e))) |>.emit (.denied n e))
  | gone (hg : s.gone = false) : Tr P s ({ s with gone := true }.emit .gone)
  | shut (hg : s.gone = true) : Tr P s { s with dead := true }

theorem isIdle_eq {p : Pc α β ε} (h : p.isIdle = true) : p = .idle := by cases p <;> first | rfl | cases h

theorem step_tr (P : Policy β ε σ) (s : St α β ε σ) (l : Lbl α ε) : step P s l = s ∨ Tr P s (step P s l) := by
  cases l with
  | next w v =>
    cases w with
    | main => exact .inl rfl
    | src n =>
      simp only [step]; split
      · next h =>
        simp only [Bool.and_eq_true, Bool.not_eq_true'] at h
        obtain ⟨⟨⟨h1, h2⟩, h3⟩, h4⟩ := h
        exact .inr (.nextS n v (isIdle_eq h1) h2 h3 h4)
      · exact .inl rfl
    | ntf n =>
      simp only [step]; split
      · next h =>
        simp only [Bool.and_eq_true, Bool.not_eq_true'] at h
        obtain ⟨⟨⟨h1, h2⟩, h3⟩, h4⟩ := h
        split
        · next hr => exact .inr (.nextR n v (isIdle_eq h1) h2 h3 h4 hr)
        · next hr => exact .inr (.nextN n v (isIdle_eq h1) h2 h3 h4 (by simpa using hr))
      · exact .inl rfl
  | term w t =>
    cases w with
    | main => exact .inl rfl
    | src n =>
      simp only [step]; split
      · next h =>
        simp only [Bool.and_eq_true, Bool.not_eq_true'] at h
        obtain ⟨⟨⟨h1, h2⟩, h3⟩, h4⟩ := h
        right
        unfold St.ended
        split
        · next hj => exact .finish n _ (isIdle_eq h1) h2 h3 h4 (.inl hj)
        · next hj => exact .again n _ (isIdle_eq h1) h2 h3 h4 hj
        · next e hj => exact .query n e (isIdle_eq h1) h2 h3 h4 hj
        · next hj => exact .finish n .completed (isIdle_eq h1) h2 h3 h4 (.inr ⟨hj, rfl⟩)
      · exact .inl rfl
    | ntf n =>
      simp only [step]; split
      · next h =>
        simp only [Bool.and_eq_true, Bool.not_eq_true'] at h
        obtain ⟨⟨⟨h1, h2⟩, h3⟩, h4⟩ := h
        exact .inr (.termN n t (isIdle_eq h1) h2 h3 h4)
      · exact .inl rfl
  | run w =>
    simp only [step]
    unfold St.advance
    split
    · exact .inl rfl
    · exact .inl rfl
    · exact .inl rfl
    · exact .inl rfl
    · next h => split
                · next hd => exact .inr (.loopDead w h hd)
                · next hd => exact .inr (.loop w h (by simpa using hd))
    · next h => split
                · next hn => exact .inr (.pickNone w h hn)
                · next x st hn => exact .inr (.pick w x st h hn)
    · next x h => exact .inr (.store w x h)
    · next x h => exact .inr (.sub w x h)
    · next h => exact .inr (.insub w h)
    · next h => split
                · next hf => exact .inr (.exSYes w h hf)
                · next hf => exact .inr (.exSNo w h (by simpa using hf))
    · next n h => split
                  · next hf => exact .inr (.exYes w n h hf)
                  · next hf => exact .inr (.exNo w n h (by simpa using hf))
    · next h => exact .inr (.insubN w h)
    · next o h => split
                  · next hg => exact .inr (.skip w (.inl ⟨o, h⟩) hg)
                  · next hg => exact .inr (.beg w o h (by simpa using hg))
    · next e h => split
                  · next hg => exact .inr (.skip w (.inr ⟨e, h⟩) hg)
                  · next hg => exact .inr (.own w e h (by simpa using hg))
    · next h => exact .inr (.mark w h)
  | ret w r =>
    simp only [step]
    split
    · next v h => exact .inr (.finOk w v h)
    · next v e h => exact .inr (.finThrow w v e h)
    · next t h => exact .inr (.finTerm w (.inl ⟨t, h⟩))
    · next h => exact .inr (.finTerm w (.inr h))
    · exact .inl rfl
  | ask n r =>
    simp only [step]
    split
    · next e h => exact .inr (.askOk n e h)
    · next e e' h => exact .inr (.askThrow n e e' h)
    · exact .inl rfl
  | throw w e =>
    simp only [step]
    split
    · next h =>
      split
      · next hh =>
        simp only [Bool.and_eq_true, Bool.not_eq_true', Bool.or_eq_true] at hh
        exact .inr (.throw w e h hh.1.1.1 (isIdle_eq hh.1.1.2) (isIdle_eq hh.1.2) hh.2)
      · exact .inl rfl
    · exact .inl rfl
  | throwN n e =>
    simp only [step]
    split
    · next h =>
      split
      · next hh =>
        simp only [Bool.and_eq_true, Bool.not_eq_true'] at hh
        exact .inr (.throwN n e h (isIdle_eq hh.1) hh.2)
      · exact .inl rfl
    · exact .inl rfl
  | gone =>
    simp only [step]; split
    · exact .inl rfl
    · next hg => exact .inr (.gone (by simpa using hg))
  | shut =>
    simp only [step]; split
    · next hg => exact .inr (.shut hg)
    · exact .inl rfl

theorem exec_snoc (P : Policy β ε σ) (ls : List (Lbl α ε)) (l : Lbl α ε) : exec P (ls ++ [l]) = step P (exec P ls) l := by
  simp [exec, List.foldl_append]

theorem exec_induct {P : Policy β ε σ} {Q : St α β ε σ → Prop} (h0 : Q { st := P.init }) (hs : ∀ s s', Q s → Tr P s s' → Q s') (ls : List (Lbl α ε)) :
    Q (exec P ls) := by
  unfold exec
  have : ∀ (ls : List (Lbl α ε)) (s : St α β ε σ), Q s → Q (ls.foldl (step P) s) := by
    intro ls
    induction ls with
    | nil => exact fun s h => h
    | cons l ls ih =>
      intro s h
      refine ih _ ?_
      rcases step_tr P s l with e | e
      · rw [e]; exact h
      · exact hs _ _ h e
  exact this ls _ h0

section snoc
variable (l : List (Ev α β ε)) (ev : Ev α β ε)
theorem openings_snoc : openings (l ++ [ev]) = openings l ++ (match ev with | .opened n x => [(n, x)] | _ => []) := by
  unfold openings; rw [List.filterMap_append]; cases ev <;> simp
theorem values_snoc : values (l ++ [ev]) = values l ++ (match ev with | .beg _ (.next v) => [v] | _ => []) := by
  unfold values; rw [List.filterMap_append]
  cases ev with
  | beg i o => cases o <;> simp
  | _ => simp
theorem sent_snoc (w : Who) : sent w (l ++ [ev]) = sent w l ++ (match ev with | .recv u (.next v) => if u = w then [v] else [] | _ => []) := by
  unfold sent; rw [List.filterMap_append]
  cases ev with
  | recv j c => cases c <;> simp; split <;> simp [*]
  | _ => simp
theorem busy_snoc : busy (l ++ [ev]) = (match ev with | .beg _ _ | .own _ _ => true | .fin _ => false | _ => busy l) := by
  simp only [busy, List.foldl_append, List.foldl_cons, List.foldl_nil]; cases ev <;> rfl
end snoc

/-- The thread is talking to the downstream observer. -/
def Pc.speaks : Pc α β ε → Bool
  | .out _ | .cb _ | .err _ | .cbErr | .mark => true
  | _ => false
/-- Used in the proofs; models no code. -/
def Pc.inCb : Pc α β ε → Bool
  | .cb _ | .cbErr => true
  | _ => false
/-- Used in the proofs; models no code. -/
def Pc.ending : Pc α β ε → Bool
  | .cb (.term _) | .cbErr | .mark => true
  | _ => false
/-- The thread is responsible for the next attempt. -/
def Pc.owner : Pc α β ε → Bool
  | .loop | .pick | .store _ | .sub _ | .insub | .exS => true
  | _ => false
/-- Used in the proofs; models no code. -/
def Pc.free : Pc α β ε → Bool
  | .loop | .pick | .store _ | .sub _ => true
  | _ => false
/-- Used in the proofs; models no code. -/
def Pc.waiting : Pc α β ε → Bool
  | .insub | .exS => true
  | _ => false
theorem speaks_of_inCb {p : Pc α β ε} (h : p.inCb = true) : p.speaks = true := by cases p <;> first | rfl | cases h
theorem speaks_of_ending {p : Pc α β ε} (h : p.ending = true) : p.speaks = true := by cases p <;> first | rfl | cases h
theorem owner_of_free {p : Pc α β ε} (h : p.free = true) : p.owner = true := by cases p <;> first | rfl | cases h
theorem owner_of_waiting {p : Pc α β ε} (h : p.waiting = true) : p.owner = true := by cases p <;> first | rfl | cases h

/-- Attempts are numbered from 1. -/
structure InvN (s : St α β ε σ) : Prop where
  active : ∀ n, s.active (.src n) = true ↔ 0 < n ∧ n ≤ s.n
  activeN : ∀ n, s.active (.ntf n) = true → 0 < n ∧ n ≤ s.n
  asks : ∀ n e, s.calls (.src n) = .ask e → 0 < n ∧ n ≤ s.n
  main : s.active .main = false
  ex : ∀ w n, s.calls w = .ex n → 0 < n ∧ n ≤ s.n
  handed : ∀ n, .handed n ∈ s.log → 0 < n ∧ n ≤ s.n

theorem InvN.init (P : Policy β ε σ) : InvN ({ st := P.init } : St α β ε σ) := by
  constructor <;> intros <;> simp at * <;> first | omega | (split at * <;> cases ‹_ = _›)

theorem InvN.tr {P : Policy β ε σ} {s s' : St α β ε σ} (h : InvN s) (t : Tr P s s') : InvN s' := by
  obtain ⟨h1, h2, h3, h4, h5, h6⟩ := h
  cases t with
  | sub w x hc =>
    constructor <;> simp only [St.goto, St.emit, St.start] at *
    · intro n
      by_cases hn : n = s.n + 1
      · subst hn; simp
      · simp [hn, h1 n]; omega
    · intro n hn; have := h2 n (by simpa using hn); omega
    · intro n e hh
      split at hh
      · cases hh
      · have := h3 n e hh; omega
    · simpa using h4
    · intro w n hh
      split at hh
      · cases hh
      · have := h5 w n hh; omega
    · intro n hh
      have := h6 n (by simpa using hh); omega
  | _ =>
    constructor <;> simp only [St.goto, St.emit, St.start, St.finish, List.mem_append, List.mem_singleton] at * <;> grind

/-- `own`: the thread responsible for the next attempt; `cur`: attempt `n` has not been handed over. -/
structure Inv (s : St α β ε σ) (own : Option Who) (cur : Bool) : Prop where
  owner : ∀ w, (s.calls w).owner = true → own = some w
  owned : ∀ w, own = some w → (s.calls w).owner = true ∨ s.over = true ∨ (cur = false ∧ s.dead = true)
  none : own = none → s.flag = false ∧ cur = true
  free : ∀ w, (s.calls w).free = true → cur = false ∧ s.over = false
  flag : ∀ w, (s.calls w).free = true → (∀ x, s.calls w ≠ .sub x) → s.flag = false
  flagSub : ∀ w x, s.calls w = .sub x → s.flag = true
  waiting : ∀ w, (s.calls w).waiting = true → s.flag = cur ∧ (s.over = true → cur = true)
  ex : ∀ w n, s.calls w = .ex n → n = s.n ∧ cur = true ∧ s.over = false ∧ (w = .src s.n ∨ (w = .ntf s.n ∧ s.active w = true)) ∧ s.done w = true
  exN : ∀ n, s.calls (.src s.n) = .ex n → s.active (.ntf s.n) = false
  ask : ∀ w e, s.calls w = .ask e → w = .src s.n ∧ cur = true ∧ s.over = false ∧ s.done w = true ∧ s.active (.ntf s.n) = false
  insubN : ∀ w, s.calls w = .insubN → ∃ n, w = .src n ∧ s.done w = true ∧ s.active (.ntf n) = true
  speakA : ∀ w, (s.calls w).speaks = true → w = .src s.n ∨ w = .ntf s.n ∨ own = some w
  speakB : ∀ w, (s.calls w).speaks = true → s.over = true ∨ (w = .src s.n ∧ s.done w = false ∧ s.active w = true) ∨ (w = .ntf s.n ∧ s.done w = false ∧ s.active w = true)
  speak1 : ∀ w w', (s.calls w).speaks = true → (s.calls w').speaks = true → w = w'
  curPos : cur = true → s.active (.src s.n) = true
  curr : cur = true ↔ s.n ≠ 0 ∧ .handed s.n ∉ s.log
  insub : ∀ w, s.calls w = .insub → s.active (.src s.n) = true
  activeN : ∀ n, s.active (.ntf n) = true → s.done (.src n) = true ∧ s.active (.src n) = true
  past : ∀ n, s.active (.src n) = true → (n ≠ s.n ∨ cur = false ∨ s.over = true) → s.done (.src n) = true
  pastN : ∀ n, s.active (.ntf n) = true → (n ≠ s.n ∨ cur = false ∨ s.over = true) → s.done (.ntf n) = true
  fresh : ∀ w, s.active w = false → s.done w = false ∨ w = .main
  alive : cur = true → s.over = false → s.done (.src s.n) = false ∨ s.calls (.src s.n) = .ex s.n ∨ (∃ e, s.calls (.src s.n) = .ask e) ∨
    (s.active (.ntf s.n) = true ∧ (s.done (.ntf s.n) = false ∨ s.calls (.ntf s.n) = .ex s.n))

/-- While somebody is about to open an attempt nobody is telling the downstream anything. -/
theorem Inv.quiet {s : St α β ε σ} {own : Option Who} {cur : Bool} (h : Inv s own cur) {w w' : Who} (hw : (s.calls w).free = true) :
    (s.calls w').speaks = false := by
  cases hs : (s.calls w').speaks with
  | false => rfl
  | true =>
    have ⟨h1, h2⟩ := h.free w hw
    rcases h.speakB w' hs with h3 | ⟨rfl, h4, h5⟩ | ⟨rfl, h4, h5⟩
    · rw [h2] at h3; cases h3
    · rw [h.past _ h5 (Or.inr (Or.inl h1))] at h4; cases h4
    · rw [h.pastN _ h5 (Or.inr (Or.inl h1))] at h4; cases h4

theorem Inv.unowned {s : St α β ε σ} {own : Option Who} {cur : Bool} (h : Inv s own cur) (hc : cur = true) (ho : s.over = false)
    (hf : s.flag = false) : own = Option.none := by
  cases hw : own with
  | none => rfl
  | some w =>
    rcases h.owned w hw with h1 | h1 | h1
    · cases hfr : (s.calls w).free with
      | true => have := h.free w hfr; rw [hc] at this; cases this.1
      | false =>
        have : (s.calls w).waiting = true := by
          cases hp : s.calls w <;> rw [hp] at h1 hfr <;> simp [Pc.owner, Pc.free, Pc.waiting] at *
        have := h.waiting w this
        rw [hf, hc] at this; cases this.1
    · rw [ho] at h1; cases h1
    · rw [hc] at h1; cases h1.1

theorem Inv.init (P : Policy β ε σ) : Inv ({ st := P.init } : St α β ε σ) (some .main) false := by
  constructor <;> intros <;> simp at * <;> grind [Pc.owner, Pc.free, Pc.waiting, Pc.speaks]

end Rpp.Resub
