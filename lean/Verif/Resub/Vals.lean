import Verif.Resub.Log

/-! The reasons of every resubscription and of the end, and the values. -/

namespace Rpp.Resub

open Rpp.Comb (Sig Res)

variable {α β ε σ : Type}

/-- Why attempt `n` is followed by another: its end asked for it, or the notifier the user's function returned for its error emitted. -/
def Again (P : Policy β ε σ) (log : List (Ev α β ε)) (n : Nat) : Prop :=
  (∃ t, .recv (.src n) (.term t) ∈ log ∧ P.judge (stAt P n) t = .again) ∨
  ∃ e v, .recv (.src n) (.term (.error e)) ∈ log ∧ P.judge (stAt P n) (.error e) = .ask ∧ .asked n e ∈ log ∧ P.resume = false ∧ .recv (.ntf n) (.next v) ∈ log

/-- Why the downstream observer is told `t` while `n` is the last attempt. -/
def Origin (P : Policy β ε σ) (log : List (Ev α β ε)) (n : Nat) (t : Term ε) : Prop :=
  (.recv (.src n) (.term t) ∈ log ∧ (P.judge (stAt P n) t = .finish ∨ P.judge (stAt P n) t = .ask ∧ t = .completed)) ∨
  .recv (.ntf n) (.term t) ∈ log ∨
  (∃ e, t = .error e ∧ (.threw n e ∈ log ∨ .denied n e ∈ log)) ∨
  (t = .completed ∧ itemAt P n = none ∧ (n = 0 ∨ .handed n ∈ log))

theorem Again.mono {P : Policy β ε σ} {log : List (Ev α β ε)} {n : Nat} (ev : Ev α β ε) (h : Again P log n) : Again P (log ++ [ev]) n := by
  rcases h with ⟨t, h1, h2⟩ | ⟨e, v, h1, h2, h3, h4, h5⟩
  · exact .inl ⟨t, by simp [h1], h2⟩
  · exact .inr ⟨e, v, by simp [h1], h2, by simp [h3], h4, by simp [h5]⟩

theorem Origin.mono {P : Policy β ε σ} {log : List (Ev α β ε)} {n : Nat} {t : Term ε} (ev : Ev α β ε) (h : Origin P log n t) : Origin P (log ++ [ev]) n t := by
  rcases h with ⟨h1, h2⟩ | h | ⟨e, h1, h2 | h2⟩ | ⟨h1, h2, h3⟩
  · exact .inl ⟨by simp [h1], h2⟩
  · exact .inr (.inl (by simp [h]))
  · exact .inr (.inr (.inl ⟨e, h1, by simp [h2]⟩))
  · exact .inr (.inr (.inl ⟨e, h1, by simp [h2]⟩))
  · exact .inr (.inr (.inr ⟨h1, h2, by rcases h3 with h | h <;> simp [h]⟩))

/-- Invariant of the proofs; models no code. -/
structure InvJ (P : Policy β ε σ) (s : St α β ε σ) : Prop where
  ex : ∀ w n, s.calls w = .ex n → Again P s.log n
  handed : ∀ n, .handed n ∈ s.log → Again P s.log n
  ask : ∀ n e, s.calls (.src n) = .ask e → .recv (.src n) (.term (.error e)) ∈ s.log ∧ P.judge (stAt P n) (.error e) = .ask
  asked : ∀ n e, .asked n e ∈ s.log → .recv (.src n) (.term (.error e)) ∈ s.log ∧ P.judge (stAt P n) (.error e) = .ask
  out : ∀ w t, s.calls w = .out (.term t) → Origin P s.log s.n t ∧ s.over = true
  beg : ∀ w t, .beg w (.term t) ∈ s.log → Origin P s.log s.n t ∧ s.over = true
  before : ∀ n, 0 < n → n < s.n → .handed n ∈ s.log
  emitted : P.resume = false → ∀ n v, .recv (.ntf n) (.next v) ∈ s.log → s.done (.ntf n) = true
  caught : ∀ n e, .threw n e ∈ s.log → P.catches = true
  denied : ∀ n e', .denied n e' ∈ s.log → ∃ e, .recv (.src n) (.term (.error e)) ∈ s.log ∧ P.judge (stAt P n) (.error e) = .ask

theorem InvJ.init (P : Policy β ε σ) : InvJ P ({ st := P.init } : St α β ε σ) := by
  constructor <;> intros <;> simp at * <;> (split at * <;> cases ‹_ = _›)

set_option maxHeartbeats 1000000 in
theorem InvJ.tr {P : Policy β ε σ} {s s' : St α β ε σ} {own : Option Who} {cur : Bool} (h2 : Inv s own cur) (hL : InvL s) (hS : InvS P s)
    (h : InvJ P s) (t : Tr P s s') : InvJ P s' := by
  have hst : (∀ w, (s.calls w).free = false) → s.st = stAt P s.n := fun hf => hS.at_ fun w x =>
    ⟨fun hh => (by have := hf w; rw [hh] at this; cases this), fun hh => (by have := hf w; rw [hh] at this; cases this)⟩
  have am : ∀ ev n, Again P s.log n → Again P (s.log ++ [ev]) n := fun ev n h => h.mono ev
  have om : ∀ ev n t, Origin P s.log n t → Origin P (s.log ++ [ev]) n t := fun ev n t h => h.mono ev
  obtain ⟨a1, a2, a3, a4, a5, a6, a7, a8, a9, a10⟩ := h
  cases t with
  | finish n t hc ha hd hs hj =>
    obtain ⟨rfl, -, -, hf⟩ := h2.current (.inl ⟨ha, hd⟩)
    have ho : Origin P (s.log ++ [.recv (.src s.n) (.term t)]) s.n t := .inl ⟨by simp, by rw [← hst hf]; exact hj⟩
    clear hst hS hL h2
    constructor <;> simp only [St.goto, St.emit, St.start, St.finish, List.mem_append, List.mem_singleton] at * <;> grind
  | again n t hc ha hd hs hj =>
    obtain ⟨rfl, -, -, hf⟩ := h2.current (.inl ⟨ha, hd⟩)
    have ho : Again P (s.log ++ [.recv (.src s.n) (.term t)]) s.n := .inl ⟨t, by simp, by rw [← hst hf]; exact hj⟩
    clear hst hS hL h2
    constructor <;> simp only [St.goto, St.emit, St.start, St.finish, List.mem_append, List.mem_singleton] at * <;> grind
  | query n e hc ha hd hs hj =>
    obtain ⟨rfl, -, -, hf⟩ := h2.current (.inl ⟨ha, hd⟩)
    have ho := hst hf
    clear hst hS hL h2
    constructor <;> simp only [St.goto, St.emit, St.start, St.finish, List.mem_append, List.mem_singleton] at * <;> grind
  | nextN n v hc ha hd hs hr =>
    obtain ⟨e, h4⟩ := (hL.asked n).mp ha
    obtain ⟨h1, h3⟩ := a4 n e h4
    have ho : Again P (s.log ++ [.recv (.ntf n) (.next v)]) n := .inr ⟨e, v, by simp [h1], h3, by simp [h4], hr, by simp⟩
    clear hst hS hL h2
    constructor <;> simp only [St.goto, St.emit, St.start, St.finish, List.mem_append, List.mem_singleton] at * <;> grind
  | termN n t hc ha hd hs =>
    obtain ⟨rfl, -, -, hf⟩ := h2.current (.inr ⟨ha, hd⟩)
    have ho : Origin P (s.log ++ [.recv (.ntf s.n) (.term t)]) s.n t := .inr (.inl (by simp))
    clear hst hS hL h2
    constructor <;> simp only [St.goto, St.emit, St.start, St.finish, List.mem_append, List.mem_singleton] at * <;> grind
  | askThrow n e e' hc =>
    have hn := (h2.ask _ e hc).1
    cases hn
    have ho : Origin P (s.log ++ [.denied s.n e']) s.n (.error e') := .inr (.inr (.inl ⟨e', rfl, .inr (by simp)⟩))
    clear hst hS hL h2
    constructor <;> simp only [St.goto, St.emit, St.start, St.finish, List.mem_append, List.mem_singleton] at * <;> grind
  | throw w e hc hp h1 h3 h4 =>
    have ho : Origin P (s.log ++ [.threw s.n e]) s.n (.error e) := .inr (.inr (.inl ⟨e, rfl, .inl (by simp)⟩))
    clear hst hS hL h2
    constructor <;> simp only [St.goto, St.emit, St.start, St.finish, List.mem_append, List.mem_singleton] at * <;> grind
  | throwN n e hc h1 h3 =>
    have hn : n = s.n := by
      obtain ⟨m, hm, h5, h6⟩ := h2.insubN _ hc
      cases hm
      exact (h2.current (.inr ⟨h6, h3⟩)).1
    have hd : ∃ e, .recv (.src n) (.term (.error e)) ∈ s.log ∧ P.judge (stAt P n) (.error e) = .ask := by
      obtain ⟨m, hm, h5, h6⟩ := h2.insubN _ hc
      cases hm
      obtain ⟨e, he⟩ := (hL.asked n).mp h6
      exact ⟨e, a4 n e he⟩
    subst hn
    have ho : Origin P (s.log ++ [.denied s.n e]) s.n (.error e) := .inr (.inr (.inl ⟨e, rfl, .inr (by simp)⟩))
    clear hst hS hL h2
    constructor <;> simp only [St.goto, St.emit, St.start, St.finish, List.mem_append, List.mem_singleton] at * <;> grind
  | pickNone w hc hn =>
    have hno : ∀ w' x, s.calls w' ≠ .store x ∧ s.calls w' ≠ .sub x := by
      intro w' x
      have hw := h2.owner w (by rw [hc]; rfl)
      constructor <;> intro hh
      · have := h2.owner w' (by rw [hh]; rfl); rw [hw] at this; cases this; rw [hc] at hh; cases hh
      · have := h2.owner w' (by rw [hh]; rfl); rw [hw] at this; cases this; rw [hc] at hh; cases hh
    have ho : Origin P s.log s.n .completed := by
      refine .inr (.inr (.inr ⟨rfl, by rw [itemAt, ← hS.at_ hno, hn]; rfl, ?_⟩))
      have h1 := (h2.free w (by rw [hc]; rfl)).1
      have h3 := h2.curr
      rw [h1] at h3
      simp only [Bool.false_eq_true, false_iff, not_and, Classical.not_not] at h3
      by_cases h0 : s.n = 0
      · exact .inl h0
      · exact .inr (h3 h0)
    clear hst hS hL h2
    constructor <;> simp only [St.goto, St.emit, St.start, St.finish, List.mem_append, List.mem_singleton] at * <;> grind
  | sub w x hc =>
    have hq : ∀ w', (s.calls w').speaks = false := fun w' => h2.quiet (w := w) (by rw [hc]; rfl)
    have hf := h2.free w (by rw [hc]; rfl)
    have h3 := h2.curr
    rw [hf.1] at h3
    simp only [Bool.false_eq_true, false_iff, not_and, Classical.not_not] at h3
    have ho : ∀ w t, s.calls w ≠ .out (.term t) := fun w t hh => by have := hq w; rw [hh] at this; cases this
    have hb : ∀ n, 0 < n → n < s.n + 1 → .handed n ∈ s.log := fun n h1 h4 => by
      by_cases he : n = s.n
      · subst he; exact h3 (by omega)
      · exact a7 n h1 (by omega)
    have hov := hf.2
    clear hst hS hL h2 a7 hf h3
    constructor <;> simp only [St.goto, St.emit, St.start, St.finish, List.mem_append, List.mem_singleton] at * <;> grind
  | _ =>
    clear hst hS hL h2
    constructor <;> simp only [St.goto, St.emit, St.start, St.finish, List.mem_append, List.mem_singleton] at * <;> grind

/-! ## The values -/

/-- The values notified to the operator that it is to forward, in the order in which they come. -/
def heard (P : Policy β ε σ) (log : List (Ev α β ε)) : List α := log.filterMap fun
  | .recv (.src _) (.next v) => some v
  | .recv (.ntf _) (.next v) => if P.resume then some v else none
  | _ => none

/-- The values of one attempt after the other, each followed by those of the observable that replaces it. -/
def joined (P : Policy β ε σ) (n : Nat) (log : List (Ev α β ε)) : List α :=
  (List.range n).flatMap fun k => sent (.src (k + 1)) log ++ if P.resume then sent (.ntf (k + 1)) log else []

theorem heard_snoc (P : Policy β ε σ) (l : List (Ev α β ε)) (ev : Ev α β ε) : heard P (l ++ [ev]) = heard P l ++ (match ev with
    | .recv (.src _) (.next v) => [v]
    | .recv (.ntf _) (.next v) => if P.resume then [v] else []
    | _ => []) := by
  unfold heard; rw [List.filterMap_append]
  cases ev with
  | recv w c =>
    rcases w with _ | n | n <;> cases c <;> simp
    split <;> simp
  | _ => simp

/-- Invariant of the proofs; models no code. -/
structure InvV (P : Policy β ε σ) (s : St α β ε σ) : Prop where
  rest : (∀ w v, s.calls w ≠ .out (.next v)) → s.gone = false → values s.log = heard P s.log
  way : ∀ w v, s.calls w = .out (.next v) → s.gone = false → values s.log ++ [v] = heard P s.log
  pre : values s.log <+: heard P s.log
  join : heard P s.log = joined P s.n s.log
  unsent : ∀ w, s.active w = false → sent w s.log = []

theorem InvV.init (P : Policy β ε σ) : InvV P ({ st := P.init } : St α β ε σ) := by
  constructor <;> simp [values, heard, Resub.joined, Resub.sent]
  intro w v; cases w <;> simp

theorem joined_congr {P : Policy β ε σ} {n : Nat} {l l' : List (Ev α β ε)} (h : ∀ w, sent w l' = sent w l) : Resub.joined P n l' = Resub.joined P n l := by
  unfold Resub.joined; simp only [h]

theorem joined_succ {P : Policy β ε σ} {n : Nat} {l : List (Ev α β ε)} (h1 : sent (.src (n + 1)) l = []) (h2 : sent (.ntf (n + 1)) l = []) :
    Resub.joined P (n + 1) l = Resub.joined P n l := by
  unfold Resub.joined; rw [List.range_succ, List.flatMap_append]; simp [h1, h2]

theorem joined_src {P : Policy β ε σ} {n : Nat} {l : List (Ev α β ε)} {v : α} (hn : 0 < n) (h2 : sent (.ntf n) l = []) :
    Resub.joined P n (l ++ [.recv (.src n) (.next v)]) = Resub.joined P n l ++ [v] := by
  obtain ⟨m, rfl⟩ : ∃ m, n = m + 1 := ⟨n - 1, by omega⟩
  unfold Resub.joined
  simp only [List.range_succ, List.flatMap_append, List.flatMap_cons, List.flatMap_nil, List.append_nil, sent_snoc, h2]
  have : (List.range m).flatMap (fun k => sent (.src (k + 1)) l ++ (if Who.src (m + 1) = Who.src (k + 1) then [v] else []) ++
      if P.resume = true then sent (.ntf (k + 1)) l ++ (if Who.src (m + 1) = Who.ntf (k + 1) then [v] else []) else []) =
      (List.range m).flatMap fun k => sent (.src (k + 1)) l ++ if P.resume = true then sent (.ntf (k + 1)) l else [] := by
    rw [List.flatMap_def, List.flatMap_def]
    congr 1
    refine List.map_congr_left fun k hk => ?_
    have : m ≠ k := by rintro rfl; simp at hk
    simp [this]
  rw [this]; simp

theorem joined_ntf {P : Policy β ε σ} {n : Nat} {l : List (Ev α β ε)} {v : α} (hn : 0 < n) :
    Resub.joined P n (l ++ [.recv (.ntf n) (.next v)]) = Resub.joined P n l ++ if P.resume then [v] else [] := by
  obtain ⟨m, rfl⟩ : ∃ m, n = m + 1 := ⟨n - 1, by omega⟩
  unfold Resub.joined
  simp only [List.range_succ, List.flatMap_append, List.flatMap_cons, List.flatMap_nil, List.append_nil, sent_snoc]
  have : (List.range m).flatMap (fun k => sent (.src (k + 1)) l ++ (if Who.ntf (m + 1) = Who.src (k + 1) then [v] else []) ++
      if P.resume = true then sent (.ntf (k + 1)) l ++ (if Who.ntf (m + 1) = Who.ntf (k + 1) then [v] else []) else []) =
      (List.range m).flatMap fun k => sent (.src (k + 1)) l ++ if P.resume = true then sent (.ntf (k + 1)) l else [] := by
    rw [List.flatMap_def, List.flatMap_def]
    congr 1
    refine List.map_congr_left fun k hk => ?_
    have : m ≠ k := by rintro rfl; simp at hk
    simp [this]
  rw [this]
  split <;> simp

set_option maxHeartbeats 1000000 in
theorem InvV.tr {P : Policy β ε σ} {s s' : St α β ε σ} {own : Option Who} {cur : Bool} (hN : InvN s) (h2 : Inv s own cur)
    (h : InvV P s) (t : Tr P s s') : InvV P s' := by
  obtain ⟨a1, a2, a3, a4, a5⟩ := h
  have u : ∀ w w', (s.calls w).speaks = true → (s.calls w').speaks = true → w = w' := h2.speak1
  have silent : ∀ n, (s.calls (.src n) = .idle ∧ s.active (.src n) = true ∧ s.done (.src n) = false) ∨
      (s.calls (.ntf n) = .idle ∧ s.active (.ntf n) = true ∧ s.done (.ntf n) = false) → n = s.n ∧ ∀ w v, s.calls w ≠ .out (.next v) := by
    intro n hn
    obtain ⟨rfl, -, ho, -⟩ := h2.current (n := n) (hn.imp (·.2) (·.2))
    refine ⟨rfl, fun w v hw => ?_⟩
    have h3 := h2.speakB w (by rw [hw]; rfl)
    have h4 := h2.activeN s.n
    grind
  cases t with
  | nextS n v hc ha hd hs =>
    obtain ⟨rfl, hq⟩ := silent n (.inl ⟨hc, ha, hd⟩)
    have hnt : sent (.ntf s.n) s.log = [] := a5 _ (by
      cases hx : s.active (.ntf s.n) with
      | false => rfl
      | true => rw [(h2.activeN s.n hx).1] at hd; cases hd)
    have hj := joined_src (P := P) (v := v) ((hN.active s.n).mp ha).1 hnt
    constructor
    · intro hh; have := hh (.src s.n) v; simp [St.goto, St.emit] at this
    · intro w' v' hw hg
      simp only [St.goto, St.emit, values_snoc, heard_snoc, List.append_nil] at hw hg ⊢
      rw [a1 hq hg]
      split at hw
      · cases hw; rfl
      · exact absurd hw (hq _ _)
    · simp only [St.goto, St.emit, values_snoc, heard_snoc, List.append_nil]
      exact a3.trans (List.prefix_append _ _)
    · simp only [St.goto, St.emit, heard_snoc]
      rw [hj, a4]
    · intro w hw
      simp only [St.goto, St.emit, sent_snoc] at hw ⊢
      rw [a5 w hw]
      have : Who.src s.n ≠ w := by rintro rfl; rw [ha] at hw; cases hw
      simp [this]
  | nextR n v hc ha hd hs hr =>
    obtain ⟨rfl, hq⟩ := silent n (.inr ⟨hc, ha, hd⟩)
    have hj := joined_ntf (P := P) (l := s.log) (v := v) (hN.activeN s.n ha).1
    simp only [hr, if_true] at hj
    constructor
    · intro hh; have := hh (.ntf s.n) v; simp [St.goto, St.emit] at this
    · intro w' v' hw hg
      simp only [St.goto, St.emit, values_snoc, heard_snoc, List.append_nil, hr] at hw hg ⊢
      rw [a1 hq hg]
      split at hw
      · cases hw; rfl
      · exact absurd hw (hq _ _)
    · simp only [St.goto, St.emit, values_snoc, heard_snoc, List.append_nil]
      exact a3.trans (List.prefix_append _ _)
    · simp only [St.goto, St.emit, heard_snoc, hr, if_true]
      rw [hj, a4]
    · intro w hw
      simp only [St.goto, St.emit, sent_snoc] at hw ⊢
      rw [a5 w hw]
      have : Who.ntf s.n ≠ w := by rintro rfl; rw [ha] at hw; cases hw
      simp [this]
  | nextN n v hc ha hd hs hr =>
    obtain ⟨rfl, hq⟩ := silent n (.inr ⟨hc, ha, hd⟩)
    have hj := joined_ntf (P := P) (l := s.log) (v := v) (hN.activeN s.n ha).1
    simp only [hr, Bool.false_eq_true, if_false, List.append_nil] at hj
    constructor
    · intro _ hg
      simp only [St.goto, St.emit, St.finish, values_snoc, heard_snoc, List.append_nil, hr, Bool.false_eq_true, if_false] at hg ⊢
      exact a1 hq hg
    · intro w' v' hw hg
      simp only [St.goto, St.emit, St.finish] at hw
      split at hw
      · cases hw
      · exact absurd hw (hq _ _)
    · simp only [St.goto, St.emit, St.finish, values_snoc, heard_snoc, List.append_nil, hr, Bool.false_eq_true, if_false]
      exact a3
    · simp only [St.goto, St.emit, St.finish, heard_snoc, hr, Bool.false_eq_true, if_false, List.append_nil]
      rw [hj, a4]
    · intro w hw
      simp only [St.goto, St.emit, St.finish, sent_snoc] at hw ⊢
      rw [a5 w hw]
      have : Who.ntf s.n ≠ w := by rintro rfl; rw [ha] at hw; cases hw
      simp [this]
  | sub w x hc =>
    have n1 : sent (.src (s.n + 1)) s.log = [] := a5 _ (by
      cases hx : s.active (.src (s.n + 1)) with
      | false => rfl
      | true => have := (hN.active _).mp hx; omega)
    have n2 : sent (.ntf (s.n + 1)) s.log = [] := a5 _ (by
      cases hx : s.active (.ntf (s.n + 1)) with
      | false => rfl
      | true => have := hN.activeN _ hx; omega)
    have hj : joined P (s.n + 1) (s.log ++ [.opened (s.n + 1) x]) = joined P s.n s.log := by
      rw [joined_congr (fun w => by rw [sent_snoc]; simp : ∀ w, Resub.sent w (s.log ++ [.opened (s.n + 1) x]) = Resub.sent w s.log), joined_succ n1 n2]
    constructor <;> simp only [St.goto, St.emit, St.start, values_snoc, heard_snoc, sent_snoc, List.append_nil]
    · intro hh hg; refine a1 (fun w' v' hw => hh w' v' ?_) hg
      split
      · next he => subst he; rw [hc] at hw; cases hw
      · exact hw
    · intro w' v' hw; split at hw
      · cases hw
      · exact a2 w' v' hw
    · exact a3
    · rw [hj, a4]
    · intro w' hw; split at hw
      · cases hw
      · exact a5 w' hw
  | beg w o hc hg =>
    have hj : joined P s.n (s.log ++ [.beg w o]) = joined P s.n s.log := joined_congr fun w' => by rw [sent_snoc]; simp
    rcases o with v | tm
    · have ha := a2 w v hc hg
      constructor <;> simp only [St.goto, St.emit, values_snoc, heard_snoc, sent_snoc, List.append_nil]
      · intro _ _; exact ha
      · intro w' v' hw; split at hw
        · cases hw
        · next hne => exact absurd (u w' w (by rw [hw]; rfl) (by rw [hc]; rfl)) hne
      · rw [ha]; exact List.prefix_refl _
      · rw [hj, a4]
      · exact a5
    · constructor <;> simp only [St.goto, St.emit, values_snoc, heard_snoc, sent_snoc, List.append_nil]
      · intro hh hg; refine a1 (fun w' v' hw => hh w' v' ?_) hg
        split
        · next he => subst he; rw [hc] at hw; cases hw
        · exact hw
      · intro w' v' hw; split at hw
        · cases hw
        · exact a2 w' v' hw
      · exact a3
      · rw [hj, a4]
      · exact a5
  | skip w hc hg =>
    constructor <;> simp only [St.goto] <;> grind
  | finTerm w hc =>
    have hj : joined P s.n (s.log ++ [.fin w]) = joined P s.n s.log := joined_congr fun w' => by rw [sent_snoc]; simp
    constructor <;> simp only [St.goto, St.emit, values_snoc, heard_snoc, sent_snoc, List.append_nil] <;> grind
  | _ =>
    clear silent u h2 hN
    constructor <;> simp only [St.goto, St.emit, St.start, St.finish, values_snoc, heard_snoc, sent_snoc, List.append_nil]
    case join => first | exact a4 | (rw [a4]; exact (joined_congr fun w' => by rw [sent_snoc]; simp).symm)
    case pre => exact a3
    all_goals grind

/-! ## All of them -/

/-- Used in the proofs; models no code. -/
structure All (P : Policy β ε σ) (s : St α β ε σ) (own : Option Who) (cur : Bool) : Prop where
  N : InvN s
  I : Inv s own cur
  L : InvL s
  S : InvS P s
  J : InvJ P s
  V : InvV P s

theorem all (P : Policy β ε σ) (ls : List (Lbl α ε)) : ∃ own cur, All P (exec P ls) own cur := by
  refine exec_induct (Q := fun s => ∃ own cur, All P s own cur) ⟨_, _, .init P, .init P, .init P, .init P, .init P, .init P⟩ ?_ ls
  rintro s s' ⟨own, cur, hN, hI, hL, hS, hJ, hV⟩ t
  obtain ⟨own', cur', hI'⟩ := hI.tr hN t
  exact ⟨own', cur', hN.tr t, hI', hL.tr hI t, hS.tr hI t, hJ.tr hI hL hS t, hV.tr hN hI t⟩

end Rpp.Resub
