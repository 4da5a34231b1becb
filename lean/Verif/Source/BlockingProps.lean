import Verif.Source.Blocking

/-!
# Property C68: `as_blocking` waits for termination
-/

namespace Rpp.Blocking

/-! ## What is disposed when

The blocking disposable is the first upstream the observer gets (blocking_observable.hpp 66-67). -/

section
variable {α ε : Type} [DecidableEq α] [DecidableEq ε]

theorem call_keeps (cap : Option Nat) (ov : ε) (react : List (Call α ε) → Reaction ε) (s : UserSt α ε)
    (c : Call α ε) (d : Nat) (h : d ∈ s.ups) : d ∈ ((userObs cap ov react).call c s).ups := by
  cases c with
  | up d' =>
    cases hd : s.disposed with
    | true =>
      have : (userObs cap ov react).call (.up d') s = s.release d' :=
        userObs_lawful.up_disposed s d' (by simp [hd])
      rw [this, UserSt.release_ups]; exact h
    | false =>
      by_cases hf : Fits cap (s.ups.length + 1)
      · rw [call_up_fits hd d' hf]; simp [h]
      · cases cap with
        | none => exact absurd (fun _ h => by cases h) hf
        | some n =>
          have hn : s.ups.length ≥ n := by
            simp only [Fits, Option.some.injEq] at hf
            simp only [Classical.not_forall] at hf
            obtain ⟨m, hm, hx⟩ := hf
            omega
          have : (userObs (some n) ov react).call (.up d') s = (userObs (some n) ov react).call (.error ov) s := by
            simp only [Obs.call, userObs, observerImpl, localDisp, hd, Bool.false_or, Bool.false_eq_true, if_false,
              hn, if_true, lambdaStrategy]
          rw [this, (call_ups (s := s) (.error ov) rfl).1]; exact h
  | next a => rw [(call_ups (s := s) (.next a) rfl).1]; exact h
  | error e => rw [(call_ups (s := s) (.error e) rfl).1]; exact h
  | completed => rw [(call_ups (s := s) .completed rfl).1]; exact h

theorem run_keeps (cap : Option Nat) (ov : ε) (react : List (Call α ε) → Reaction ε) (acts : List (Act α ε)) (d : Nat) :
    ∀ s : UserSt α ε, d ∈ s.ups → d ∈ (userRun cap ov react s acts).ups := by
  induction acts with
  | nil => intro s h; exact h
  | cons a acts ih =>
    intro s h
    cases a with
    | call c => exact ih _ (call_keeps cap ov react s c d h)
    | dispose => exact ih _ (by rw [(UserSt.dispose_facts s).2.2.1]; exact h)

/-- C68: the blocking disposable `d` handed to the observer first is disposed exactly when the subscription has ended
- by a terminal notification or by disposal -, exactly once, and only after every callback. -/
theorem C68_disposed_on_end (cap : Option Nat) (hcap : cap ≠ some 0) (ov : ε)
    (react : List (Call α ε) → Reaction ε) (d : Nat) (acts : List (Act α ε)) :
    let s := userRun cap ov react {} (.call (.up d) :: acts)
    ((∃ c ∈ evsOf s.log, c = .completed ∨ ∃ e, c = .error e) → .released d ∈ s.log) ∧
    (.dispose ∈ acts → .released d ∈ s.log) ∧
    (.released d ∈ s.log → s.disposed = true) ∧
    s.log.count (.released d) ≤ 1 ∧
    (∃ (cs : List (Call α ε)) (ds : List Nat), s.log = cs.map Out.ev ++ ds.map Out.released) := by
  intro s
  have hinv : UInv s := UInv.userRun _ UInv.init
  have hd : d ∈ s.ups := by
    show d ∈ (userRun cap ov react ((userObs cap ov react).call (.up d) {}) acts).ups
    apply run_keeps
    rw [call_up_fits rfl d (by intro n hn; cases n with | zero => exact absurd hn hcap | succ n => simp)]
    simp
  have hrel : s.disposed = true → .released d ∈ s.log := fun h => hinv.rel h d hd
  refine ⟨?_, ?_, ?_, ?_, ⟨_, _, hinv.shape.split⟩⟩
  · rintro ⟨c, hc, ht⟩
    apply hrel
    cases hx : s.disposed with
    | true => rfl
    | false =>
      obtain ⟨_, vs, hv⟩ := hinv.live hx
      rw [hv] at hc
      obtain ⟨v, _, rfl⟩ := List.mem_map.1 hc
      rcases ht with h | ⟨e, h⟩ <;> cases h
  · intro hm
    apply hrel
    obtain ⟨a, b, rfl⟩ := List.append_of_mem hm
    show (userRun cap ov react {} (.call (.up d) :: (a ++ .dispose :: b))).disposed = true
    rw [← List.cons_append, userRun_append]
    have key : ∀ (b : List (Act α ε)) (t : UserSt α ε), t.disposed = true → (userRun cap ov react t b).disposed = true := by
      intro b
      induction b with
      | nil => intro t h; exact h
      | cons x b ih =>
        intro t h
        cases x with
        | call c => exact ih _ (run_of_disposed (cap := cap) (ov := ov) (react := react) h [c]).2.1
        | dispose => exact ih _ t.dispose_facts.2.1
    exact key b _ (UserSt.dispose_facts _).2.1
  · intro hm
    cases hx : s.disposed with
    | true => rfl
    | false =>
      have := (mem_relsOf s.log d).2 hm
      rw [(hinv.live hx).1] at this
      cases this
  · have hcount : s.log.count (.released d) = (relsOf s.log).count d := by
      generalize s.log = l
      induction l with
      | nil => rfl
      | cons x l ih => cases x <;> simp [relsOf, List.count_cons, ih]
    rw [hcount]
    exact List.nodup_iff_count.1 hinv.shape.nodup d

example : (userRun (α := Nat) (ε := Nat) none 0 (fun _ => {}) {}
    [.call (.up 7), .call (.next 1), .call .completed, .call (.next 2)]).log
    = [.ev (.next 1), .ev .completed, .released 7] := by decide

end

/-! ## The waiting thread -/

variable (term : Nat → Bool)

/-- C68: `subscribe` returns only after somebody disposed the blocking disposable - and if that was because of a
terminal notification, only after its callback ran. -/
theorem C68_returns_only_after (ls : List Lbl) (pre post : List Ev)
    (h : (exec term ls).log = pre ++ .ret :: post) :
    ∃ k, .dispose k ∈ pre ∧ (term k = true → .callback k ∈ pre) := by
  have hi := exec_inv (term := term) ls
  obtain ⟨k, hk⟩ := hi.legal _ _ h
  refine ⟨k, hk, fun ht => ?_⟩
  obtain ⟨a, b, rfl⟩ := List.append_of_mem hk
  have := hi.cb a k (b ++ .ret :: post) (by rw [h]; simp) ht
  simp [this]

/-- The state after the first `n` steps of an endless schedule. -/
def at_ (σ : Nat → Lbl) (n : Nat) : St := exec term ((List.range n).map σ)

theorem at_succ (σ : Nat → Lbl) (n : Nat) : at_ term σ (n + 1) = step term (at_ term σ n) (σ n) := by
  simp [at_, exec, List.range_succ]

/-- Used in the statements and proofs of this file; models no code. -/
def DPc.rank : DPc → Nat
  | .lock => 4
  | .set => 3
  | .unlock => 2
  | .notify => 1
  | .start => 6
  | .exchange => 5
  | .done => 0

/-- Used in the statements and proofs of this file; models no code. -/
def WPc.rank : WPc → Nat
  | .subscribing => 6
  | .check => 5
  | .lock | .relock => 4
  | .test => 3
  | .asleep => 2
  | .returned => 0

/-- Used in the statements and proofs of this file; models no code. -/
def mu (k : Nat) (s : St) : Nat := 10 * (s.d k).rank + s.w.rank

/-- Nobody but `k` is on the way to wake the waiting thread. -/
structure Lead (k : Nat) (s : St) : Prop where
  flag : s.flag = true
  only : ∀ i, i ≠ k → (s.d i).mid = false

/-- Whose step makes progress. -/
def helpful (k : Nat) (s : St) : Lbl :=
  if (s.d k).mid = true ∧ ¬ (s.d k = .lock ∧ s.w = .test) then .disposer k else .waiter

theorem lead_step {k : Nat} {s : St} (h : Lead k s) (l : Lbl) (hl : l ≠ .spurious) :
    Lead k (step term s l) ∧
    (((step term s l).w = s.w ∧ (step term s l).d k = s.d k) ∨ mu k (step term s l) < mu k s) := by
  obtain ⟨hf, ho⟩ := h
  cases l with
  | spurious => exact absurd rfl hl
  | waiter =>
    simp only [step, wstep]
    have hlead : ∀ s' : St, s'.flag = s.flag → s'.d = s.d → Lead k s' := by
      intro s' h1 h2; exact ⟨by rw [h1, hf], by rw [h2]; exact ho⟩
    split
    · exact ⟨hlead _ rfl rfl, .inr (by simp [mu, WPc.rank, *])⟩
    · rw [if_pos hf]; exact ⟨hlead _ rfl rfl, .inr (by simp [mu, WPc.rank, St.emit, *])⟩
    · split
      · exact ⟨hlead _ rfl rfl, .inr (by simp [mu, WPc.rank, *])⟩
      · exact ⟨hlead _ rfl rfl, .inl ⟨rfl, rfl⟩⟩
    · split
      · exact ⟨hlead _ rfl rfl, .inr (by simp [mu, WPc.rank, St.emit, *])⟩
      · exact ⟨hlead _ rfl rfl, .inr (by simp [mu, WPc.rank, *])⟩
    · exact ⟨hlead _ rfl rfl, .inl ⟨rfl, rfl⟩⟩
    · split
      · exact ⟨hlead _ rfl rfl, .inr (by simp [mu, WPc.rank, *])⟩
      · exact ⟨hlead _ rfl rfl, .inl ⟨rfl, rfl⟩⟩
    · exact ⟨hlead _ rfl rfl, .inl ⟨rfl, rfl⟩⟩
  | disposer i =>
    have hlead : ∀ s' : St, s'.flag = true → (∀ j, j ≠ i → s'.d j = s.d j) → (i = k ∨ (s'.d i).mid = false) →
        Lead k s' := by
      intro s' h1 h2 h3
      refine ⟨h1, fun j hj => ?_⟩
      by_cases hji : j = i
      · subst hji; exact h3.elim (fun h => absurd h hj) id
      · rw [h2 j hji]; exact ho j hj
    by_cases hik : i = k
    · subst hik
      have hw : ∀ w : WPc, w.rank ≤ 6 := by intro w; cases w <;> simp [WPc.rank]
      simp only [step, dstep]
      have hset : ∀ (s' : St) (j : Nat) (p), j ≠ i → (s'.setD i p).d j = s'.d j := by
        intro s' j p hj; simp [St.setD, hj]
      split
      · split
        · exact ⟨hlead _ hf (fun j hj => hset s j _ hj) (.inl rfl), .inr (by simp [mu, DPc.rank, St.setD, St.emit, *])⟩
        · exact ⟨hlead _ hf (fun j hj => hset s j _ hj) (.inl rfl), .inr (by simp [mu, DPc.rank, St.setD, St.emit, *])⟩
      · rw [if_pos hf]
        exact ⟨hlead _ hf (fun j hj => hset s j _ hj) (.inl rfl), .inr (by simp [mu, DPc.rank, St.setD, St.emit, *])⟩
      · split
        · exact ⟨hlead _ hf (fun j hj => by simp [St.setD, hj]) (.inl rfl),
            .inr (by simp [mu, DPc.rank, St.setD, *])⟩
        · exact ⟨hlead _ hf (fun _ _ => rfl) (.inl rfl), .inl ⟨rfl, rfl⟩⟩
      · exact ⟨hlead _ hf (fun j hj => by simp [St.setD, hj]) (.inl rfl),
            .inr (by simp [mu, DPc.rank, St.setD, *])⟩
      · exact ⟨hlead _ hf (fun j hj => by simp [St.setD, hj]) (.inl rfl),
            .inr (by simp [mu, DPc.rank, St.setD, *])⟩
      · refine ⟨hlead _ hf (fun j hj => by simp [St.setD, hj]) (.inl rfl), .inr ?_⟩
        have h6 := hw (if s.w = .asleep then .relock else s.w)
        simp only [mu, DPc.rank, St.setD, if_true, *]
        omega
      · exact ⟨hlead _ hf (fun _ _ => rfl) (.inl rfl), .inl ⟨rfl, rfl⟩⟩
    · have hm := ho i hik
      have hki : ¬ k = i := fun h => hik h.symm
      simp only [step, dstep]
      split
      · split <;> exact ⟨hlead _ hf (fun j hj => by simp [St.setD, St.emit, hj])
          (.inr (by simp [St.setD, St.emit, DPc.mid])), .inl ⟨rfl, by simp [St.setD, St.emit, hki]⟩⟩
      · rw [if_pos hf]
        exact ⟨hlead _ hf (fun j hj => by simp [St.setD, St.emit, hj])
          (.inr (by simp [St.setD, St.emit, DPc.mid])), .inl ⟨rfl, by simp [St.setD, St.emit, hki]⟩⟩
      · simp_all [DPc.mid]
      · simp_all [DPc.mid]
      · simp_all [DPc.mid]
      · simp_all [DPc.mid]
      · exact ⟨hlead _ hf (fun _ _ => rfl) (.inr hm), .inl ⟨rfl, rfl⟩⟩

theorem helpful_step {k : Nat} {s : St} (hi : Inv term s) (h : Lead k s) (hw : s.w ≠ .returned) :
    mu k (step term s (helpful k s)) < mu k s := by
  obtain ⟨hf, ho⟩ := h
  unfold helpful
  have hown : ∀ i, s.mutex = some (.disposer i) → (s.d k).holds = true := by
    intro i hm
    have := (hi.md i).1 hm
    by_cases hik : i = k
    · exact hik ▸ this
    · have := ho i hik
      cases hd : s.d i <;> simp_all [DPc.mid, DPc.holds]
  split
  · rename_i hc
    obtain ⟨hmid, hnt⟩ := hc
    have hr : ∀ w : WPc, w.rank ≤ 6 := by intro w; cases w <;> simp [WPc.rank]
    simp only [step, dstep]
    cases hd : s.d k with
    | start => simp [hd, DPc.mid] at hmid
    | exchange => simp [hd, DPc.mid] at hmid
    | done => simp [hd, DPc.mid] at hmid
    | lock =>
      have hnone : s.mutex = none := by
        cases hm : s.mutex with
        | none => rfl
        | some o =>
          cases o with
          | waiter => exact absurd ⟨hd, hi.mw.1 hm⟩ hnt
          | disposer i => have := hown i hm; simp [hd, DPc.holds] at this
      simp [hnone, mu, DPc.rank, St.setD, hd]
    | set => simp [mu, DPc.rank, St.setD, hd]
    | unlock => simp [mu, DPc.rank, St.setD, hd]
    | notify =>
      have h6 := hr (if s.w = .asleep then .relock else s.w)
      simp only [mu, DPc.rank, St.setD, if_true, hd]
      omega
  · rename_i hc
    have hfree : s.w ≠ .test → s.mutex = none := by
      intro hnt
      cases hm : s.mutex with
      | none => rfl
      | some o =>
        cases o with
        | waiter => exact absurd (hi.mw.1 hm) hnt
        | disposer i =>
          have := hown i hm
          exact absurd ⟨by cases hd : s.d k <;> simp_all [DPc.holds, DPc.mid], fun h => hnt h.2⟩ hc
    simp only [step, wstep]
    cases hwc : s.w with
    | subscribing => simp [mu, WPc.rank, hwc]
    | check => simp [mu, WPc.rank, hwc, hf, St.emit]
    | lock => simp [mu, WPc.rank, hwc, hfree (by simp [hwc])]
    | relock => simp [mu, WPc.rank, hwc, hfree (by simp [hwc])]
    | test => cases hcm : s.completed <;> simp [mu, WPc.rank, hwc, hcm, St.emit]
    | returned => exact absurd hwc hw
    | asleep =>
      exfalso
      have hnm : (s.d k).mid = false := by
        cases hm : (s.d k).mid
        · rfl
        · exact absurd ⟨hm, fun h => by simp [hwc] at h⟩ hc
      have hall : ∀ i, (s.d i).mid = false := fun i => by
        by_cases hik : i = k
        · exact hik ▸ hnm
        · exact ho i hik
      have hcomp : s.completed = true := by
        rcases hi.won hf with h | ⟨i, h⟩
        · exact h
        · rw [hall i] at h; cases h
      obtain ⟨i, hl⟩ := hi.wake hwc hcomp
      have := hall i
      cases hd : s.d i <;> simp_all [DPc.late, DPc.mid]

theorem at_inv (σ : Nat → Lbl) (n : Nat) : Inv term (at_ term σ n) := exec_inv _

theorem progress (σ : Nat → Lbl) (N : Nat) (hsp : ∀ n, N ≤ n → σ n ≠ .spurious)
    (hw : ∀ n, ∃ m, n ≤ m ∧ σ m = .waiter) (hd : ∀ k n, ∃ m, n ≤ m ∧ σ m = .disposer k) (k : Nat) :
    ∀ (v n : Nat), N ≤ n → Lead k (at_ term σ n) → mu k (at_ term σ n) = v →
      ∃ m, (at_ term σ m).w = .returned := by
  intro v
  induction v using Nat.strongRecOn with
  | ind v ih =>
    intro n hn hlead hv
    by_cases hret : (at_ term σ n).w = .returned
    · exact ⟨n, hret⟩
    · have hfair : ∃ m, n ≤ m ∧ σ m = helpful k (at_ term σ n) := by
        unfold helpful
        split
        · exact hd k n
        · exact hw n
      obtain ⟨m, hnm, hm⟩ := hfair
      -- either something was gained before `m`, or nothing relevant changed
      have key : ∀ j, n ≤ j → (∃ i, N ≤ i ∧ Lead k (at_ term σ i) ∧ mu k (at_ term σ i) < v) ∨
          (Lead k (at_ term σ j) ∧ (at_ term σ j).w = (at_ term σ n).w ∧
            (at_ term σ j).d k = (at_ term σ n).d k) := by
        intro j hj
        induction j with
        | zero =>
          have : n = 0 := by omega
          subst this; exact .inr ⟨hlead, rfl, rfl⟩
        | succ j ihj =>
          by_cases hnj : n = j + 1
          · subst hnj; exact .inr ⟨hlead, rfl, rfl⟩
          · rcases ihj (by omega) with h | ⟨h1, h2, h3⟩
            · exact .inl h
            · have hs := lead_step term h1 (σ j) (hsp j (by omega))
              rw [← at_succ] at hs
              rcases hs.2 with ⟨h4, h5⟩ | h4
              · exact .inr ⟨hs.1, h4.trans h2, h5.trans h3⟩
              · refine .inl ⟨j + 1, by omega, hs.1, ?_⟩
                have : mu k (at_ term σ j) = v := by rw [← hv]; simp [mu, h2, h3]
                omega
      rcases key m hnm with ⟨i, h1, h2, h3⟩ | ⟨h1, h2, h3⟩
      · exact ih _ h3 i h1 h2 rfl
      · have hh : helpful k (at_ term σ n) = helpful k (at_ term σ m) := by simp [helpful, h2, h3]
        have hlt := helpful_step term (at_inv term σ m) h1 (by rw [h2]; exact hret)
        rw [← hh, ← hm, ← at_succ] at hlt
        have hv' : mu k (at_ term σ m) = v := by rw [← hv]; simp [mu, h2, h3]
        have hs := lead_step term h1 (σ m) (hsp m (by omega))
        rw [← at_succ] at hs
        exact ih _ (by omega) (m + 1) (by omega) hs.1 rfl

theorem step_flag {s : St} (l : Lbl) (h : s.flag = true) : (step term s l).flag = true := by
  cases l with
  | waiter => simp only [step, wstep]; split <;> (try split) <;> simp_all [St.emit]
  | spurious => exact h
  | disposer k => simp only [step, dstep]; split <;> (try split) <;> simp_all [St.emit, St.setD]

theorem flag_mono (σ : Nat → Lbl) (n m : Nat) (hnm : n ≤ m) (h : (at_ term σ n).flag = true) :
    (at_ term σ m).flag = true := by
  induction m with
  | zero => have : n = 0 := by omega
            subst this; exact h
  | succ m ih =>
    by_cases hn : n = m + 1
    · subst hn; exact h
    · rw [at_succ]; exact step_flag term _ (ih (by omega))

theorem flag_of_dispose (ls : List Lbl) (k : Nat) (h : .dispose k ∈ (exec term ls).log) :
    (exec term ls).flag = true := by
  revert h
  refine Sched.snoc_ind (P := fun ls => .dispose k ∈ (exec term ls).log → (exec term ls).flag = true)
    (by simp [exec]) ?_ ls
  intro ls l ih h
  have e : exec term (ls ++ [l]) = step term (exec term ls) l := by simp [exec]
  rw [e] at h ⊢
  by_cases hm : .dispose k ∈ (exec term ls).log
  · exact step_flag term _ (ih hm)
  · generalize exec term ls = s at *
    cases l with
    | waiter =>
      simp only [step, wstep] at h
      split at h <;> (try split at h) <;> simp_all [St.emit]
    | spurious => exact absurd h hm
    | disposer i =>
      simp only [step, dstep] at h ⊢
      split <;> (try split) <;> simp_all [St.emit, St.setD]

/-- C68: no lost wake-up.  On every endless schedule on which the waiting thread and every other thread keep getting
turns and there are only finitely many spurious wake-ups: once anybody began to dispose the blocking disposable - because
of a terminal notification or because the subscription was disposed -, `subscribe` returns. -/
theorem C68_always_returns (σ : Nat → Lbl) (N : Nat) (hsp : ∀ n, N ≤ n → σ n ≠ .spurious)
    (hw : ∀ n, ∃ m, n ≤ m ∧ σ m = .waiter) (hd : ∀ k n, ∃ m, n ≤ m ∧ σ m = .disposer k)
    (n k : Nat) (h : .dispose k ∈ (at_ term σ n).log) : ∃ m, .ret ∈ (at_ term σ m).log := by
  have hf : (at_ term σ (max n N)).flag = true :=
    flag_mono term σ n _ (by omega) (flag_of_dispose term _ k h)
  have hi := at_inv term σ (max n N)
  have : ∃ k, Lead k (at_ term σ (max n N)) := by
    by_cases hm : ∃ j, ((at_ term σ (max n N)).d j).mid = true
    · obtain ⟨j, hj⟩ := hm
      refine ⟨j, hf, fun i hij => ?_⟩
      cases hx : ((at_ term σ (max n N)).d i).mid
      · rfl
      · exact absurd (hi.one i j hx hj) hij
    · refine ⟨0, hf, fun i _ => ?_⟩
      cases hx : ((at_ term σ (max n N)).d i).mid
      · rfl
      · exact absurd ⟨i, hx⟩ hm
  obtain ⟨j, hl⟩ := this
  obtain ⟨m, hm⟩ := progress term σ N hsp hw hd j _ _ (by omega) hl rfl
  exact ⟨m, (at_inv term σ m).retw.1 hm⟩

theorem mid_dispose (ls : List Lbl) (k : Nat) :
    ((exec term ls).d k).mid = true → .dispose k ∈ (exec term ls).log := by
  refine Sched.snoc_ind
    (P := fun ls => ((exec term ls).d k).mid = true → .dispose k ∈ (exec term ls).log)
    (by simp [exec, DPc.mid]) ?_ ls
  intro ls l ih
  have e : exec term (ls ++ [l]) = step term (exec term ls) l := by simp [exec]
  rw [e]
  generalize exec term ls = s at *
  cases l with
  | waiter =>
    simp only [step, wstep]
    split <;> (try split) <;> simp_all [St.emit]
  | spurious => exact ih
  | disposer i =>
    by_cases hik : k = i
    · subst hik
      simp only [step, dstep]
      split <;> (try split) <;> simp_all [St.emit, St.setD, DPc.mid]
    · simp only [step, dstep]
      split <;> (try split) <;> simp_all [St.emit, St.setD]

/-- Disposed, and nobody is on the way any more. -/
structure Quiet (s : St) : Prop where
  flag : s.flag = true
  none : ∀ k, (s.d k).mid = false

/-- Used in the statements and proofs of this file; models no code. -/
def WPc.turns : WPc → Nat
  | .subscribing | .lock | .relock | .asleep => 2
  | .check | .test => 1
  | .returned => 0

theorem quiet_step {s : St} (hi : Inv term s) (h : Quiet s) (l : Lbl) :
    Quiet (step term s l) ∧ (step term s l).w.turns ≤ s.w.turns ∧
      (l = .waiter → (step term s l).w.turns ≤ s.w.turns - 1) := by
  obtain ⟨hf, hn⟩ := h
  have hcomp : s.completed = true := by
    rcases hi.won hf with h | ⟨i, h⟩
    · exact h
    · rw [hn i] at h; cases h
  have hna : s.w ≠ .asleep := by
    intro hw
    obtain ⟨i, hl⟩ := hi.wake hw hcomp
    have := hn i
    cases hd : s.d i <;> simp_all [DPc.late, DPc.mid]
  have hfree : s.w ≠ .test → s.mutex = none := by
    intro hnt
    cases hm : s.mutex with
    | none => rfl
    | some o =>
      cases o with
      | waiter => exact absurd (hi.mw.1 hm) hnt
      | disposer i =>
        have := (hi.md i).1 hm
        have := hn i
        cases hd : s.d i <;> simp_all [DPc.holds, DPc.mid]
  cases l with
  | spurious => exact ⟨⟨hf, hn⟩, by simp [step, hna], by simp⟩
  | waiter =>
    simp only [step, wstep]
    cases hw : s.w with
    | subscribing => exact ⟨⟨hf, hn⟩, by simp [WPc.turns], by simp [WPc.turns]⟩
    | check => simp only; rw [if_pos hf]; exact ⟨⟨hf, hn⟩, by simp [WPc.turns, St.emit], by simp [WPc.turns, St.emit]⟩
    | lock =>
      rw [if_pos (hfree (by simp [hw]))]
      exact ⟨⟨hf, hn⟩, by simp [WPc.turns], by simp [WPc.turns]⟩
    | relock =>
      rw [if_pos (hfree (by simp [hw]))]
      exact ⟨⟨hf, hn⟩, by simp [WPc.turns], by simp [WPc.turns]⟩
    | test => rw [if_pos hcomp]; exact ⟨⟨hf, hn⟩, by simp [WPc.turns, St.emit], by simp [WPc.turns, St.emit]⟩
    | asleep => exact absurd hw hna
    | returned => exact ⟨⟨hf, hn⟩, by simp [WPc.turns, hw], by simp [WPc.turns, hw]⟩
  | disposer i =>
    have hm := hn i
    simp only [step, dstep]
    cases hd : s.d i with
    | start =>
      have hj : ∀ j, (if j = i then DPc.exchange else s.d j).mid = false := by
        intro j
        split
        · rfl
        · exact hn j
      simp only
      by_cases ht : term i = true
      · rw [if_pos ht]; exact ⟨⟨hf, hj⟩, Nat.le_refl _, by simp⟩
      · rw [if_neg ht]; exact ⟨⟨hf, hj⟩, Nat.le_refl _, by simp⟩
    | exchange =>
      rw [if_pos hf]
      refine ⟨⟨by simp [St.emit, St.setD, hf], ?_⟩, by simp [St.emit, St.setD], by simp⟩
      intro j; by_cases hj : j = i
      · simp [St.emit, St.setD, hj, DPc.mid]
      · simpa [St.emit, St.setD, hj] using hn j
    | done => exact ⟨⟨hf, hn⟩, Nat.le_refl _, by simp⟩
    | lock => simp [hd, DPc.mid] at hm
    | set => simp [hd, DPc.mid] at hm
    | unlock => simp [hd, DPc.mid] at hm
    | notify => simp [hd, DPc.mid] at hm

/-- C68: in numbers.  Once the threads that began to dispose have finished, two turns of the waiting thread suffice for
`subscribe` to return - whatever the other threads do in between, spurious wake-ups included. -/
theorem C68_two_turns (ls ls' : List Lbl) (k : Nat) (hk : .dispose k ∈ (exec term ls).log)
    (hd : ∀ j, .dispose j ∈ (exec term ls).log → (exec term ls).d j = .done)
    (hw : 2 ≤ ls'.count .waiter) : .ret ∈ (exec term (ls ++ ls')).log := by
  have hq : Quiet (exec term ls) := by
    refine ⟨flag_of_dispose term ls k hk, fun j => ?_⟩
    cases hm : ((exec term ls).d j).mid
    · rfl
    · have := hd j (mid_dispose term ls j hm)
      rw [this] at hm; simp [DPc.mid] at hm
  have key : ∀ (ls' : List Lbl) (s : St), Inv term s → Quiet s →
      (ls'.foldl (step term) s).w.turns ≤ s.w.turns - ls'.count .waiter := by
    intro ls'
    induction ls' with
    | nil => intro s _ _; simp
    | cons l ls' ih =>
      intro s hi hq
      obtain ⟨h1, h2, h3⟩ := quiet_step term hi hq l
      have := ih _ (hi.step l) h1
      simp only [List.foldl_cons, List.count_cons]
      by_cases hl : l = .waiter
      · have := h3 hl; simp [hl] at *; omega
      · simp [hl] at *; omega
  have h0 := key ls' _ (exec_inv ls) hq
  have h2 : ∀ w : WPc, w.turns ≤ 2 := by intro w; cases w <;> simp [WPc.turns]
  have h3 := h2 (exec term ls).w
  have he : exec term (ls ++ ls') = ls'.foldl (step term) (exec term ls) := by simp [exec]
  rw [← he] at h0
  apply (exec_inv _).retw.1
  have h4 : (exec term (ls ++ ls')).w.turns = 0 := by omega
  cases hx : (exec term (ls ++ ls')).w <;> simp [hx, WPc.turns] at h4 <;> rfl

/-! Non-vacuity: the waiting thread is asleep when the terminal notification arrives; it wakes up once spuriously. -/

/-- An example. -/
def exTerm : Nat → Bool := fun k => k == 0

/-- An example. -/
def exLs : List Lbl :=
  [.waiter, .waiter, .waiter, .waiter, .spurious, .waiter, .waiter, .disposer 0, .disposer 1, .disposer 1,
   .disposer 1, .disposer 0, .disposer 1, .disposer 1, .disposer 1, .waiter, .waiter]

example : (exec exTerm exLs).log = [.callback 0, .dispose 1, .dispose 0, .ret] := by decide

example : (exec exTerm (exLs.take 7)).w = .asleep := by decide

/-- A fair schedule: turns are dealt out by `n ↦ n`'s trailing structure - waiter at even steps, disposer `k` at the odd
steps `2 * (2 ^ k * (2 * i + 1)) + 1`. -/
def exFair (n : Nat) : Lbl :=
  if n % 2 = 0 then .waiter else .disposer (trail n (n / 2))
where
  /-- Number of trailing zeros of `m`. -/
  trail : Nat → Nat → Nat
    | 0, _ => 0
    | f + 1, m => if m % 2 = 0 ∧ m ≠ 0 then trail f (m / 2) + 1 else 0

theorem trail_pow (k : Nat) : ∀ f i, k ≤ f → exFair.trail f (2 ^ k * (2 * i + 1)) = k := by
  induction k with
  | zero =>
    intro f i _
    cases f with
    | zero => rfl
    | succ f =>
      have : ¬ ((2 ^ 0 * (2 * i + 1)) % 2 = 0 ∧ 2 ^ 0 * (2 * i + 1) ≠ 0) := by simp
      rw [exFair.trail, if_neg this]
  | succ k ih =>
    intro f i hf
    obtain ⟨f, rfl⟩ : ∃ g, f = g + 1 := ⟨f - 1, by omega⟩
    have e : 2 ^ (k + 1) * (2 * i + 1) = 2 * (2 ^ k * (2 * i + 1)) := by
      rw [Nat.pow_succ, Nat.mul_comm (2 ^ k) 2, Nat.mul_assoc]
    have hpos : 0 < 2 ^ k * (2 * i + 1) := Nat.mul_pos (Nat.pow_pos (by omega)) (by omega)
    rw [exFair.trail, if_pos (by rw [e]; constructor <;> omega), e,
      Nat.mul_div_cancel_left _ (by omega), ih f i (by omega)]

example : (∀ n, 0 ≤ n → exFair n ≠ .spurious) ∧ (∀ n, ∃ m, n ≤ m ∧ exFair m = .waiter) ∧
    (∀ k n, ∃ m, n ≤ m ∧ exFair m = .disposer k) ∧ (∃ n, .dispose 1 ∈ (at_ exTerm exFair n).log) := by
  refine ⟨?_, ?_, ?_, ⟨30, by decide⟩⟩
  · intro n _; simp only [exFair]; split <;> simp
  · intro n; exact ⟨2 * n, by omega, by simp [exFair]⟩
  · intro k n
    have hlt : k < 2 ^ k := Nat.lt_two_pow_self
    have h1 : 2 ^ k * (2 * n + 1) = 2 ^ k * (2 * n) + 2 ^ k := by rw [Nat.mul_add, Nat.mul_one]
    have h2 : 2 * n ≤ 2 ^ k * (2 * n) := Nat.le_mul_of_pos_left _ (by omega)
    refine ⟨2 * (2 ^ k * (2 * n + 1)) + 1, by omega, ?_⟩
    have h3 : (2 * (2 ^ k * (2 * n + 1)) + 1) / 2 = 2 ^ k * (2 * n + 1) := by omega
    rw [exFair, if_neg (by omega), h3, trail_pow k _ n (by omega)]

end Rpp.Blocking
