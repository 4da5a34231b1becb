import Verif.Resub.SyncHandle

/-!
# C124: property theorems

`retry_when` and `on_error_resume_next` over any chain of operators (`Pipe`) and callbacks (`react`), if everything is handed over inside `subscribe`.
`src k` is what the `k`-th subscription to the source hands over, `upTo src m` the values of the first `m` one after another, `verdict` what the notifier makes of an end (`none`: another attempt);
`.done` means that `subscribe` has returned.
-/

namespace Rpp

open SyncHandle
open SyncResub (upTo Enough finCalls)
open SyncPair (told)

variable {α γ ε : Type} [DecidableEq α] [DecidableEq γ] [DecidableEq ε]

namespace SyncHandle

/-- A subscription to `source | retry_when(…) | p` or `source | on_error_resume_next(…) | p`, `k` steps later; put together from cited definitions. -/
def sub (kd : Kind α ε) (cap : Option Nat) (ov : ε) (react : List (Call γ ε) → Reaction ε) (p : Pipe ε α γ) (src : Nat → Trace α ε) (k : Nat) : St α ε (p.State (UserSt γ ε)) :=
  exec kd (p.lift (userObs cap ov react)) src (p.start (userObs cap ov react) {}) k

/-- What the callbacks were told; reads the model's state. -/
def sees {p : Pipe ε α γ} (s : St α ε (p.State (UserSt γ ε))) : List (Call γ ε) := evsOf (p.final s.obs).log

theorem settles {kd : Kind α ε} {cap : Option Nat} {ov : ε} {react : List (Call γ ε) → Reaction ε} {p : Pipe ε α γ} (hp : p.WF) (hfit : Fits cap (p.finals.length + 1)) {src : Nat → Trace α ε} {t : Trace α ε} {k m a : Nat}
    (h : Gets kd (p.lift (userObs cap ov react)) src k { obs := (p.lift (userObs cap ov react)).call (.up 0) (p.start (userObs cap ov react) {}) }
      ⟨(p.lift (userObs cap ov react)).run ((p.lift (userObs cap ov react)).call (.up 0) (p.start (userObs cap ov react) {})) (SyncPair.calls t), .done, false, m, a⟩) :
    ∀ k' ≥ k, let s := sub kd cap ov react p src k'
      s.pc = .done ∧ s.opened = m ∧ s.asked = a ∧ sees s = told react p t := by
  intro k' hk'
  obtain ⟨j, rfl⟩ := Nat.exists_eq_add_of_le hk'
  intro s
  have hs : s = Nat.repeat (step kd (p.lift (userObs cap ov react)) src) j (sub kd cap ov react p src k) := SyncPair.repeat_add _ k j _
  have hk : sub kd cap ov react p src k = _ := h
  rw [hk, done_stays j rfl] at hs
  rw [hs]
  exact ⟨rfl, rfl, rfl, SyncPair.sees_told (cap := cap) (ov := ov) react p hp hfit t⟩

end SyncHandle

variable (nt : ε → Note ε) (cap : Option Nat) (ov : ε) (react : List (Call γ ε) → Reaction ε) (p : Pipe ε α γ)

/-- C124: if the values of the first `m` attempts, and not of fewer, are all the subscriber needs, retry_when makes `m` attempts and returns; the notifier is asked after all of them but the last. -/
theorem C124_enough (hp : p.WF) (hfit : Fits cap (p.finals.length + 1)) (src : Nat → Trace α ε) (m : Nat) (ha : ∀ i, i + 1 < m → verdict nt (src i).fin = none)
    (hm : Enough react p (upTo src m)) (hmin : ∀ k < m, ¬ Enough react p (upTo src k)) :
    ∃ k, ∀ k' ≥ k, let s := SyncHandle.sub (.retryWhen nt) cap ov react p src k'
      s.pc = .done ∧ s.opened = m ∧ s.asked = m - 1 ∧ SyncHandle.sees s = told react p ⟨upTo src m, none⟩ := by
  have hl : Lawful (p.lift (userObs cap ov react)) := Pipe.lift_lawful p userObs_lawful
  have hd := fun l => SyncResub.gone_iff (cap := cap) (ov := ov) react p hp hfit l
  have hc : SyncPair.calls (⟨upTo src m, none⟩ : Trace α ε) = (upTo src m).map .next := by simp [SyncPair.calls, finCalls]
  cases m with
  | zero =>
    refine ⟨1, SyncHandle.settles hp hfit (Gets.one ?_)⟩
    rw [hc]
    have h0 := (hd []).trans hm
    simp only [SyncHandle.step]
    exact if_pos h0
  | succ m =>
    have h0 : _ = false := (hd (upTo src m)).trans (Bool.eq_false_iff.2 (hmin m (by omega)))
    obtain ⟨k, _, h1⟩ := reaches (nt := nt) hl m h0 (fun i hi => ha i (by omega))
    obtain ⟨j, h2⟩ := stops (nt := nt) (src := src) hl h0 ((hd _).trans hm)
    refine ⟨k + j, SyncHandle.settles hp hfit ?_⟩
    rw [hc]
    exact h1.trans h2

/-- C124: otherwise, if the notifier lets it end after attempt `m` (or this attempt does not fail), retry_when returns, and the subscriber sees the values of all attempts and then the source's completion, the notifier's end, the error
the notifier threw, or (if nothing more comes) no end. -/
theorem C124_ends (hp : p.WF) (hfit : Fits cap (p.finals.length + 1)) (src : Nat → Trace α ε) (m : Nat) (f : Option (Term ε)) (ha : ∀ i < m, verdict nt (src i).fin = none)
    (hend : verdict nt (src m).fin = some f) (hne : ¬ Enough react p (upTo src (m + 1))) :
    ∃ k, ∀ k' ≥ k, let s := SyncHandle.sub (.retryWhen nt) cap ov react p src k'
      s.pc = .done ∧ s.opened = m + 1 ∧ SyncHandle.sees s = told react p ⟨upTo src (m + 1), f⟩ := by
  have hl : Lawful (p.lift (userObs cap ov react)) := Pipe.lift_lawful p userObs_lawful
  have h0 : _ = false := (SyncResub.gone_iff (cap := cap) (ov := ov) react p hp hfit (upTo src (m + 1))).trans (Bool.eq_false_iff.2 hne)
  have h0' := h0
  rw [SyncResub.upTo_succ] at h0'
  obtain ⟨k, _, h1⟩ := reaches (nt := nt) hl m (SyncResub.not_gone hl h0') ha
  obtain ⟨j, a, h2⟩ := ends (nt := nt) hl h0 hend
  have h := SyncHandle.settles (t := ⟨upTo src (m + 1), f⟩) hp hfit (h1.trans h2)
  exact ⟨k + j, fun k' hk' => ⟨(h k' hk').1, (h k' hk').2.1, (h k' hk').2.2.2⟩⟩

/-- C124: if every attempt fails and the notifier always asks for another, retry_when returns if and only if the values of finitely many attempts are all the subscriber needs. -/
theorem C124_endless (hp : p.WF) (hfit : Fits cap (p.finals.length + 1)) (src : Nat → Trace α ε) (ha : ∀ i, verdict nt (src i).fin = none) :
    (∃ k, (SyncHandle.sub (.retryWhen nt) cap ov react p src k).pc = .done) ↔ ∃ m, Enough react p (upTo src m) := by
  classical
  have hl : Lawful (p.lift (userObs cap ov react)) := Pipe.lift_lawful p userObs_lawful
  constructor
  · rintro ⟨k, h⟩
    apply Classical.byContradiction
    intro hx
    have h0 : _ = false := (SyncResub.gone_iff (cap := cap) (ov := ov) react p hp hfit (upTo src k)).trans (Bool.eq_false_iff.2 fun h => hx ⟨k, h⟩)
    obtain ⟨k', hk', h1⟩ := reaches (nt := nt) hl k h0 (fun i _ => ha i)
    obtain ⟨j, rfl⟩ := Nat.exists_eq_add_of_le hk'
    unfold Gets at h1
    rw [SyncPair.repeat_add] at h1
    have h2 := done_stays (kd := .retryWhen nt) (O := p.lift (userObs cap ov react)) (src := src) j h
    have : (SyncHandle.sub (.retryWhen nt) cap ov react p src k).pc = .drain := congrArg St.pc (h2.symm.trans h1)
    rw [h] at this
    cases this
  · rintro ⟨m, hm⟩
    have hex : ∃ m, Enough react p (upTo src m) ∧ ∀ k < m, ¬ Enough react p (upTo src k) := by
      induction m using Nat.strongRecOn with
      | _ m ih =>
        by_cases h : ∃ k, k < m ∧ Enough react p (upTo src k)
        · obtain ⟨k, hk, hs⟩ := h; exact ih k hk hs
        · exact ⟨m, hm, fun k hk hs => h ⟨k, hk, hs⟩⟩
    obtain ⟨m, h1, h2⟩ := hex
    obtain ⟨t, h⟩ := C124_enough nt cap ov react p hp hfit src m (fun i _ => ha i) h1 h2
    exact ⟨t, (h t (Nat.le_refl _)).1⟩

open Classical in
/-- C124: on_error_resume_next returns; the source is subscribed to once, the selector is asked once if the source fails before the subscriber has had enough and not at all otherwise, and the subscriber sees the source's values, and
after its error what the selected observable hands over, its error included, or the error the selector threw. -/
theorem C124_resume (sel : ε → Except ε (Trace α ε)) (hp : p.WF) (hfit : Fits cap (p.finals.length + 1)) (src : Nat → Trace α ε) :
    ∃ k, ∀ k' ≥ k, let s := SyncHandle.sub (.resume sel) cap ov react p src k'
      s.pc = .done ∧ s.opened = 1 ∧ s.asked = (if ¬ Enough react p (src 0).vals ∧ ∃ e, (src 0).fin = some (.error e) then 1 else 0) ∧
      SyncHandle.sees s = told react p (resumed sel (src 0)) := by
  have hl : Lawful (p.lift (userObs cap ov react)) := Pipe.lift_lawful p userObs_lawful
  obtain ⟨k, a, h, ha⟩ := resume_all (src := src) hl (sel := sel) ((p.lift (userObs cap ov react)).call (.up 0) (p.start (userObs cap ov react) {}))
  have h := SyncHandle.settles hp hfit h
  have hg := SyncResub.gone_iff (cap := cap) (ov := ov) react p hp hfit (src 0).vals
  refine ⟨k, fun k' hk' => ⟨(h k' hk').1, (h k' hk').2.1, (h k' hk').2.2.1.trans (ha.trans ?_), (h k' hk').2.2.2⟩⟩
  by_cases hn : Enough react p (src 0).vals
  · rw [if_neg (fun hx => Bool.false_ne_true (hx.1.symm.trans (hg.trans hn))), if_neg (fun hx => hx.1 hn)]
  · have hn' := hg.trans (Bool.eq_false_iff.2 hn)
    by_cases he : ∃ e, (src 0).fin = some (.error e)
    · rw [if_pos ⟨hn', he⟩, if_pos ⟨hn, he⟩]
    · rw [if_neg (fun hx => he hx.2), if_neg (fun hx => he hx.2)]

/-! ## The hypotheses can be met -/

/-- `error(7)` after the values 1 and 2; models no code. -/
def SyncHandle.bad : Nat → Trace Nat Nat := fun k => ⟨[1, 2], some (.error (7 + k))⟩

/-- A notifier that asks for another attempt up to error 8, then fails with 50; models no code. -/
def SyncHandle.upTo8 : Nat → Note Nat := fun e => if e ≤ 8 then .value else .fails 50

/-- C124_ends: two attempts more, then the notifier's error. -/
example : (∀ i < 2, verdict SyncHandle.upTo8 (SyncHandle.bad i).fin = none) ∧ verdict SyncHandle.upTo8 (SyncHandle.bad 2).fin = some (some (.error 50)) ∧
    ¬ Enough (fun _ => ({} : Reaction Nat)) (.nil : Pipe Nat Nat Nat) (upTo SyncHandle.bad 3) ∧
    told (fun _ => {}) (.nil : Pipe Nat Nat Nat) ⟨upTo SyncHandle.bad 3, some (.error 50)⟩ = [.next 1, .next 2, .next 1, .next 2, .next 1, .next 2, .error 50] :=
  ⟨by decide, rfl, Bool.false_ne_true, rfl⟩

/-- And the model does so. -/
example : (SyncHandle.sub (.retryWhen SyncHandle.upTo8) none 0 (fun _ => {}) .nil SyncHandle.bad 30).asked = 3 ∧
    SyncHandle.sees (SyncHandle.sub (.retryWhen SyncHandle.upTo8) none 0 (fun _ => {}) .nil SyncHandle.bad 30) = [.next 1, .next 2, .next 1, .next 2, .next 1, .next 2, .error 50] := by decide

/-- C124_enough and C124_endless: `take(3)` needs two attempts, whatever the notifier. -/
example : (∀ i, verdict (fun _ => .value) (SyncHandle.bad i).fin = none) ∧ Enough (fun _ => ({} : Reaction Nat)) (.cons (.take 3) .nil : Pipe Nat Nat Nat) (upTo SyncHandle.bad 2) ∧
    ∀ k < 2, ¬ Enough (fun _ => ({} : Reaction Nat)) (.cons (.take 3) .nil : Pipe Nat Nat Nat) (upTo SyncHandle.bad k) :=
  ⟨fun _ => rfl, rfl, fun k hk => by match k, hk with
    | 0, _ => exact Bool.false_ne_true
    | 1, _ => exact Bool.false_ne_true⟩

/-- C124_resume: the source's values, then the selected observable's and its error; with a selector that throws, its error. -/
example : resumed (fun e => .ok ⟨[e], some (.error 9)⟩) (SyncHandle.bad 0) = ⟨[1, 2, 7], some (.error 9)⟩ ∧
    resumed (fun e => .error (e + 1)) (SyncHandle.bad 0) = ⟨[1, 2], some (.error 8)⟩ := ⟨rfl, rfl⟩

example : SyncHandle.sees (SyncHandle.sub (.resume fun e => .ok ⟨[e], some (.error 9)⟩) none 0 (fun _ => {}) .nil SyncHandle.bad 30) = [.next 1, .next 2, .next 7, .error 9] := by decide

end Rpp
