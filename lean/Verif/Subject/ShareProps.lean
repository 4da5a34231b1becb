import Verif.Subject.ShareProofs

/-!
# C115: what the subscribers of a shared source get

`ops`, `connected`, `Listens`, `Over` (`Verif/Subject/Share.lean`) read the log of events; `ending`, `emitted`, `told`, `latest`, `recent`, `Clocked` are the vocabulary of C42-C44
(`Verif/Subject/Spec.lean`); `deliver` is what a subscriber with the given callbacks sees of a sequence (`Verif/Core/Spec.lean`).
-/

namespace Rpp.Shared

open Rpp.Subj

variable {α ε σ : Type} [DecidableEq α] [DecidableEq ε]

/-- A program that shares a source; no counterpart in /repo. -/
def prog (cap : Option Nat) (ov : ε) (react : Nat → List (Call α ε) → Reaction ε) (store : Store α σ) (cold : Nat → List (Int × Call α ε)) (auto : Bool) : Cfg α ε σ :=
  { cap := cap, ov := ov, react := react, store := store, cold := cold, auto := auto }

theorem fresh_of {C : Cfg α ε σ} {ls : List (Int × Lbl α ε)} {before after : List (Int × Ev α ε)} {t : Int} {k : Nat}
    (h : (exec C ls).log = before ++ (t, .join k) :: after) : Fresh k (ops before) := by
  have hn := (exec_inv C ls).1.ok before t _ after h
  intro t' hm
  clear h
  induction before with
  | nil => cases hm
  | cons e l ih =>
    have ihl := ih (fun t hx => hn t (List.mem_cons_of_mem _ hx))
    obtain ⟨t0, e⟩ := e
    cases e with
    | src c => cases c <;> simp only [ops, opOf, List.mem_cons, Prod.mk.injEq, reduceCtorEq, and_false, false_or] at hm <;> exact ihl hm
    | join j =>
      simp only [ops, List.mem_cons, Prod.mk.injEq, Subj.Op.subscribe.injEq] at hm
      rcases hm with ⟨_, e⟩ | hm
      · exact hn t0 (by rw [e]; exact List.mem_cons_self)
      · exact ihl hm
    | leave j => simp only [ops, List.mem_cons, Prod.mk.injEq, reduceCtorEq, and_false, false_or] at hm; exact ihl hm
    | up => exact ihl hm
    | down => exact ihl hm

theorem split_run {C : Cfg α ε σ} {ls : List (Int × Lbl α ε)} {before after : List (Int × Ev α ε)} {t : Int} {k : Nat}
    (h : (exec C ls).log = before ++ (t, .join k) :: after) : (exec C ls).subj = Subj.run C.toCfg (ops before ++ (t, .subscribe k) :: ops after) := by
  rw [(exec_inv C ls).1.run, h, ops_append]; rfl

/-- **C115.** A subscriber of a source shared through a `publish_subject` gets what the source calls from then on while it is connected, until the subscriber leaves, and how it ended;
and only that if it had ended before. -/
theorem C115_publish (cap : Option Nat) (hcap : Fits cap 1) (ov : ε) (react : Nat → List (Call α ε) → Reaction ε) (cold : Nat → List (Int × Call α ε)) (auto : Bool)
    (ls : List (Int × Lbl α ε)) (before after : List (Int × Ev α ε)) (t : Int) (k : Nat)
    (h : (exec (prog cap ov react publish cold auto) ls).log = before ++ (t, .join k) :: after) :
    evsOf ((exec (prog cap ov react publish cold auto) ls).subj.obs k).log =
      deliver (react k) [] (told k (ops before) (ops after)).vals (told k (ops before) (ops after)).fin := by
  rw [split_run h]; exact C42_publish cap hcap ov react _ _ t k (fresh_of h)

/-- **C115.** Through a `behavior_subject`: the latest value of any connection so far first. -/
theorem C115_behavior (cap : Option Nat) (hcap : Fits cap 1) (ov : ε) (react : Nat → List (Call α ε) → Reaction ε) (v0 : α) (cold : Nat → List (Int × Call α ε)) (auto : Bool)
    (ls : List (Int × Lbl α ε)) (before after : List (Int × Ev α ε)) (t : Int) (k : Nat)
    (h : (exec (prog cap ov react (behavior v0) cold auto) ls).log = before ++ (t, .join k) :: after) :
    evsOf ((exec (prog cap ov react (behavior v0) cold auto) ls).subj.obs k).log =
      deliver (react k) [] ((if ending (ops before) = none then [latest v0 (ops before)] else []) ++ (told k (ops before) (ops after)).vals)
        (told k (ops before) (ops after)).fin := by
  rw [split_run h]; exact C43_behavior cap hcap ov react v0 _ _ t k (fresh_of h)

/-- **C115.** Through a `replay_subject`: the most recent values of all connections so far first. -/
theorem C115_replay (cap : Option Nat) (hcap : Fits cap 1) (ov : ε) (react : Nat → List (Call α ε) → Reaction ε) (count : Option Nat) (window : Option Int)
    (cold : Nat → List (Int × Call α ε)) (auto : Bool) (ls : List (Int × Lbl α ε)) (before after : List (Int × Ev α ε)) (t : Int) (k : Nat)
    (h : (exec (prog cap ov react (replay count window) cold auto) ls).log = before ++ (t, .join k) :: after)
    (hc : Clocked (ops (before ++ [(t, .join k)]))) :
    evsOf ((exec (prog cap ov react (replay count window) cold auto) ls).subj.obs k).log =
      deliver (react k) [] (recent count window t (emitted (ops before)) ++ (told k (ops before) (ops after)).vals) (told k (ops before) (ops after)).fin := by
  rw [split_run h]
  exact C44_replay cap hcap ov react count window _ _ t k (fresh_of h) (by rw [ops_append] at hc; exact hc)

/-- **C115 (when the source is subscribed).** With `ref_count()` the source is subscribed exactly while somebody listens, also when it emits while being subscribed and subscribers leave
from within their callbacks. -/
theorem C115_used (C : Cfg α ε σ) (ha : C.auto = true) (ls : List (Int × Lbl α ε)) :
    connected (exec C ls).log = true ↔ ∃ k, Listens (exec C ls) k := by
  obtain ⟨h, _⟩ := exec_inv C ls
  rw [← h.conn, h.used ha rfl]
  constructor
  · intro hr
    obtain ⟨k, hk⟩ := List.exists_mem_of_ne_nil _ hr
    have hk := (h.refs ha k).1 hk
    exact ⟨k, (h.mem k).1 hk.1, hk.2⟩
  · rintro ⟨k, hk, hd⟩
    exact List.ne_nil_of_mem ((h.refs ha k).2 ⟨(h.mem k).2 hk, hd⟩)

/-- **C115.** The source is subscribed again only after the subscription before is over, and never after it has ended. -/
theorem C115_up (C : Cfg α ε σ) (ls : List (Int × Lbl α ε)) (pre post : List (Int × Ev α ε)) (t : Int) (h : (exec C ls).log = pre ++ (t, .up) :: post) :
    connected pre = false ∧ ¬ Over pre := (exec_inv C ls).1.ok pre t _ post h

/-- **C115.** What the source calls gets through only while it is connected, and not after it has ended. -/
theorem C115_src (C : Cfg α ε σ) (ls : List (Int × Lbl α ε)) (pre post : List (Int × Ev α ε)) (t : Int) (c : Call α ε) (h : (exec C ls).log = pre ++ (t, .src c) :: post) :
    connected pre = true ∧ ¬ Over pre :=
  have := (exec_inv C ls).1.ok pre t _ post h
  ⟨this.1, this.2.1⟩

theorem pass_log {C : Cfg α ε σ} {s : St α ε σ} (h : Inv C false s) (hg : Going s) (t : Int) (c : Call α ε) (hc : s.conn = true) (he : c.isEvent = true) :
    ((s.pass C t c).log = s.log ++ [(t, .src c)] ∧ (s.pass C t c).conn = true) ∨
    ((s.pass C t c).log = s.log ++ [(t, .src c), (t, .down)] ∧ (s.pass C t c).conn = false) := by
  have hi := (pass_inv h hg t c).1.conn
  obtain ⟨o, ho⟩ : ∃ o, opOf c = some o := by cases c <;> first | exact ⟨_, rfl⟩ | cases he
  unfold St.pass at hi ⊢
  rw [if_pos hc] at hi ⊢
  simp only [ho] at hi ⊢
  have hs := settle_log t ({ s with subj := s.subj.step C.toCfg (t, o), log := s.log ++ [(t, .src c)] } : St α ε σ)
  have hsc : ∀ x : St α ε σ, x.log = s.log ++ [(t, .src c)] → x.conn = connected x.log → x.conn = true := by
    intro x h1 h2; rw [h2, h1, connected_append, ← h.conn]; exact hc
  generalize St.settle t _ = x at *
  split at hi
  · rename_i ht
    rw [if_pos ht]
    rcases hs with hs | ⟨hs1, hs2⟩
    · unfold St.close at hi ⊢
      split
      · exact .inr ⟨by rw [hs]; simp, rfl⟩
      · rename_i hx
        rw [if_neg hx] at hi
        exact absurd (hsc x hs hi) hx
    · unfold St.close
      rw [if_neg (by rw [hs2]; simp)]
      exact .inr ⟨by rw [hs1]; simp, hs2⟩
  · rename_i ht
    rw [if_neg ht]
    rcases hs with hs | ⟨hs1, hs2⟩
    · exact .inl ⟨hs, hsc x hs hi⟩
    · exact .inr ⟨by rw [hs1]; simp, hs2⟩

/-- **C115.** … and everything it calls while connected does get through. -/
theorem C115_passes (C : Cfg α ε σ) (ls : List (Int × Lbl α ε)) (t : Int) (c : Call α ε) (he : c.isEvent = true) (hc : connected (exec C ls).log = true) :
    (exec C (ls ++ [(t, .call c)])).log = (exec C ls).log ++ [(t, .src c)] ∨ (exec C (ls ++ [(t, .call c)])).log = (exec C ls).log ++ [(t, .src c), (t, .down)] := by
  obtain ⟨h, hg⟩ := exec_inv C ls
  have : exec C (ls ++ [(t, .call c)]) = (exec C ls).pass C t c := by simp [exec, List.foldl_append, step]
  rw [this]
  exact (pass_log h hg t c (by rw [h.conn]; exact hc) he).imp (·.1) (·.1)

theorem passes_log {C : Cfg α ε σ} (cs : List (Int × Call α ε)) {s : St α ε σ} (h : Inv C false s) (hg : Going s)
    (hc : (cs.foldl (fun s c => s.pass C c.1 c.2) s).conn = true) :
    (cs.foldl (fun s c => s.pass C c.1 c.2) s).log = s.log ++ (cs.filter (fun c => c.2.isEvent)).map (fun c => (c.1, .src c.2)) := by
  have dead : ∀ (cs : List (Int × Call α ε)) (s : St α ε σ), s.conn = false → cs.foldl (fun s c => s.pass C c.1 c.2) s = s := by
    intro cs
    induction cs with
    | nil => exact fun _ _ => rfl
    | cons c cs ih =>
      intro s hs
      have : s.pass C c.1 c.2 = s := by unfold St.pass; rw [if_neg (by rw [hs]; simp)]
      rw [List.foldl_cons, this]; exact ih s hs
  induction cs generalizing s with
  | nil => simp
  | cons c cs ih =>
    rw [List.foldl_cons] at hc ⊢
    have hi := pass_inv h hg c.1 c.2
    have hs : (s.pass C c.1 c.2).conn = true := by
      cases hx : (s.pass C c.1 c.2).conn with
      | true => rfl
      | false => rw [dead cs _ hx, hx] at hc; cases hc
    rw [ih hi.1 hi.2 hc]
    by_cases he : c.2.isEvent = true
    · have hsc : s.conn = true := by
        cases hx : s.conn with
        | true => rfl
        | false =>
          have : s.pass C c.1 c.2 = s := by unfold St.pass; rw [if_neg (by rw [hx]; simp)]
          rw [this, hx] at hs; cases hs
      rcases pass_log h hg c.1 c.2 hsc he with ⟨h1, _⟩ | ⟨_, h2⟩
      · rw [h1, List.filter_cons_of_pos (by simpa using he)]; simp
      · rw [h2] at hs; cases hs
    · have : (s.pass C c.1 c.2) = s := by
        unfold St.pass
        split
        · cases hcc : c.2 with
          | up d => rfl
          | next v => rw [hcc] at he; exact absurd rfl he
          | error e => rw [hcc] at he; exact absurd rfl he
          | completed => rw [hcc] at he; exact absurd rfl he
        · rfl
      rw [this, List.filter_cons_of_neg (by simpa using he)]

/-- How often the source was subscribed so far.  Specification; models no code. -/
def times (l : List (Int × Ev α ε)) : Nat := (l.filter (fun e => match e.2 with | .up => true | _ => false)).length

/-- **C115 (cold sources).** What the source calls while it is being subscribed gets through as well, all of it, unless the connection is over before. -/
theorem C115_cold (C : Cfg α ε σ) (ls : List (Int × Lbl α ε)) (l : Int × Lbl α ε) (h : connected (exec C ls).log = false) (h' : connected (exec C (ls ++ [l])).log = true) :
    ∃ pre, (exec C (ls ++ [l])).log = (exec C ls).log ++ pre ++ (l.1, .up) :: ((C.cold (times (exec C ls).log)).filter (fun c => c.2.isEvent)).map (fun c => (c.1, .src c.2)) ∧
      (pre = [] ∨ ∃ k, pre = [(l.1, .join k)]) := by
  obtain ⟨hi, hg⟩ := exec_inv C ls
  have hf := (exec_inv C (ls ++ [l])).1
  have he : exec C (ls ++ [l]) = step C (exec C ls) l := by simp [exec, List.foldl_append]
  rw [he] at hf h' ⊢
  rw [← hf.conn] at h'
  rw [← hi.conn] at h
  have hm : times (exec C ls).log = (exec C ls).made := hi.made.symm
  rw [hm]
  generalize exec C ls = s at *
  -- `connect`
  have key : ∀ {m : Bool} {x : St α ε σ}, Inv C m x → x.conn = false → (C.auto = true → x.refs ≠ []) → (x.connect C l.1).conn = true →
      (x.connect C l.1).log = x.log ++ (l.1, .up) :: ((C.cold x.made).filter (fun c => c.2.isEvent)).map (fun c => (c.1, .src c.2)) := by
    intro m x hx hxc hxr hcc
    unfold St.connect at hcc ⊢
    split
    · rename_i hd; rw [if_pos hd, hxc] at hcc; cases hcc
    · rename_i hd
      rw [if_neg hd] at hcc
      rw [if_neg (by rw [hxc]; simp)] at hcc ⊢
      have ho := opened_inv hx hxr l.1 hd (by rw [hxc]; simp)
      rw [passes_log _ ho.1 ho.2 hcc]
      simp
  obtain ⟨t, l⟩ := l
  have hclosed : ∀ x : St α ε σ, x.conn = false → (x.settle t).conn = false ∧ (x.settle t).log = x.log ∧ (x.settle t).made = x.made := by
    intro x hx
    unfold St.settle St.close; dsimp only
    split
    · rw [if_neg (by rw [hx]; simp)]; exact ⟨hx, rfl, rfl⟩
    · exact ⟨hx, rfl, rfl⟩
  cases l with
  | sub k =>
    unfold step at h' ⊢
    dsimp only at h' ⊢
    unfold St.sub at h' ⊢
    split
    · rename_i hk; rw [if_pos hk, h] at h'; cases h'
    · rename_i hk
      rw [if_neg hk] at h'
      dsimp only at h' ⊢
      have hp := settle_inv (sub_pre hi t k hk) t
      obtain ⟨c1, c2, c3⟩ := hclosed { s with refs := if C.auto then s.refs ++ [k] else s.refs, subj := s.subj.step C.toCfg (t, .subscribe k), log := s.log ++ [(t, .join k)] } h
      generalize St.settle t _ = x at *
      split
      · rename_i hc
        rw [if_pos hc] at h'
        refine ⟨[(t, .join k)], ?_, .inr ⟨k, rfl⟩⟩
        rw [key hp c1 (fun _ => hc.2.2) h', c2, c3]
      · rename_i hc; rw [if_neg hc, c1] at h'; cases h'
  | leave k =>
    unfold step at h'
    dsimp only at h'
    have hcl := (hclosed { s with subj := s.subj.step C.toCfg (t, .dispose k), log := s.log ++ [(t, .leave k)] } h).1
    rw [hcl] at h'; cases h'
  | connect =>
    unfold step at h' ⊢
    dsimp only at h' ⊢
    split
    · rename_i ha; rw [if_pos ha, h] at h'; cases h'
    · rename_i ha
      rw [if_neg ha] at h'
      exact ⟨[], by rw [key hi h (fun hx => absurd hx ha) h']; simp, .inl rfl⟩
  | disconnect =>
    unfold step at h'
    dsimp only at h'
    split at h'
    · rw [h] at h'; cases h'
    · rw [close_conn] at h'; cases h'
  | call c =>
    have : s.pass C t c = s := by unfold St.pass; rw [if_neg (by rw [h]; simp)]
    unfold step at h'
    dsimp only at h'
    rw [this, h] at h'; cases h'

theorem pass_subs {C : Cfg α ε σ} {s : St α ε σ} (h : Inv C false s) (t : Int) (c : Call α ε) (k : Nat) (hk : k ∈ s.subj.subs) : k ∈ (s.pass C t c).subj.subs := by
  unfold St.pass
  split
  · split
    · exact hk
    · rename_i o _
      have := ((step_facts C.toCfg h.settled (t, o)).2.2.1 k).2 (.inl hk)
      dsimp only
      split <;> simp only [close_subj, settle_subj] <;> exact this
  · exact hk

theorem passes_obs {C : Cfg α ε σ} (ha : C.auto = true) (cs : List (Int × Call α ε)) {s : St α ε σ} (h : Inv C false s) (hg : Going s) (k : Nat) (hk : k ∈ s.subj.subs) :
    (cs.foldl (fun s c => s.pass C c.1 c.2) s).subj.obs k = (userObs C.cap C.ov (C.react k)).run (s.subj.obs k) ((cs.map (·.2)).filter (·.isEvent)) ∧
    k ∈ (cs.foldl (fun s c => s.pass C c.1 c.2) s).subj.subs := by
  induction cs generalizing s with
  | nil => exact ⟨rfl, hk⟩
  | cons c cs ih =>
    have hi := pass_inv h hg c.1 c.2
    have hr := ih hi.1 hi.2 (pass_subs h c.1 c.2 k hk)
    rw [List.foldl_cons]
    refine ⟨?_, hr.2⟩
    rw [hr.1, pass_obs ha h hg c.1 c.2 k hk, List.map_cons]
    by_cases he : c.2.isEvent = true
    · rw [if_pos he, List.filter_cons_of_pos he, Obs.run_cons]
    · rw [if_neg he, List.filter_cons_of_neg he]

omit [DecidableEq α] [DecidableEq ε] in
theorem trace_filter (cs : List (Call α ε)) : traceOf (cs.filter (·.isEvent)) = traceOf cs ∧ upsOf (cs.filter (·.isEvent)) = [] := by
  induction cs with
  | nil => exact ⟨rfl, rfl⟩
  | cons c cs ih =>
    cases c with
    | up d => rw [List.filter_cons_of_neg (by simp [Call.isEvent])]; exact ih
    | next a => rw [List.filter_cons_of_pos rfl]; exact ⟨by simp only [traceOf, ih.1], ih.2⟩
    | error e => rw [List.filter_cons_of_pos rfl]; exact ⟨rfl, ih.2⟩
    | completed => rw [List.filter_cons_of_pos rfl]; exact ⟨rfl, ih.2⟩

omit [DecidableEq α] [DecidableEq ε] in
theorem trace_next (vs : List α) (k : Nat) (cs : List (Call α ε)) :
    traceOf (vs.map .next ++ .up k :: cs) = ⟨vs ++ (traceOf cs).vals, (traceOf cs).fin⟩ ∧ upsOf (vs.map .next ++ .up k :: cs) = k :: upsOf cs := by
  induction vs with
  | nil => exact ⟨rfl, rfl⟩
  | cons v vs ih => simp [traceOf, upsOf, ih]

/-- Somebody who subscribes through `ref_count()` when nobody else does, whatever the subject remembers. -/
theorem alone (C : Cfg α ε σ) (hcap : Fits C.cap 1) (ha : C.auto = true) (ls : List (Int × Lbl α ε)) (hn : ∀ k, ¬ Listens (exec C ls) k) (ho : ¬ Over (exec C ls).log)
    (t : Int) (k : Nat) (hk : ∀ t, (t, .join k) ∉ (exec C ls).log) (calls : List (Int × Call α ε)) :
    evsOf ((exec C (ls ++ (t, .sub k) :: calls.map (fun c => (c.1, .call c.2)))).subj.obs k).log =
      deliver (C.react k) []
        ((C.store.get false t (Subj.run C.toCfg (ops (exec C ls).log)).store).1 ++ (traceOf ((C.cold (times (exec C ls).log)).map (·.2) ++ calls.map (·.2))).vals)
        (traceOf ((C.cold (times (exec C ls).log)).map (·.2) ++ calls.map (·.2))).fin := by
  obtain ⟨hi, hg⟩ := exec_inv C ls
  have hsubi := sub_inv hi hg t k
  have hm : times (exec C ls).log = (exec C ls).made := hi.made.symm
  have he : exec C (ls ++ (t, .sub k) :: calls.map (fun c => (c.1, .call c.2))) = calls.foldl (fun s c => s.pass C c.1 c.2) ((exec C ls).sub C t k) := by
    simp only [exec, List.foldl_append, List.foldl_cons, List.foldl_map]
    rfl
  have hr : (exec C ls).refs = [] := by
    apply List.eq_nil_iff_forall_not_mem.2
    intro j hj
    have hj := (hi.refs ha j).1 hj
    exact hn j ⟨(hi.mem j).1 hj.1, hj.2⟩
  rw [he, hm, ← hi.run]
  clear he hm hn
  generalize exec C ls = s at *
  have hks : k ∉ s.subj.subs := fun hx => by obtain ⟨t', h'⟩ := (hi.mem k).1 hx; exact hk t' h'
  have hdown : s.subj.down = false := by
    cases hx : s.subj.down with
    | false => rfl
    | true => exact absurd (hi.down.1 hx) ho
  have hover : s.subj.phase.over = none := by
    have := hi.settled.down
    rw [hdown] at this
    cases hx : s.subj.phase.over with
    | none => rfl
    | some _ => rw [hx] at this; cases this
  have hconn : s.conn = false := by
    cases hx : s.conn with
    | false => rfl
    | true => exact absurd hr ((hi.used ha rfl).1 hx)
  have hobs := subscribe_obs C.toCfg s.subj t k hks (hi.settled.inv.fresh k hks)
  rw [hover, hdown] at hobs
  dsimp only at hobs
  have hsub : (s.sub C t k).subj.obs k = (userObs C.cap C.ov (C.react k)).run ((s.subj.step C.toCfg (t, .subscribe k)).obs k) (((C.cold s.made).map (·.2)).filter (·.isEvent)) ∧
      k ∈ (s.sub C t k).subj.subs := by
    have hk1 : k ∈ (s.subj.step C.toCfg (t, .subscribe k)).subs := ((step_facts C.toCfg hi.settled (t, .subscribe k)).2.2.1 k).2 (.inr rfl)
    unfold St.sub
    rw [if_neg hks]
    dsimp only
    have hp := settle_inv (sub_pre hi t k hks) t
    have hs1 := settle_subj t ({ s with refs := if C.auto then s.refs ++ [k] else s.refs, subj := s.subj.step C.toCfg (t, .subscribe k), log := s.log ++ [(t, .join k)] } : St α ε σ)
    have hs2 : ∀ x : St α ε σ, x.conn = false → (x.settle t).conn = false ∧ (x.settle t).made = x.made := by
      intro x hx
      unfold St.settle St.close; dsimp only
      split
      · rw [if_neg (by rw [hx]; simp)]; exact ⟨hx, rfl⟩
      · exact ⟨hx, rfl⟩
    obtain ⟨hs2, hs3⟩ := hs2 { s with refs := if C.auto then s.refs ++ [k] else s.refs, subj := s.subj.step C.toCfg (t, .subscribe k), log := s.log ++ [(t, .join k)] } hconn
    have hlog := settle_log t ({ s with refs := if C.auto then s.refs ++ [k] else s.refs, subj := s.subj.step C.toCfg (t, .subscribe k), log := s.log ++ [(t, .join k)] } : St α ε σ)
    generalize St.settle t _ = x at *
    dsimp only at hs1 hs3 hlog
    split
    · rename_i hc
      have hd : ¬ x.subj.down = true := by
        rw [hp.down]
        have h1 : ¬ Over (s.log ++ [(t, .join k)]) := by
          rw [over_snoc]; rintro (h1 | ⟨_, h1, _⟩)
          · exact ho h1
          · cases h1
        rcases hlog with h2 | ⟨h2, _⟩
        · rw [h2]; exact h1
        · rw [h2, over_snoc]; rintro (h1' | ⟨_, h1', _⟩)
          · exact h1 h1'
          · cases h1'
      unfold St.connect
      rw [if_neg hd, if_neg (by rw [hs2]; simp)]
      have hop := opened_inv hp (fun _ => hc.2.2) t hd (by rw [hs2]; simp)
      have := passes_obs ha (C.cold x.made) hop.1 hop.2 k (by dsimp only; rw [hs1]; exact hk1)
      rw [hs3] at this ⊢
      dsimp only at this ⊢
      rw [hs1] at this ⊢
      exact this
    · rename_i hc
      rw [hs1]
      refine ⟨?_, hk1⟩
      have hd : ((s.subj.step C.toCfg (t, .subscribe k)).obs k).disposed = true := by
        cases hx : ((s.subj.step C.toCfg (t, .subscribe k)).obs k).disposed with
        | true => rfl
        | false =>
          have := (hp.refs ha k).2 (by rw [hs1]; exact ⟨hk1, hx⟩)
          exact absurd ⟨ha, hr, List.ne_nil_of_mem this⟩ hc
      symm
      generalize (C.cold s.made).map (·.2) = cs
      induction cs with
      | nil => rfl
      | cons c cs ih =>
        by_cases hev : c.isEvent = true
        · rw [List.filter_cons_of_pos hev, Obs.run_cons, call_ignored hd hev]; exact ih
        · rw [List.filter_cons_of_neg hev]; exact ih
  rw [(passes_obs ha calls hsubi.1 hsubi.2 k hsub.2).1, hsub.1]
  show evsOf ((userObs C.cap C.ov (C.react k)).run ((userObs C.cap C.ov (C.react k)).run ((s.subj.subscribe C.toCfg t k).obs k) _) _).log = _
  rw [hobs, ← Obs.run_append, ← Obs.run_append, ← List.filter_append, List.append_assoc, List.cons_append, List.nil_append]
  have htr := trace_next (ε := ε) (C.store.get false t s.subj.store).1 k (((C.cold s.made).map (·.2) ++ calls.map (·.2)).filter (·.isEvent))
  have hfl := trace_filter ((C.cold s.made).map (·.2) ++ calls.map (·.2))
  rw [user_deliver _ {} rfl (by rw [htr.2, hfl.2]; exact hcap), htr.1, hfl.1]
  rfl

/-- **C115 (sharing is invisible to somebody alone).** Somebody who subscribes to `source | publish() | ref_count()` when nobody else does gets what a subscription of the source itself
would give: the source is subscribed anew, and everything it calls is passed on, what it calls while being subscribed and what it calls later. -/
theorem C115_alone (cap : Option Nat) (hcap : Fits cap 1) (ov : ε) (react : Nat → List (Call α ε) → Reaction ε) (cold : Nat → List (Int × Call α ε))
    (ls : List (Int × Lbl α ε)) (hn : ∀ k, ¬ Listens (exec (prog cap ov react publish cold true) ls) k) (ho : ¬ Over (exec (prog cap ov react publish cold true) ls).log)
    (t : Int) (k : Nat) (hk : ∀ t, (t, .join k) ∉ (exec (prog cap ov react publish cold true) ls).log) (calls : List (Int × Call α ε)) (n : Nat)
    (hm : n = times (exec (prog cap ov react publish cold true) ls).log) (tr : Trace α ε) (htr : tr = traceOf ((cold n ++ calls).map (·.2))) :
    evsOf ((exec (prog cap ov react publish cold true) (ls ++ (t, .sub k) :: calls.map (fun c => (c.1, .call c.2)))).subj.obs k).log = deliver (react k) [] tr.vals tr.fin := by
  rw [alone (prog cap ov react publish cold true) hcap rfl ls hn ho t k hk calls, htr, hm, List.map_append]
  rfl

/-- **C115 (what a shared source leaves behind).** Through a `behavior_subject` somebody alone gets the latest value of the connections before first, although the source is subscribed anew. -/
theorem C115_alone_behavior (cap : Option Nat) (hcap : Fits cap 1) (ov : ε) (react : Nat → List (Call α ε) → Reaction ε) (v0 : α) (cold : Nat → List (Int × Call α ε))
    (ls : List (Int × Lbl α ε)) (hn : ∀ k, ¬ Listens (exec (prog cap ov react (behavior v0) cold true) ls) k) (ho : ¬ Over (exec (prog cap ov react (behavior v0) cold true) ls).log)
    (t : Int) (k : Nat) (hk : ∀ t, (t, .join k) ∉ (exec (prog cap ov react (behavior v0) cold true) ls).log) (calls : List (Int × Call α ε)) (n : Nat)
    (hm : n = times (exec (prog cap ov react (behavior v0) cold true) ls).log) (tr : Trace α ε) (htr : tr = traceOf ((cold n ++ calls).map (·.2))) :
    evsOf ((exec (prog cap ov react (behavior v0) cold true) (ls ++ (t, .sub k) :: calls.map (fun c => (c.1, .call c.2)))).subj.obs k).log =
      deliver (react k) [] (latest v0 (ops (exec (prog cap ov react (behavior v0) cold true) ls).log) :: tr.vals) tr.fin := by
  rw [alone (prog cap ov react (behavior v0) cold true) hcap rfl ls hn ho t k hk calls, htr, hm, List.map_append, ← behavior_store cap ov react]
  rfl

/-- **C115 (sharing with somebody who was there first).** Somebody who comes after a source that has ended gets no values through a `publish_subject`, only the end. -/
theorem C115_late (cap : Option Nat) (hcap : Fits cap 1) (ov : ε) (react : Nat → List (Call α ε) → Reaction ε) (cold : Nat → List (Int × Call α ε)) (auto : Bool)
    (ls : List (Int × Lbl α ε)) (before after : List (Int × Ev α ε)) (t : Int) (k : Nat)
    (h : (exec (prog cap ov react publish cold auto) ls).log = before ++ (t, .join k) :: after) (ho : Over before) :
    ∃ fin, ending (ops before) = some (some fin) ∧ evsOf ((exec (prog cap ov react publish cold auto) ls).subj.obs k).log = [fin.toCall] := by
  cases hx : ending (ops before) with
  | none => exact absurd hx (over_ops _ ho)
  | some x =>
    cases x with
    | none => exact absurd (ops_over _ _ hx).1 (by simp)
    | some fin =>
      refine ⟨fin, rfl, ?_⟩
      rw [C115_publish cap hcap ov react cold auto ls before after t k h]
      simp [told, hx, deliver]

/-! ## Examples -/

/-- A source that emits 1, 2 when subscribed for the first time and 7 for the second time; `take(3)`-like subscriber 0 leaves at its third value.  An example; models no code. -/
def coldEx : Nat → List (Int × Call Nat Nat)
  | 0 => [(0, .next 1), (0, .up 5), (0, .next 2)]
  | _ => [(9, .next 7), (9, .completed), (9, .next 8)]

/-- The callbacks of that example; models no code. -/
def reactEx : Nat → List (Call Nat Nat) → Reaction Nat := fun k l => { dispose := decide (k = 0 ∧ l.length = 3) }

-- 0 gets 1, 2 (cold), 3 and leaves; 1 joined before 3, leaves; the source is subscribed again for 2 and ends; 3 gets the end only.
example :
    let s := exec (prog (some 1) 0 reactEx publish coldEx true) [(0, .sub 0), (1, .sub 1), (2, .call (.next 3)), (3, .call (.next 4)), (4, .leave 1), (5, .call (.next 5)), (9, .sub 2), (10, .sub 3)]
    evsOf (s.subj.obs 0).log = [.next 1, .next 2, .next 3] ∧ evsOf (s.subj.obs 1).log = [.next 3, .next 4] ∧
    evsOf (s.subj.obs 2).log = [.next 7, .completed] ∧ evsOf (s.subj.obs 3).log = [.completed] ∧ connected s.log = false ∧ times s.log = 2 := by decide

-- The same with a `replay_subject`: 2 gets the values of the first connection, too.
example :
    let s := exec (prog (some 1) 0 reactEx (replay none none) coldEx true) [(0, .sub 0), (1, .sub 1), (2, .call (.next 3)), (3, .call (.next 4)), (4, .leave 1), (5, .call (.next 5)), (9, .sub 2), (10, .sub 3)]
    evsOf (s.subj.obs 1).log = [.next 1, .next 2, .next 3, .next 4] ∧
    evsOf (s.subj.obs 2).log = [.next 1, .next 2, .next 3, .next 4, .next 7, .completed] ∧
    evsOf (s.subj.obs 3).log = [.next 1, .next 2, .next 3, .next 4, .next 7, .completed] := by decide

-- With `connect()` by hand: nobody gets what was emitted before they came.
example :
    let s := exec (prog (some 1) 0 reactEx (behavior 9) coldEx false) [(0, .sub 1), (1, .connect), (2, .sub 2), (3, .call (.next 3)), (4, .disconnect), (5, .call (.next 5)), (6, .connect), (7, .sub 3)]
    evsOf (s.subj.obs 1).log = [.next 9, .next 1, .next 2, .next 3, .next 7, .completed] ∧ evsOf (s.subj.obs 2).log = [.next 2, .next 3, .next 7, .completed] ∧
    evsOf (s.subj.obs 3).log = [.completed] := by decide

end Rpp.Shared
