import Verif.Core.Share

/-!
# Subscriptions that share a disposable or an observer (C99): invariants
-/

namespace Rpp.Share

theorem before_snoc {log : List Ev} {a b e : Ev} : Before (log ++ [e]) a b ↔ Before log a b ∨ (e = b ∧ a ∈ log) := by
  constructor
  · rintro ⟨pre, mid, post, h⟩
    rcases List.eq_nil_or_concat post with rfl | ⟨p, x, rfl⟩
    · have h' : log ++ [e] = (pre ++ a :: mid) ++ [b] := by simpa using h
      have := List.append_inj' h' rfl
      right
      refine ⟨by simpa using this.2, by rw [this.1]; simp⟩
    · have h' : log ++ [e] = (pre ++ a :: mid ++ b :: p) ++ [x] := by simpa using h
      have := List.append_inj' h' rfl
      left
      exact ⟨pre, mid, p, this.1⟩
  · rintro (⟨pre, mid, post, rfl⟩ | ⟨rfl, h⟩)
    · exact ⟨pre, mid, post ++ [e], by simp⟩
    · obtain ⟨pre, mid, rfl⟩ := List.append_of_mem h
      exact ⟨pre, mid, [], by simp⟩

/-- The frame is on some stack. -/
def On (s : St) (f : Frame) : Prop := ∃ t, f ∈ s.th t

/-- Upstream `d` is with guard `g`, or released. -/
def Kept (s : St) (g d : Nat) : Prop := d ∈ s.ups g ∨ Ev.released d ∈ s.log

/-- What holds of call `c` of subscription `k` with `n0` when it only has to dispose of the guards `cl`. -/
structure Owed (cfg : Cfg) (s : St) (c k : Nat) (n0 : Note) (cl : List Nat) : Prop where
  last : n0.last = true → Ev.told c k n0 ∈ s.log → ∀ g ∈ (cfg.sub k).guards, s.flag g = true ∨ g ∈ cl
  thrown : n0 = .next → Ev.told c k .error ∈ s.log → ∀ g, (cfg.sub k).guards.getLast? = some g → s.flag g = true ∨ g ∈ cl
  up : ∀ d, n0 = .up d → ∀ g ∈ (cfg.sub k).guards, cfg.ext g = true → Kept s g d
  heard : (∀ d, n0 ≠ .up d) → Ev.told c k n0 ∈ s.log ∨ ∃ g ∈ (cfg.sub k).guards, s.flag g = true

/-- How the note and the guards to be disposed of go together, when `gs` are still to come. -/
def Way (cfg : Cfg) (k : Nat) (n0 n : Note) (gs cl : List Nat) : Prop :=
  (n = n0 ∧ (n.last = true → (cfg.sub k).guards = cl.reverse ++ gs)) ∨
  (n0 = .next ∧ n = .error ∧ ∀ g, (cfg.sub k).guards.getLast? = some g → g ∈ cl ++ gs)

/-- What holds of a frame, by its phase. -/
def PhOk (cfg : Cfg) (s : St) (c k : Nat) (n0 : Note) : Ph → Prop
  | .at gs n cl => (∃ ds, (cfg.sub k).guards = ds ++ gs) ∧ Way cfg k n0 n gs cl ∧ (n.last = true → Ev.told c k n ∉ s.log) ∧
      (n0 = .next → Ev.told c k .error ∉ s.log) ∧
      (∀ d, n = .up d → n0 = .up d ∧ ∀ g ∈ (cfg.sub k).guards, cfg.ext g = true → g ∈ gs ∨ Kept s g d) ∧
      (∀ d, n0 = .up d → n = .up d) ∧ (n ≠ n0 → Ev.told c k n0 ∈ s.log)
  | .add g gs d => n0 = .up d ∧ (∃ ds, (cfg.sub k).guards = ds ++ g :: gs) ∧
      (∀ h ∈ (cfg.sub k).guards, cfg.ext h = true → h ∈ g :: gs ∨ Kept s h d)
  | .run n cl => Ev.told c k n ∈ s.log ∧ (∀ d, n ≠ .up d) ∧ (∀ d, n0 ≠ .up d) ∧ Way cfg k n0 n [] cl ∧ (n = .next → Ev.told c k .error ∉ s.log) ∧
      Ev.told c k n0 ∈ s.log
  | .shut cl => Owed cfg s c k n0 cl
  | .free g cl => s.flag g = true ∧ Owed cfg s c k n0 cl

/-- What holds of a frame. -/
def FrameOk (cfg : Cfg) (s : St) (f : Frame) : Prop :=
  match f.who with
  | none => (∃ cl, f.ph = .shut cl) ∨ ∃ g cl, f.ph = .free g cl
  | some (c, k, n0) => c < s.calls ∧ Ev.begun c k n0 ∈ s.log ∧ PhOk cfg s c k n0 f.ph

/-- The number of the call a frame belongs to. -/
def Frame.id (f : Frame) : Option Nat := f.who.map (·.1)

/-- The numbers of the calls on a stack. -/
def ids (fs : List Frame) : List Nat := fs.filterMap Frame.id

/-- Monotone changes. -/
structure Mono (s s' : St) : Prop where
  calls : s.calls ≤ s'.calls
  log : ∀ e ∈ s.log, e ∈ s'.log
  flag : ∀ g, s.flag g = true → s'.flag g = true
  kept : ∀ g d, Kept s g d → Kept s' g d

theorem Mono.refl (s : St) : Mono s s := ⟨Nat.le_refl _, fun _ h => h, fun _ h => h, fun _ _ h => h⟩

theorem Owed.mono {cfg s s' c k n0 cl} (h : Owed cfg s c k n0 cl) (m : Mono s s')
    (ht : ∀ n, Ev.told c k n ∈ s'.log → Ev.told c k n ∈ s.log) : Owed cfg s' c k n0 cl where
  last h1 h2 g hg := (h.last h1 (ht _ h2) g hg).imp (m.flag g) id
  thrown h1 h2 g hg := (h.thrown h1 (ht _ h2) g hg).imp (m.flag g) id
  up d h1 g hg he := m.kept _ _ (h.up d h1 g hg he)
  heard h1 := (h.heard h1).imp (m.log _) (fun ⟨g, hg, hf⟩ => ⟨g, hg, m.flag g hf⟩)

theorem PhOk.mono {cfg s s' c k n0 ph} (h : PhOk cfg s c k n0 ph) (m : Mono s s')
    (ht : ∀ n, Ev.told c k n ∈ s'.log → Ev.told c k n ∈ s.log) : PhOk cfg s' c k n0 ph := by
  cases ph with
  | «at» gs n cl =>
    obtain ⟨h1, h2, h3, h4, h5, h6, h7⟩ := h
    exact ⟨h1, h2, fun a b => h3 a (ht _ b), fun a b => h4 a (ht _ b),
      fun d hd => ⟨(h5 d hd).1, fun g hg he => ((h5 d hd).2 g hg he).imp id (m.kept _ _)⟩, h6, fun a => m.log _ (h7 a)⟩
  | add g gs d =>
    obtain ⟨h1, h2, h3⟩ := h
    exact ⟨h1, h2, fun g hg he => (h3 g hg he).imp id (m.kept _ _)⟩
  | run n cl => 
    obtain ⟨h1, h2, h3, h4, h5, h6⟩ := h
    exact ⟨m.log _ h1, h2, h3, h4, fun a b => h5 a (ht _ b), m.log _ h6⟩
  | shut cl => exact Owed.mono h m ht
  | free g cl => exact ⟨m.flag _ h.1, h.2.mono m ht⟩

/-- The invariant. -/
structure Inv (cfg : Cfg) (s : St) : Prop where
  flags : ∀ g, s.flag g = true ↔ Ev.shut g ∈ s.log
  frames : ∀ f, On s f → FrameOk cfg s f
  begun : ∀ c k n, Ev.begun c k n ∈ s.log → c < s.calls ∧ ∀ k' n', Ev.begun c k' n' ∈ s.log → k' = k ∧ n' = n
  told : ∀ c k n, Ev.told c k n ∈ s.log → ∃ n0, Ev.begun c k n0 ∈ s.log
  nodup : ∀ t, (ids (s.th t)).Nodup
  apart : ∀ t u c, t ≠ u → c ∈ ids (s.th t) → c ∉ ids (s.th u)
  done : ∀ c, Ev.done c ∈ s.log → (∀ t, c ∉ ids (s.th t)) ∧ ∀ k n0, Ev.begun c k n0 ∈ s.log → Owed cfg s c k n0 []
  doneOf : ∀ c, Ev.done c ∈ s.log → ∃ k n, Ev.begun c k n ∈ s.log
  open_ : ∀ c k n, Ev.begun c k n ∈ s.log → Ev.done c ∉ s.log → s.dead = true ∨ ∃ t, c ∈ ids (s.th t)
  late : ∀ c k n g, Before s.log (.shut g) (.begun c k n) → g ∈ (cfg.sub k).guards →
    (∀ k' n', Ev.told c k' n' ∉ s.log) ∧ ∀ ph, On s ⟨some (c, k, n), ph⟩ → ph = .at (cfg.sub k).guards n [] ∨ ph = .shut []
  ups : ∀ g, cfg.ext g = true → s.flag g = true → s.ups g ≠ [] → ∃ who cl, On s ⟨who, .free g cl⟩

theorem on_put {s : St} {t : Nat} {f0 : Frame} {rest new : List Frame} (h0 : s.th t = f0 :: rest) {f : Frame}
    (h : On (s.put t (new ++ rest)) f) : f ∈ new ∨ On s f := by
  obtain ⟨u, hu⟩ := h
  simp only [St.put] at hu
  split at hu
  · rcases List.mem_append.1 hu with h1 | h1
    · exact .inl h1
    · exact .inr ⟨t, by rw [h0]; exact List.mem_cons_of_mem _ h1⟩
  · exact .inr ⟨u, hu⟩

/-- An event that is neither the beginning nor the return of a call. -/
def Ev.mid : Ev → Bool
  | .begun .. | .done _ => false
  | _ => true

theorem before_append {es : List Ev} {a b : Ev} : ∀ {log : List Ev}, b ∉ es → Before (log ++ es) a b → Before log a b := by
  induction es with
  | nil => intro log _ h; simpa using h
  | cons e es ih =>
    intro log hb h
    have h' : Before ((log ++ [e]) ++ es) a b := by simpa using h
    rcases before_snoc.1 (ih (fun hh => hb (by simp [hh])) h') with h1 | ⟨rfl, _⟩
    · exact h1
    · simp at hb

/-- The innermost call of thread `t` makes a step and goes on. -/
theorem Inv.replace {cfg : Cfg} {s s' : St} {t : Nat} {who : Option (Nat × Nat × Note)} {ph ph' : Ph} {rest : List Frame}
    {es : List Ev} (h : Inv cfg s) (h0 : s.th t = ⟨who, ph⟩ :: rest) (hth : s'.th = (s.put t (⟨who, ph'⟩ :: rest)).th)
    (hcalls : s'.calls = s.calls) (hdead : s.dead = true → s'.dead = true) (hlog : s'.log = s.log ++ es)
    (hmid : ∀ e ∈ es, e.mid = true) (htold : ∀ c k n, Ev.told c k n ∈ es → ∃ n0, who = some (c, k, n0))
    (hflag : ∀ g, s'.flag g = true ↔ Ev.shut g ∈ s'.log) (hm : Mono s s') (hok : FrameOk cfg s' ⟨who, ph'⟩)
    (hlate : ∀ c k n g, who = some (c, k, n) → g ∈ (cfg.sub k).guards → s.flag g = true →
      (ph = .at (cfg.sub k).guards n [] ∨ ph = .shut []) → (∀ k' n', Ev.told c k' n' ∉ es) ∧ ph' = .shut [])
    (hups : ∀ g, cfg.ext g = true → s'.flag g = true → s'.ups g ≠ [] →
      (∃ cl, ph' = .free g cl) ∨ (s.flag g = true ∧ s.ups g ≠ [] ∧ ∀ cl, ph ≠ .free g cl)) : Inv cfg s' := by
  have hon : ∀ f, On s' f → f = ⟨who, ph'⟩ ∨ (On s f ∧ (∀ c, f.id = some c → who.map (·.1) ≠ some c)) := by
    intro f ⟨u, hu⟩
    rw [hth] at hu
    simp only [St.put] at hu
    split at hu
    · rename_i hut
      rcases List.mem_cons.1 hu with rfl | hu
      · exact .inl rfl
      · refine .inr ⟨⟨t, by rw [h0]; simp [hu]⟩, fun c hc hw => ?_⟩
        have := h.nodup t
        rw [h0] at this
        have hid : Frame.id ⟨who, ph⟩ = some c := hw
        simp only [ids, List.filterMap_cons, hid] at this
        exact (List.nodup_cons.1 this).1 (List.mem_filterMap.2 ⟨f, hu, hc⟩)
    · rename_i hut
      refine .inr ⟨⟨u, hu⟩, fun c hc hw => ?_⟩
      have h1 : c ∈ ids (s.th u) := List.mem_filterMap.2 ⟨f, hu, hc⟩
      have h2 : c ∈ ids (s.th t) := by
        rw [h0]
        exact List.mem_filterMap.2 ⟨⟨who, ph⟩, by simp, hw⟩
      exact h.apart u t c hut h1 h2
  have hids : ∀ u, ids (s'.th u) = ids (s.th u) := by
    intro u
    rw [hth]
    simp only [St.put]
    split
    · rename_i hut; subst hut; rw [h0]; simp only [ids, List.filterMap_cons, Frame.id]
    · rfl
  have hbeg : ∀ c k n, Ev.begun c k n ∈ s'.log ↔ Ev.begun c k n ∈ s.log := by
    intro c k n
    rw [hlog, List.mem_append]
    exact ⟨fun hh => hh.elim id (fun hh => by have := hmid _ hh; simp [Ev.mid] at this), .inl⟩
  have hdone : ∀ c, Ev.done c ∈ s'.log ↔ Ev.done c ∈ s.log := by
    intro c
    rw [hlog, List.mem_append]
    exact ⟨fun hh => hh.elim id (fun hh => by have := hmid _ hh; simp [Ev.mid] at this), .inl⟩
  have htold' : ∀ c k n, who.map (·.1) ≠ some c → Ev.told c k n ∈ s'.log → Ev.told c k n ∈ s.log := by
    intro c k n hw hh
    rw [hlog, List.mem_append] at hh
    refine hh.elim id (fun hh => ?_)
    obtain ⟨n0, rfl⟩ := htold _ _ _ hh
    exact absurd rfl hw
  have hbef : ∀ a c k n, Before s'.log a (.begun c k n) → Before s.log a (.begun c k n) := by
    intro a c k n hb
    rw [hlog] at hb
    exact before_append (fun hh => by have := hmid _ hh; simp [Ev.mid] at this) hb
  refine ⟨hflag, ?_, ?_, ?_, ?_, ?_, ?_, ?_, ?_, ?_, ?_⟩
  · intro f hf
    rcases hon f hf with rfl | ⟨hf, hw⟩
    · exact hok
    · have := h.frames f hf
      obtain ⟨w, p⟩ := f
      cases w with
      | none => exact this
      | some x =>
        obtain ⟨c, k, n0⟩ := x
        obtain ⟨h1, h2, h3⟩ := this
        exact ⟨Nat.lt_of_lt_of_le h1 hm.calls, hm.log _ h2, h3.mono hm (fun n hn => htold' _ _ _ (hw c rfl) hn)⟩
  · intro c k n hh
    have := h.begun c k n ((hbeg _ _ _).1 hh)
    exact ⟨by rw [hcalls]; exact this.1, fun k' n' h' => this.2 k' n' ((hbeg _ _ _).1 h')⟩
  · intro c k n hh
    rw [hlog, List.mem_append] at hh
    rcases hh with hh | hh
    · obtain ⟨n0, h1⟩ := h.told c k n hh
      exact ⟨n0, (hbeg _ _ _).2 h1⟩
    · obtain ⟨n0, rfl⟩ := htold _ _ _ hh
      have := h.frames ⟨some (c, k, n0), ph⟩ ⟨t, by rw [h0]; simp⟩
      exact ⟨n0, (hbeg _ _ _).2 this.2.1⟩
  · intro u; rw [hids]; exact h.nodup u
  · intro u v c; rw [hids, hids]; exact h.apart u v c
  · intro c hc
    have := h.done c ((hdone c).1 hc)
    refine ⟨fun u => by rw [hids]; exact this.1 u, fun k n0 hb => (this.2 k n0 ((hbeg _ _ _).1 hb)).mono hm (fun n hn => htold' _ _ _ ?_ hn)⟩
    intro hw
    refine this.1 t ?_
    rw [h0]
    exact List.mem_filterMap.2 ⟨⟨who, ph⟩, by simp, hw⟩
  · intro c hc
    obtain ⟨k, n, hb⟩ := h.doneOf c ((hdone c).1 hc)
    exact ⟨k, n, (hbeg _ _ _).2 hb⟩
  · intro c k n hb hd
    rcases h.open_ c k n ((hbeg _ _ _).1 hb) (fun hh => hd ((hdone c).2 hh)) with h1 | ⟨u, h1⟩
    · exact .inl (hdead h1)
    · exact .inr ⟨u, by rw [hids]; exact h1⟩
  · intro c k n g hb hg
    have hb' := hbef _ _ _ _ hb
    have hl := h.late c k n g hb' hg
    have hfl : s.flag g = true := by
      rw [h.flags]
      obtain ⟨a, b, d, he⟩ := hb'
      rw [he]; simp
    have hbm : Ev.begun c k n ∈ s.log := by
      obtain ⟨a, b, d, he⟩ := hb'
      rw [he]; simp
    by_cases hw : who.map (·.1) = some c
    · cases who with
      | none => simp at hw
      | some x =>
        obtain ⟨c', k', n'⟩ := x
        simp only [Option.map_some, Option.some.injEq] at hw
        subst hw
        have hfo := h.frames ⟨some (c', k', n'), ph⟩ ⟨t, by rw [h0]; simp⟩
        obtain ⟨rfl, rfl⟩ := (h.begun _ _ _ hbm).2 _ _ hfo.2.1
        have := hlate c' k' n' g rfl hg hfl (hl.2 ph ⟨t, by rw [h0]; simp⟩)
        refine ⟨fun k'' n'' hh => ?_, fun p hp => ?_⟩
        · rw [hlog, List.mem_append] at hh
          exact hh.elim (hl.1 _ _) (this.1 _ _)
        · rcases hon _ hp with he | ⟨_, hne⟩
          · right; rw [← this.2]; injection he
          · exact absurd rfl (hne c' rfl)
    · refine ⟨fun k' n' hh => hl.1 k' n' (htold' _ _ _ hw hh), fun p hp => ?_⟩
      rcases hon _ hp with he | ⟨hp, _⟩
      · exfalso; apply hw; injection he with he _; rw [← he]; rfl
      · exact hl.2 p hp
  · intro g hg hfl hu
    rcases hups g hg hfl hu with ⟨cl, hp⟩ | ⟨h1, h2, h3⟩
    · exact ⟨who, cl, t, by rw [hth]; simp [St.put, hp]⟩
    · obtain ⟨w, cl, u, hu⟩ := h.ups g hg h1 h2
      refine ⟨w, cl, u, ?_⟩
      rw [hth]
      simp only [St.put]
      split
      · rename_i hut; subst hut
        rw [h0] at hu
        rcases List.mem_cons.1 hu with he | hu
        · injection he with _ he; exact absurd he.symm (h3 cl)
        · simp [hu]
      · exact hu

theorem release_spec (s : St) (d : Nat) : ∃ es, s.release d = { s with log := s.log ++ es } ∧ (∀ e ∈ es, ∃ x, e = .released x) ∧
    Ev.released d ∈ s.log ++ es := by
  unfold St.release
  by_cases h : Ev.released d ∈ s.log
  · rw [if_pos h]; exact ⟨[], by simp, by simp, by simpa using h⟩
  · rw [if_neg h]; exact ⟨[.released d], rfl, by simp, by simp⟩

theorem releases_spec (l : List Nat) : ∀ s : St, ∃ es, l.foldl St.release s = { s with log := s.log ++ es } ∧
    (∀ e ∈ es, ∃ x, e = .released x) ∧ ∀ d ∈ l, Ev.released d ∈ s.log ++ es := by
  induction l with
  | nil => intro s; exact ⟨[], by simp, by simp, by simp⟩
  | cons d l ih =>
    intro s
    obtain ⟨e1, h1, h2, h3⟩ := release_spec s d
    obtain ⟨e2, h4, h5, h6⟩ := ih (s.release d)
    refine ⟨e1 ++ e2, ?_, ?_, ?_⟩
    · rw [List.foldl_cons, h4, h1]; simp
    · intro e he
      rcases List.mem_append.1 he with he | he
      · exact h2 e he
      · exact h5 e he
    · intro x hx
      rw [h1] at h6
      simp only at h6
      rcases List.mem_cons.1 hx with rfl | hx
      · rw [← List.append_assoc]; exact List.mem_append_left _ h3
      · rw [← List.append_assoc]; exact h6 x hx

/-- A call returns. -/
theorem Inv.pop {cfg : Cfg} {s s' : St} {t : Nat} {who : Option (Nat × Nat × Note)} {rest : List Frame} (h : Inv cfg s)
    (h0 : s.th t = ⟨who, .shut []⟩ :: rest) (hth : s'.th = (s.put t rest).th) (hcalls : s'.calls = s.calls) (hdead : s'.dead = s.dead)
    (hflag : s'.flag = s.flag) (hu : s'.ups = s.ups)
    (hlog : s'.log = match who with | some (c, _, _) => s.log ++ [.done c] | none => s.log) : Inv cfg s' := by
  have hsub : ∀ e, e ∈ s.log → e ∈ s'.log := by
    intro e he; rw [hlog]; cases who <;> simp [he]
  have hev : ∀ e, (∀ c, e ≠ .done c) → (e ∈ s'.log ↔ e ∈ s.log) := by
    intro e he
    refine ⟨fun hh => ?_, hsub e⟩
    rw [hlog] at hh
    cases who with
    | none => exact hh
    | some x => simpa [he x.1] using hh
  have hm : Mono s s' := ⟨Nat.le_of_eq hcalls.symm, hsub, fun g hg => by rw [hflag]; exact hg,
    fun g d hk => hk.imp (fun hh => by rw [hu]; exact hh) (hsub _)⟩
  have hon : ∀ f, On s' f → On s f := by
    intro f ⟨u, hu⟩
    rw [hth] at hu
    simp only [St.put] at hu
    split at hu
    · exact ⟨t, by rw [h0]; simp [hu]⟩
    · exact ⟨u, hu⟩
  have hids : ∀ u c, c ∈ ids (s'.th u) → c ∈ ids (s.th u) := by
    intro u c
    rw [hth]
    simp only [St.put]
    split
    · rename_i hut; subst hut; rw [h0]
      intro hc
      obtain ⟨f, hf, hc⟩ := List.mem_filterMap.1 hc
      exact List.mem_filterMap.2 ⟨f, List.mem_cons_of_mem _ hf, hc⟩
    · exact id
  have hbef : ∀ a c k n, Before s'.log a (.begun c k n) → Before s.log a (.begun c k n) := by
    intro a c k n hb
    rw [hlog] at hb
    cases who with
    | none => exact hb
    | some x => rcases before_snoc.1 hb with hb | ⟨hb, _⟩
                · exact hb
                · cases hb
  have hnod := h.nodup t
  rw [h0] at hnod
  refine ⟨?_, ?_, ?_, ?_, ?_, ?_, ?_, ?_, ?_, ?_, ?_⟩
  · intro g; rw [hflag, h.flags, hev _ (fun _ hh => by cases hh)]
  · intro f hf
    have := h.frames f (hon f hf)
    obtain ⟨w, p⟩ := f
    cases w with
    | none => exact this
    | some x =>
      obtain ⟨c, k, n0⟩ := x
      obtain ⟨h1, h2, h3⟩ := this
      exact ⟨by rw [hcalls]; exact h1, hsub _ h2, h3.mono hm (fun n hn => (hev _ (fun _ hh => by cases hh)).1 hn)⟩
  · intro c k n hh
    rw [hev _ (fun _ hh => by cases hh)] at hh
    have := h.begun c k n hh
    exact ⟨by rw [hcalls]; exact this.1, fun k' n' h' => this.2 k' n' ((hev _ (fun _ hh => by cases hh)).1 h')⟩
  · intro c k n hh
    obtain ⟨n0, h1⟩ := h.told c k n ((hev _ (fun _ hh => by cases hh)).1 hh)
    exact ⟨n0, hsub _ h1⟩
  · intro u
    rw [hth]
    simp only [St.put]
    split
    · simp only [ids, List.filterMap_cons] at hnod
      split at hnod
      · exact hnod
      · exact (List.nodup_cons.1 hnod).2
    · exact h.nodup u
  · intro u v c hne hu hv
    exact h.apart u v c hne (hids _ _ hu) (hids _ _ hv)
  · intro c hc
    have key : (Ev.done c ∈ s.log) ∨ ∃ k n0, who = some (c, k, n0) := by
      rw [hlog] at hc
      cases who with
      | none => exact .inl hc
      | some x =>
        rcases List.mem_append.1 hc with hc | hc
        · exact .inl hc
        · simp at hc; subst hc; exact .inr ⟨x.2.1, x.2.2, rfl⟩
    rcases key with hc | ⟨k, n0, rfl⟩
    · have := h.done c hc
      exact ⟨fun u hh => this.1 u (hids _ _ hh), fun k n0 hb => (this.2 k n0 ((hev _ (fun _ hh => by cases hh)).1 hb)).mono hm
        (fun n hn => (hev _ (fun _ hh => by cases hh)).1 hn)⟩
    · have hfo := h.frames ⟨some (c, k, n0), .shut []⟩ ⟨t, by rw [h0]; simp⟩
      refine ⟨fun u hh => ?_, fun k' n' hb => ?_⟩
      · by_cases hut : u = t
        · subst hut
          rw [hth] at hh
          simp only [St.put, if_true] at hh
          simp only [ids, List.filterMap_cons, Frame.id, Option.map_some] at hnod
          exact (List.nodup_cons.1 hnod).1 hh
        · refine h.apart t u c (fun e => hut e.symm) ?_ (hids _ _ hh)
          rw [h0]
          exact List.mem_filterMap.2 ⟨⟨some (c, k, n0), .shut []⟩, by simp, rfl⟩
      · obtain ⟨rfl, rfl⟩ := (h.begun c k n0 hfo.2.1).2 k' n' ((hev _ (fun _ hh => by cases hh)).1 hb)
        exact Owed.mono hfo.2.2 hm (fun n hn => (hev _ (fun _ hh => by cases hh)).1 hn)
  · intro c hc
    rw [hlog] at hc
    cases who with
    | none =>
      obtain ⟨k, n, hb⟩ := h.doneOf c hc
      exact ⟨k, n, hsub _ hb⟩
    | some x =>
      rcases List.mem_append.1 hc with hc | hc
      · obtain ⟨k, n, hb⟩ := h.doneOf c hc
        exact ⟨k, n, hsub _ hb⟩
      · obtain ⟨c', k, n0⟩ := x
        simp at hc; subst hc
        exact ⟨k, n0, hsub _ (h.frames ⟨some (c, k, n0), .shut []⟩ ⟨t, by rw [h0]; simp⟩).2.1⟩
  · intro c k n hb hd
    rcases h.open_ c k n ((hev _ (fun _ hh => by cases hh)).1 hb) (fun hh => hd (hsub _ hh)) with h1 | ⟨u, h1⟩
    · exact .inl (by rw [hdead]; exact h1)
    · refine .inr ⟨u, ?_⟩
      rw [hth]
      simp only [St.put]
      split
      · rename_i hut; subst hut
        rw [h0] at h1
        obtain ⟨f, hf, hc⟩ := List.mem_filterMap.1 h1
        rcases List.mem_cons.1 hf with rfl | hf
        · exfalso; apply hd
          rw [hlog]
          cases who with
          | none => simp [Frame.id] at hc
          | some x => simp only [Frame.id, Option.map_some, Option.some.injEq] at hc; subst hc; simp
        · exact List.mem_filterMap.2 ⟨f, hf, hc⟩
      · exact h1
  · intro c k n g hb hg
    have hl := h.late c k n g (hbef _ _ _ _ hb) hg
    exact ⟨fun k' n' hh => hl.1 k' n' ((hev _ (fun _ hh => by cases hh)).1 hh), fun p hp => hl.2 p (hon _ hp)⟩
  · intro g hg hfl hn
    rw [hflag] at hfl; rw [hu] at hn
    obtain ⟨w, cl, u, huu⟩ := h.ups g hg hfl hn
    refine ⟨w, cl, u, ?_⟩
    rw [hth]
    simp only [St.put]
    split
    · rename_i hut; subst hut
      rw [h0] at huu
      rcases List.mem_cons.1 huu with he | hh
      · injection he with _ he; cases he
      · exact hh
    · exact huu

/-- A call begins. -/
theorem Inv.push {cfg : Cfg} {s s' : St} {t : Nat} {who : Option (Nat × Nat × Note)} {ph : Ph} (h : Inv cfg s)
    (hth : s'.th = (s.put t (⟨who, ph⟩ :: s.th t)).th) (hflag : s'.flag = s.flag) (hu : s'.ups = s.ups) (hdead : s'.dead = s.dead)
    (hw : match who with
      | some (c, k, n) => c = s.calls ∧ ph = .at (cfg.sub k).guards n [] ∧ s'.calls = s.calls + 1 ∧ s'.log = s.log ++ [.begun c k n]
      | none => (∃ cl, ph = .shut cl) ∧ s'.calls = s.calls ∧ s'.log = s.log) : Inv cfg s' := by
  have hsub : ∀ e, e ∈ s.log → e ∈ s'.log := by
    intro e he
    cases who with
    | none => rw [hw.2.2]; exact he
    | some x => rw [hw.2.2.2]; simp [he]
  have hev : ∀ e, (∀ c k n, e ≠ .begun c k n) → (e ∈ s'.log ↔ e ∈ s.log) := by
    intro e he
    refine ⟨fun hh => ?_, hsub e⟩
    cases who with
    | none => rwa [hw.2.2] at hh
    | some x => rw [hw.2.2.2] at hh; simpa [he x.1 x.2.1 x.2.2] using hh
  have hcalls : s.calls ≤ s'.calls := by
    cases who with
    | none => rw [hw.2.1]; exact Nat.le_refl _
    | some x => rw [hw.2.2.1]; omega
  have hm : Mono s s' := ⟨hcalls, hsub, fun g hg => by rw [hflag]; exact hg,
    fun g d hk => hk.imp (fun hh => by rw [hu]; exact hh) (hsub _)⟩
  have hon : ∀ f, On s' f → f = ⟨who, ph⟩ ∨ On s f := by
    intro f ⟨u, hu⟩
    rw [hth] at hu
    simp only [St.put] at hu
    split at hu
    · rcases List.mem_cons.1 hu with rfl | hu
      · exact .inl rfl
      · exact .inr ⟨t, hu⟩
    · exact .inr ⟨u, hu⟩
  have hlt : ∀ u c, c ∈ ids (s.th u) → c < s.calls := by
    intro u c hc
    obtain ⟨f, hf, hc⟩ := List.mem_filterMap.1 hc
    have := h.frames f ⟨u, hf⟩
    obtain ⟨w, p⟩ := f
    cases w with
    | none => simp [Frame.id] at hc
    | some x =>
      obtain ⟨c', k, n0⟩ := x
      simp only [Frame.id, Option.map_some, Option.some.injEq] at hc
      subst hc
      exact this.1
  have hids : ∀ u, ids (s'.th u) = if u = t then (who.map (·.1)).toList ++ ids (s.th t) else ids (s.th u) := by
    intro u
    rw [hth]
    simp only [St.put]
    split
    · simp only [ids, List.filterMap_cons, Frame.id]
      cases who <;> simp
    · rfl
  have hbeg : ∀ c k n, Ev.begun c k n ∈ s'.log → Ev.begun c k n ∈ s.log ∨ who = some (c, k, n) := by
    intro c k n hh
    cases who with
    | none => rw [hw.2.2] at hh; exact .inl hh
    | some x =>
      rw [hw.2.2.2] at hh
      rcases List.mem_append.1 hh with hh | hh
      · exact .inl hh
      · right; simp at hh; obtain ⟨rfl, rfl, rfl⟩ := hh; rfl
  have hid : ∀ c, who.map (·.1) = some c → c = s.calls := by
    intro c hc
    cases who with
    | none => simp at hc
    | some x => simp only [Option.map_some, Option.some.injEq] at hc; subst hc; exact hw.1
  refine ⟨?_, ?_, ?_, ?_, ?_, ?_, ?_, ?_, ?_, ?_, ?_⟩
  · intro g; rw [hflag, h.flags, hev _ (fun _ _ _ hh => by cases hh)]
  · intro f hf
    rcases hon f hf with rfl | hf
    · cases who with
      | none => exact .inl hw.1
      | some x =>
        obtain ⟨c, k, n⟩ := x
        obtain ⟨h1, h2, h3, h4⟩ := hw
        refine ⟨by rw [h1, h3]; exact Nat.lt_succ_self _, by rw [h4]; simp, ?_⟩
        have hno : ∀ m, Ev.told c k m ∉ s'.log := by
          intro m hm
          rw [hev _ (fun _ _ _ hh => by cases hh)] at hm
          obtain ⟨n0, hb⟩ := h.told _ _ _ hm
          have := (h.begun _ _ _ hb).1
          omega
        rw [h2]
        exact ⟨⟨[], rfl⟩, .inl ⟨rfl, fun _ => rfl⟩, fun _ => hno _, fun _ => hno _, fun d hd => ⟨hd, fun g hg _ => .inl hg⟩, fun _ hd => hd, fun hh => absurd rfl hh⟩
    · have := h.frames f hf
      obtain ⟨w, p⟩ := f
      cases w with
      | none => exact this
      | some x =>
        obtain ⟨c, k, n0⟩ := x
        obtain ⟨h1, h2, h3⟩ := this
        exact ⟨Nat.lt_of_lt_of_le h1 hcalls, hsub _ h2, h3.mono hm (fun n hn => (hev _ (fun _ _ _ hh => by cases hh)).1 hn)⟩
  · intro c k n hh
    rcases hbeg _ _ _ hh with hh | rfl
    · have := h.begun c k n hh
      refine ⟨Nat.lt_of_lt_of_le this.1 hcalls, fun k' n' h' => ?_⟩
      rcases hbeg _ _ _ h' with h' | rfl
      · exact this.2 k' n' h'
      · have := hid c rfl; omega
    · have hc := hid c rfl
      refine ⟨by rw [hw.2.2.1]; omega, fun k' n' h' => ?_⟩
      rcases hbeg _ _ _ h' with h' | h'
      · have := (h.begun _ _ _ h').1; omega
      · simp at h'; exact ⟨h'.1.symm, h'.2.symm⟩
  · intro c k n hh
    obtain ⟨n0, h1⟩ := h.told c k n ((hev _ (fun _ _ _ hh => by cases hh)).1 hh)
    exact ⟨n0, hsub _ h1⟩
  · intro u
    rw [hids]
    split
    · cases hwho : who with
      | none => simpa using h.nodup t
      | some x =>
        simp only [Option.map_some, Option.toList_some, List.cons_append, List.nil_append, List.nodup_cons]
        refine ⟨fun hh => ?_, h.nodup t⟩
        have := hlt t _ hh
        have := hid x.1 (by rw [hwho]; rfl)
        omega
    · exact h.nodup u
  · have hx : ∀ u c, c ∈ ids (s'.th u) → (u = t ∧ c = s.calls) ∨ c ∈ ids (s.th u) := by
      intro u c hc
      rw [hids] at hc
      split at hc
      · rename_i hut; subst hut
        rcases List.mem_append.1 hc with hc | hc
        · exact .inl ⟨rfl, hid c (by simpa using hc)⟩
        · exact .inr hc
      · exact .inr hc
    intro u v c hne hu hv
    rcases hx u c hu with ⟨rfl, rfl⟩ | hu
    · rcases hx v _ hv with ⟨rfl, _⟩ | hv
      · exact hne rfl
      · have := hlt _ _ hv; omega
    · rcases hx v c hv with ⟨rfl, rfl⟩ | hv
      · have := hlt _ _ hu; omega
      · exact h.apart u v c hne hu hv
  · intro c hc
    rw [hev _ (fun _ _ _ hh => by cases hh)] at hc
    have := h.done c hc
    obtain ⟨k0, n1, hb0⟩ := h.doneOf c hc
    have hc0 := (h.begun _ _ _ hb0).1
    refine ⟨fun u hh => ?_, fun k n0 hb => ?_⟩
    · rw [hids] at hh
      split at hh
      · rcases List.mem_append.1 hh with hh | hh
        · have := hid c (by simpa using hh); omega
        · exact this.1 t hh
      · exact this.1 u hh
    · rcases hbeg _ _ _ hb with hb | rfl
      · exact (this.2 k n0 hb).mono hm (fun n hn => (hev _ (fun _ _ _ hh => by cases hh)).1 hn)
      · have := hid c rfl; omega
  · intro c hc
    rw [hev _ (fun _ _ _ hh => by cases hh)] at hc
    obtain ⟨k, n, hb⟩ := h.doneOf c hc
    exact ⟨k, n, hsub _ hb⟩
  · intro c k n hb hd
    rcases hbeg _ _ _ hb with hb | rfl
    · rcases h.open_ c k n hb (fun hh => hd (hsub _ hh)) with h1 | ⟨u, h1⟩
      · exact .inl (by rw [hdead]; exact h1)
      · refine .inr ⟨u, ?_⟩
        rw [hids]
        split
        · rename_i hut; subst hut; exact List.mem_append_right _ h1
        · exact h1
    · exact .inr ⟨t, by rw [hids]; simp⟩
  · intro c k n g hb hg
    have hb' : Before s.log (.shut g) (.begun c k n) ∨ who = some (c, k, n) := by
      cases who with
      | none => rw [hw.2.2] at hb; exact .inl hb
      | some x =>
        rw [hw.2.2.2] at hb
        rcases before_snoc.1 hb with hb | ⟨he, _⟩
        · exact .inl hb
        · right; injection he with e1 e2 e3; rw [← e1, ← e2, ← e3]
    rcases hb' with hb' | rfl
    · have hl := h.late c k n g hb' hg
      refine ⟨fun k' n' hh => hl.1 k' n' ((hev _ (fun _ _ _ hh => by cases hh)).1 hh), fun p hp => ?_⟩
      rcases hon _ hp with he | hp
      · injection he with he _
        have h1 : c < s.calls := (h.begun c k n (by obtain ⟨a, b, d, hh⟩ := hb'; rw [hh]; simp)).1
        have := hid c (by rw [← he]; rfl)
        omega
      · exact hl.2 p hp
    · have hc := hid c rfl
      refine ⟨fun k' n' hh => ?_, fun p hp => ?_⟩
      · rw [hev _ (fun _ _ _ hh => by cases hh)] at hh
        obtain ⟨n0, hb1⟩ := h.told _ _ _ hh
        have := (h.begun _ _ _ hb1).1
        omega
      · rcases hon _ hp with he | ⟨u, hp⟩
        · injection he with _ he; exact .inl (he.trans hw.2.1)
        · have := hlt u c (List.mem_filterMap.2 ⟨_, hp, rfl⟩)
          omega
  · intro g hg hfl hn
    rw [hflag] at hfl; rw [hu] at hn
    obtain ⟨w, cl, u, huu⟩ := h.ups g hg hfl hn
    refine ⟨w, cl, u, ?_⟩
    rw [hth]
    simp only [St.put]
    split
    · rename_i hut; subst hut; simp [huu]
    · exact huu

/-- Something is logged that concerns no call. -/
theorem Inv.note {cfg : Cfg} {s s' : St} {es : List Ev} (h : Inv cfg s) (hth : s'.th = s.th) (hcalls : s'.calls = s.calls)
    (hflag : s'.flag = s.flag) (hu : s'.ups = s.ups) (hdead : s.dead = true → s'.dead = true) (hlog : s'.log = s.log ++ es)
    (hes : ∀ e ∈ es, e.mid = true ∧ (∀ c k n, e ≠ .told c k n) ∧ ∀ g, e ≠ .shut g) : Inv cfg s' := by
  have hsub : ∀ e, e ∈ s.log → e ∈ s'.log := by
    intro e he; rw [hlog]; simp [he]
  have hb : ∀ c k n, Ev.begun c k n ∈ s'.log → Ev.begun c k n ∈ s.log := by
    intro c k n hh
    rw [hlog, List.mem_append] at hh
    exact hh.elim id (fun hh => by have := (hes _ hh).1; simp [Ev.mid] at this)
  have hd : ∀ c, Ev.done c ∈ s'.log → Ev.done c ∈ s.log := by
    intro c hh
    rw [hlog, List.mem_append] at hh
    exact hh.elim id (fun hh => by have := (hes _ hh).1; simp [Ev.mid] at this)
  have ht : ∀ c k n, Ev.told c k n ∈ s'.log → Ev.told c k n ∈ s.log := by
    intro c k n hh
    rw [hlog, List.mem_append] at hh
    exact hh.elim id (fun hh => absurd rfl ((hes _ hh).2.1 c k n))
  have hs : ∀ g, Ev.shut g ∈ s'.log → Ev.shut g ∈ s.log := by
    intro g hh
    rw [hlog, List.mem_append] at hh
    exact hh.elim id (fun hh => absurd rfl ((hes _ hh).2.2 g))
  have hm : Mono s s' := ⟨Nat.le_of_eq hcalls.symm, hsub, fun g hg => by rw [hflag]; exact hg,
    fun g d hk => hk.imp (fun hh => by rw [hu]; exact hh) (hsub _)⟩
  have hon : ∀ f, On s' f ↔ On s f := by
    intro f; simp only [On, hth]
  refine ⟨?_, ?_, ?_, ?_, ?_, ?_, ?_, ?_, ?_, ?_, ?_⟩
  · intro g; rw [hflag, h.flags]; exact ⟨hsub _, hs g⟩
  · intro f hf
    have := h.frames f ((hon f).1 hf)
    obtain ⟨w, p⟩ := f
    cases w with
    | none => exact this
    | some x =>
      obtain ⟨c, k, n0⟩ := x
      obtain ⟨h1, h2, h3⟩ := this
      exact ⟨by rw [hcalls]; exact h1, hsub _ h2, h3.mono hm (fun n hn => ht _ _ _ hn)⟩
  · intro c k n hh
    have := h.begun c k n (hb _ _ _ hh)
    exact ⟨by rw [hcalls]; exact this.1, fun k' n' h' => this.2 k' n' (hb _ _ _ h')⟩
  · intro c k n hh
    obtain ⟨n0, h1⟩ := h.told c k n (ht _ _ _ hh)
    exact ⟨n0, hsub _ h1⟩
  · intro u; rw [hth]; exact h.nodup u
  · intro u v c; rw [hth]; exact h.apart u v c
  · intro c hc
    have := h.done c (hd c hc)
    exact ⟨fun u => by rw [hth]; exact this.1 u, fun k n0 hh => (this.2 k n0 (hb _ _ _ hh)).mono hm (fun n hn => ht _ _ _ hn)⟩
  · intro c hc
    obtain ⟨k, n, hh⟩ := h.doneOf c (hd c hc)
    exact ⟨k, n, hsub _ hh⟩
  · intro c k n hh hdd
    rcases h.open_ c k n (hb _ _ _ hh) (fun h1 => hdd (hsub _ h1)) with h1 | ⟨u, h1⟩
    · exact .inl (hdead h1)
    · exact .inr ⟨u, by rw [hth]; exact h1⟩
  · intro c k n g hh hg
    rw [hlog] at hh
    have hl := h.late c k n g (before_append (fun h1 => by have := (hes _ h1).1; simp [Ev.mid] at this) hh) hg
    exact ⟨fun k' n' h1 => hl.1 k' n' (ht _ _ _ h1), fun p hp => hl.2 p ((hon _).1 hp)⟩
  · intro g hg hfl hn
    rw [hflag] at hfl; rw [hu] at hn
    obtain ⟨w, cl, hf⟩ := h.ups g hg hfl hn
    exact ⟨w, cl, (hon _).2 hf⟩

theorem getLast_suffix {l : List Nat} {g : Nat} (h : l.getLast? = some g) : ∃ ds, l = ds ++ [g] := by
  obtain ⟨ds, h⟩ := List.getLast?_eq_some_iff.1 h
  exact ⟨ds, h⟩

/-- The monotonicity of changes which only add events and do not touch the upstreams. -/
theorem Mono.of {s s' : St} {es : List Ev} (hc : s'.calls = s.calls) (hl : s'.log = s.log ++ es)
    (hf : ∀ g, s.flag g = true → s'.flag g = true) (hu : s'.ups = s.ups) : Mono s s' where
  calls := Nat.le_of_eq hc.symm
  log e he := by rw [hl]; simp [he]
  flag := hf
  kept g d h := h.imp (fun h => by rw [hu]; exact h) (fun h => by rw [hl]; simp [h])

/-- A step that changes the innermost frame only. -/
theorem Inv.turn {cfg : Cfg} {s : St} {t : Nat} {who : Option (Nat × Nat × Note)} {ph ph' : Ph} {rest : List Frame}
    (h : Inv cfg s) (h0 : s.th t = ⟨who, ph⟩ :: rest) (hok : FrameOk cfg s ⟨who, ph'⟩)
    (hlate : ∀ c k n g, who = some (c, k, n) → g ∈ (cfg.sub k).guards → s.flag g = true →
      (ph = .at (cfg.sub k).guards n [] ∨ ph = .shut []) → ph' = .shut [])
    (hfree : ∀ g cl, ph ≠ .free g cl) : Inv cfg (s.put t (⟨who, ph'⟩ :: rest)) :=
  h.replace (es := []) h0 rfl rfl id (by simp [St.put]) (by simp) (by simp) h.flags (Mono.of (es := []) rfl (by simp [St.put]) (fun _ h => h) rfl)
    (by
      cases who with
      | none => exact hok
      | some x => exact ⟨hok.1, hok.2.1, hok.2.2.mono (Mono.of (es := []) rfl (by simp [St.put]) (fun _ h => h) rfl) (fun _ h => h)⟩)
    (fun c k n g h1 h2 h3 h4 => ⟨fun _ _ hh => by simp at hh, hlate c k n g h1 h2 h3 h4⟩)
    (fun g _ h2 h3 => .inr ⟨h2, h3, hfree g⟩)

theorem Inv.tell {cfg : Cfg} {s : St} {t c k : Nat} {n0 n : Note} {cl : List Nat} {rest : List Frame} (h : Inv cfg s)
    (h0 : s.th t = ⟨some (c, k, n0), .at [] n cl⟩ :: rest) : Inv cfg (s.tell cfg t c k n0 n cl rest) := by
  have hf := h.frames _ ⟨t, by rw [h0]; exact List.mem_cons_self ..⟩
  obtain ⟨f1, f2, ⟨_, f3, f4, f5, f6, f7, f8⟩⟩ := hf
  have hbase : (∀ d, n ≠ .up d) → Inv cfg ((s.say (.told c k n)).put t (⟨some (c, k, n0), .run n cl⟩ :: rest)) := by
    intro hn
    refine h.replace (es := [.told c k n]) h0 rfl rfl id rfl (by simp [Ev.mid]) (fun c' k' n' hh => by simp at hh; obtain ⟨rfl, rfl, rfl⟩ := hh; exact ⟨n0, rfl⟩) ?_ ?_ ?_ ?_ ?_
    · intro g
      rw [show ((s.say (.told c k n)).put t (⟨some (c, k, n0), .run n cl⟩ :: rest)).flag = s.flag from rfl, h.flags]
      simp [St.say, St.put]
    · exact Mono.of (es := [.told c k n]) rfl rfl (fun _ h => h) rfl
    · refine ⟨f1, by simp [St.put, St.say, f2], by simp [St.put, St.say], hn, ?_, f3, ?_, ?_⟩
      · intro d hd; exact hn d (f7 d hd)
      · rintro rfl hh
        have : n0 = .next := by
          rcases f3 with ⟨h1, _⟩ | ⟨h1, h2, _⟩
          · exact h1.symm
          · exact h1
        simp [St.put, St.say] at hh
        exact f5 this hh
      · by_cases he : n = n0
        · simp [St.put, St.say, he]
        · simp [St.put, St.say, f8 he]
    · intro c' k' n' g hw hg hfl hp
      injection hw with hw
      injection hw with e1 e2
      injection e2 with e2 e3
      subst e1 e2 e3
      rcases hp with hp | hp
      · injection hp with hp _ _; rw [← hp] at hg; simp at hg
      · cases hp
    · exact fun g _ h2 h3 => .inr ⟨h2, h3, fun _ hh => by cases hh⟩
  unfold St.tell
  split
  · rename_i d
    refine h.turn h0 ⟨f1, f2, ?_⟩ ?_ (fun _ _ hh => by cases hh)
    · obtain ⟨rfl, f9⟩ := f6 d rfl
      refine ⟨(fun hh => by simp [Note.last] at hh), (fun hh => by cases hh), fun d' hd' g hg he => ?_, fun hh => absurd rfl (hh d)⟩
      injection hd' with hd'; subst hd'
      exact (f9 g hg he).resolve_left (by simp)
    · intro c' k' n' g hw hg hfl hp
      injection hw with hw
      injection hw with e1 e2
      injection e2 with e2 e3
      subst e1 e2 e3
      rcases hp with hp | hp
      · injection hp with hp _ _; rw [← hp] at hg; simp at hg
      · cases hp
  · rename_i hn
    have := hbase (fun d hd => hn d hd)
    split
    · exact Inv.note (es := [.died]) this rfl rfl rfl rfl (fun _ => rfl) rfl (by simp [Ev.mid])
    · exact this

theorem Inv.at {cfg : Cfg} {s : St} {t : Nat} {who : Option (Nat × Nat × Note)} {g : Nat} {gs : List Nat} {n : Note} {cl : List Nat}
    {rest : List Frame} (h : Inv cfg s) (h0 : s.th t = ⟨who, .at (g :: gs) n cl⟩ :: rest) :
    Inv cfg (s.advance cfg t who rest (.at (g :: gs) n cl)) := by
  have hf := h.frames _ ⟨t, by rw [h0]; exact List.mem_cons_self ..⟩
  cases who with
  | none => rcases hf with ⟨_, hf⟩ | ⟨_, _, hf⟩ <;> cases hf
  | some x =>
    obtain ⟨c, k, n0⟩ := x
    obtain ⟨f1, f2, ⟨f0, f3, f4, f5, f6, f7, f8⟩⟩ := hf
    have howe : (g :: gs).any s.flag = true → (∀ d, n0 = .up d → Ev.released d ∈ s.log) → Owed cfg s c k n0 cl := by
      intro hany hr
      refine ⟨fun h1 h2 => ?_, fun h1 h2 => absurd h2 (f5 h1), fun d hd _ _ _ => .inr (hr d hd), fun _ => .inr ?_⟩
      rotate_left
      · obtain ⟨x, hx, hfx⟩ := List.any_eq_true.1 hany
        obtain ⟨ds, hds⟩ := f0
        exact ⟨x, by rw [hds]; exact List.mem_append_right _ hx, hfx⟩
      rcases f3 with ⟨rfl, _⟩ | ⟨rfl, _, _⟩
      · exact absurd h2 (f4 h1)
      · simp [Note.last] at h1
    have hlate : ∀ c' k' n' g', some (c, k, n0) = some (c', k', n') → g' ∈ (cfg.sub k').guards → s.flag g' = true →
        (Ph.at (g :: gs) n cl = .at (cfg.sub k').guards n' [] ∨ Ph.at (g :: gs) n cl = .shut []) → (g :: gs).any s.flag = true ∧ cl = [] := by
      intro c' k' n' g' _ hg hfl hp
      rcases hp with hp | hp
      · injection hp with h1 h2 h3
        rw [← h1] at hg
        exact ⟨List.any_eq_true.2 ⟨g', hg, hfl⟩, h3⟩
      · cases hp
    simp only [St.advance]
    by_cases hany : (g :: gs).any s.flag = true
    · rw [if_pos hany]
      have hsame : (∀ d, n0 ≠ .up d) → Inv cfg (s.put t (⟨some (c, k, n0), .shut cl⟩ :: rest)) := fun hn =>
        h.turn h0 ⟨f1, f2, howe hany (fun d hd => absurd hd (hn d))⟩
          (fun c' k' n' g' h1 h2 h3 h4 => by rw [(hlate c' k' n' g' h1 h2 h3 h4).2]) (fun _ _ hh => by cases hh)
      split
      · rename_i d
        obtain ⟨es, e1, e2, e3⟩ := release_spec s d
        rw [e1]
        have hm : Mono s ({ s with log := s.log ++ es }.put t (⟨some (c, k, n0), .shut cl⟩ :: rest)) :=
          Mono.of (es := es) rfl rfl (fun _ h => h) rfl
        refine h.replace (es := es) h0 rfl rfl id rfl ?_ ?_ ?_ hm ?_ ?_ ?_
        · intro e he; obtain ⟨x, rfl⟩ := e2 e he; rfl
        · intro c' k' n' hh; obtain ⟨x, hx⟩ := e2 _ hh; cases hx
        · intro g'
          refine (h.flags g').trans ?_
          simp only [St.put, List.mem_append]
          exact ⟨.inl, fun hh => hh.elim id (fun hh => by obtain ⟨x, hx⟩ := e2 _ hh; cases hx)⟩
        · obtain ⟨rfl, _⟩ := f6 d rfl
          refine ⟨f1, hm.log _ f2, ?_⟩
          refine ⟨(fun hh => by simp [Note.last] at hh), (fun hh => by cases hh), fun d' hd' _ _ _ => ?_, fun hh => absurd rfl (hh d)⟩
          injection hd' with hd'; subst hd'
          exact .inr e3
        · intro c' k' n' g' h1 h2 h3 h4
          refine ⟨fun _ _ hh => ?_, by rw [(hlate c' k' n' g' h1 h2 h3 h4).2]⟩
          obtain ⟨x, hx⟩ := e2 _ hh; cases hx
        · exact fun g _ h2 h3 => .inr ⟨h2, h3, fun _ hh => by cases hh⟩
      · rename_i hn
        exact hsame (fun d hd => hn d (f7 d hd))
    · rw [if_neg hany]
      have hl' : ∀ ph' : Ph, ∀ c' k' n' g', some (c, k, n0) = some (c', k', n') → g' ∈ (cfg.sub k').guards → s.flag g' = true →
        (Ph.at (g :: gs) n cl = .at (cfg.sub k').guards n' [] ∨ Ph.at (g :: gs) n cl = .shut []) → ph' = .shut [] :=
        fun _ c' k' n' g' h1 h2 h3 h4 => absurd (hlate c' k' n' g' h1 h2 h3 h4).1 hany
      split
      · rename_i d
        refine h.turn h0 ⟨f1, f2, (f6 d rfl).1, f0, (f6 d rfl).2⟩ (hl' _) (fun _ _ hh => by cases hh)
      · refine h.turn h0 ⟨f1, f2, ?_⟩ (hl' _) (fun _ _ hh => by cases hh)
        obtain ⟨ds, hds⟩ := f0
        refine ⟨⟨ds ++ [g], by simp [hds]⟩, ?_, f4, f5, (fun d hd => by cases hd), f7, f8⟩
        rcases f3 with ⟨rfl, _⟩ | ⟨_, h2, _⟩
        · exact .inl ⟨rfl, fun hh => by simp [Note.last] at hh⟩
        · cases h2
      · rename_i hn1 hn2
        refine h.turn h0 ⟨f1, f2, ?_⟩ (hl' _) (fun _ _ hh => by cases hh)
        obtain ⟨ds, hds⟩ := f0
        refine ⟨⟨ds ++ [g], by simp [hds]⟩, ?_, f4, f5, fun d hd => absurd hd (hn1 d), f7, f8⟩
        rcases f3 with ⟨h1, h2⟩ | ⟨h1, h2, h3⟩
        · exact .inl ⟨h1, fun hh => by rw [h2 hh]; simp⟩
        · refine .inr ⟨h1, h2, fun x hx => ?_⟩
          have := h3 x hx
          simp only [List.mem_append, List.mem_cons] at this ⊢
          rcases this with h | h | h
          · exact .inl (.inr h)
          · exact .inl (.inl h)
          · exact .inr h

theorem flags_of {s s' : St} {es : List Ev} (h : ∀ g, s.flag g = true ↔ Ev.shut g ∈ s.log) (hf : s'.flag = s.flag)
    (hl : s'.log = s.log ++ es) (he : ∀ e ∈ es, ∃ x, e = .released x) : ∀ g, s'.flag g = true ↔ Ev.shut g ∈ s'.log := by
  intro g
  rw [hf, h, hl, List.mem_append]
  exact ⟨.inl, fun hh => hh.elim id (fun hh => by obtain ⟨x, hx⟩ := he _ hh; cases hx)⟩

theorem Inv.add {cfg : Cfg} {s : St} {t : Nat} {who : Option (Nat × Nat × Note)} {g : Nat} {gs : List Nat} {d : Nat}
    {rest : List Frame} (h : Inv cfg s) (h0 : s.th t = ⟨who, .add g gs d⟩ :: rest) :
    Inv cfg (s.advance cfg t who rest (.add g gs d)) := by
  have hf := h.frames _ ⟨t, by rw [h0]; exact List.mem_cons_self ..⟩
  cases who with
  | none => rcases hf with ⟨_, hf⟩ | ⟨_, _, hf⟩ <;> cases hf
  | some x =>
    obtain ⟨c, k, n0⟩ := x
    obtain ⟨f1, f2, ⟨rfl, ⟨ds, hds⟩, f3⟩⟩ := hf
    simp only [St.advance]
    have key : ∀ s1 : St, ∀ es, s1.th = s.th → s1.calls = s.calls → s1.dead = s.dead → s1.flag = s.flag → s1.log = s.log ++ es →
        (∀ e ∈ es, ∃ x, e = .released x) → (∀ g' d', Kept s g' d' → Kept s1 g' d') → (cfg.ext g = true → Kept s1 g d) →
        (∀ g', cfg.ext g' = true → s1.flag g' = true → s1.ups g' ≠ [] → s.ups g' ≠ []) →
        Inv cfg (s1.put t (⟨some (c, k, .up d), .at gs (.up d) []⟩ :: rest)) := by
      intro s1 es e1 e2 e3 e4 e5 e6 e7 e8 e9
      have hm : Mono s (s1.put t (⟨some (c, k, .up d), .at gs (.up d) []⟩ :: rest)) :=
        ⟨Nat.le_of_eq e2.symm, fun e he => by simp [St.put, e5, he], fun g' hg => by simp only [St.put, e4]; exact hg, e7⟩
      refine h.replace (es := es) (ph' := .at gs (.up d) []) h0 (by simp only [St.put, e1]) e2 (fun hh => by simp only [St.put, e3]; exact hh) e5 ?_ ?_ ?_ hm ?_ ?_ ?_
      · intro e he; obtain ⟨x, rfl⟩ := e6 e he; rfl
      · intro c' k' n' hh; obtain ⟨x, hx⟩ := e6 _ hh; cases hx
      · exact flags_of h.flags e4 e5 e6
      · refine ⟨by simp only [St.put, e2]; exact f1, hm.log _ f2, ⟨ds ++ [g], by simp [hds]⟩, .inl ⟨rfl, (fun hh => by simp [Note.last] at hh)⟩,
          (fun hh => by simp [Note.last] at hh), (fun hh => by cases hh), fun d' hd' => ?_, fun d' hd' => hd', fun hh => absurd rfl hh⟩
        injection hd' with hd'; subst hd'
        refine ⟨rfl, fun x hx he => ?_⟩
        rcases f3 x hx he with hh | hh
        · rcases List.mem_cons.1 hh with rfl | hh
          · exact .inr (e8 he)
          · exact .inl hh
        · exact .inr (e7 _ _ hh)
      · intro c' k' n' g' _ _ _ hp
        rcases hp with hp | hp <;> cases hp
      · intro g' hg hfl hu
        exact .inr ⟨by rw [← e4]; exact hfl, e9 g' hg hfl hu, fun _ hh => by cases hh⟩
    unfold St.attach
    split
    · obtain ⟨es, e1, e2, e3⟩ := release_spec s d
      rw [e1]
      exact key _ es rfl rfl rfl rfl rfl e2 (fun g' d' hk => hk.imp id (fun hh => by simp [hh])) (fun _ => .inr e3) (fun _ _ _ hu => hu)
    · rename_i hx
      refine key _ [] rfl rfl rfl rfl (by simp) (by simp) (fun g' d' hk => hk.imp (fun hh => ?_) id) (fun _ => .inl (by simp)) ?_
      · simp only; split
        · simp [hh]
        · exact hh
      · intro g' hg hfl hu
        simp only at hu
        split at hu
        · rename_i he; subst he
          exact absurd (by rw [hg]; exact hfl) hx
        · exact hu

theorem Owed.close {cfg s s' c k n0 g cl} (h : Owed cfg s c k n0 (g :: cl)) (m : Mono s s') (hg : s'.flag g = true)
    (ht : ∀ n, Ev.told c k n ∈ s'.log → Ev.told c k n ∈ s.log) : Owed cfg s' c k n0 cl where
  last h1 h2 x hx := by
    rcases h.last h1 (ht _ h2) x hx with hh | hh
    · exact .inl (m.flag _ hh)
    · rcases List.mem_cons.1 hh with rfl | hh
      · exact .inl hg
      · exact .inr hh
  thrown h1 h2 x hx := by
    rcases h.thrown h1 (ht _ h2) x hx with hh | hh
    · exact .inl (m.flag _ hh)
    · rcases List.mem_cons.1 hh with rfl | hh
      · exact .inl hg
      · exact .inr hh
  up d h1 x hx he := m.kept _ _ (h.up d h1 x hx he)
  heard h1 := (h.heard h1).imp (m.log _) (fun ⟨g, hg, hf⟩ => ⟨g, hg, m.flag g hf⟩)

theorem Inv.close {cfg : Cfg} {s : St} {t : Nat} {who : Option (Nat × Nat × Note)} {g : Nat} {cl : List Nat} {rest : List Frame}
    (h : Inv cfg s) (h0 : s.th t = ⟨who, .shut (g :: cl)⟩ :: rest) : Inv cfg (s.close cfg t who g cl rest) := by
  have hf := h.frames _ ⟨t, by rw [h0]; exact List.mem_cons_self ..⟩
  have hl' : ∀ ph' : Ph, ∀ c' k' n' g', who = some (c', k', n') → g' ∈ (cfg.sub k').guards → s.flag g' = true →
    (Ph.shut (g :: cl) = .at (cfg.sub k').guards n' [] ∨ Ph.shut (g :: cl) = .shut []) → ph' = .shut [] := by
    intro _ c' k' n' g' _ _ _ hp
    rcases hp with hp | hp <;> cases hp
  unfold St.close
  by_cases hfl : s.flag g = true
  · rw [if_pos hfl]
    refine h.turn h0 ?_ (hl' _) (fun _ _ hh => by cases hh)
    cases who with
    | none => split
              · exact .inl ⟨_, rfl⟩
              · exact .inr ⟨_, _, rfl⟩
    | some x =>
      obtain ⟨c, k, n0⟩ := x
      refine ⟨hf.1, hf.2.1, ?_⟩
      have := Owed.close hf.2.2 (Mono.refl s) hfl (fun _ h => h)
      simp only
      split
      · exact this
      · exact ⟨hfl, this⟩
  · rw [if_neg hfl]
    have hm : Mono s (({ s with flag := fun h => h == g || s.flag h }.say (.shut g)).put t (⟨who, .free g cl⟩ :: rest)) :=
      Mono.of (es := [.shut g]) rfl rfl (fun x hx => by simp [St.say, St.put, hx]) rfl
    have hg' : (({ s with flag := fun h => h == g || s.flag h }.say (.shut g)).put t (⟨who, .free g cl⟩ :: rest)).flag g = true := by
      simp [St.say, St.put]
    refine h.replace (es := [.shut g]) h0 rfl rfl id rfl (by simp [Ev.mid]) (by simp) ?_ hm ?_ ?_ ?_
    · intro x
      simp only [St.say, St.put, Bool.or_eq_true, beq_iff_eq, List.mem_append, List.mem_singleton, Ev.shut.injEq, h.flags]
      exact Or.comm
    · cases who with
      | none => exact .inr ⟨_, _, rfl⟩
      | some x =>
        obtain ⟨c, k, n0⟩ := x
        exact ⟨hf.1, hm.log _ hf.2.1, hg', Owed.close hf.2.2 hm hg' (fun n hn => by simpa [St.say, St.put] using hn)⟩
    · exact fun c' k' n' g' h1 h2 h3 h4 => ⟨fun _ _ hh => by simp at hh, hl' _ c' k' n' g' h1 h2 h3 h4⟩
    · intro x hx hfx hu
      by_cases hxg : x = g
      · subst hxg; exact .inl ⟨cl, rfl⟩
      · refine .inr ⟨?_, hu, fun _ hh => by cases hh⟩
        simpa [St.say, St.put, hxg] using hfx

theorem Inv.free {cfg : Cfg} {s : St} {t : Nat} {who : Option (Nat × Nat × Note)} {g : Nat} {cl : List Nat} {rest : List Frame}
    (h : Inv cfg s) (h0 : s.th t = ⟨who, .free g cl⟩ :: rest) : Inv cfg ((s.free g).put t (⟨who, .shut cl⟩ :: rest)) := by
  have hf := h.frames _ ⟨t, by rw [h0]; exact List.mem_cons_self ..⟩
  obtain ⟨es, e1, e2, e3⟩ := releases_spec (s.ups g) s
  have hfr : s.free g = { s with log := s.log ++ es, ups := fun h => if h = g then [] else s.ups h } := by
    unfold St.free; rw [e1]
  rw [hfr]
  have hm : Mono s ({ s with log := s.log ++ es, ups := fun h => if h = g then [] else s.ups h }.put t (⟨who, .shut cl⟩ :: rest)) := by
    refine ⟨Nat.le_refl _, fun e he => by simp [St.put, he], fun _ hh => hh, fun x d hk => ?_⟩
    rcases hk with hk | hk
    · by_cases hx : x = g
      · subst hx; exact .inr (e3 d hk)
      · left; simp only [St.put, if_neg hx]; exact hk
    · exact .inr (by simp [St.put, hk])
  refine h.replace (es := es) h0 rfl rfl id rfl ?_ ?_ (flags_of h.flags rfl rfl e2) hm ?_ ?_ ?_
  · intro e he; obtain ⟨x, rfl⟩ := e2 e he; rfl
  · intro c' k' n' hh; obtain ⟨x, hx⟩ := e2 _ hh; cases hx
  · cases who with
    | none => exact .inl ⟨_, rfl⟩
    | some x =>
      obtain ⟨c, k, n0⟩ := x
      refine ⟨hf.1, hm.log _ hf.2.1, Owed.mono hf.2.2.2 hm (fun n hn => ?_)⟩
      simp only [St.put, List.mem_append] at hn
      exact hn.elim id (fun hh => by obtain ⟨x, hx⟩ := e2 _ hh; cases hx)
  · intro c' k' n' g' _ _ _ hp
    rcases hp with hp | hp <;> cases hp
  · intro x hx hfx hu
    simp only [St.put] at hu
    split at hu
    · exact absurd rfl hu
    · rename_i hxg
      exact .inr ⟨hfx, hu, fun cl' hh => by injection hh with hh _; exact hxg hh.symm⟩

theorem Inv.step {cfg : Cfg} {s : St} (h : Inv cfg s) (l : Lbl) : Inv cfg (step cfg s l) := by
  unfold Share.step
  split
  · exact h
  · cases l with
    | sub k =>
      simp only
      split
      · exact h
      · generalize (if (cfg.sub k).direct then (cfg.sub k).guards.take 1 else (cfg.sub k).guards).any s.flag = b
        cases b
        case' true => exact h.note (es := [.refused k]) rfl rfl rfl rfl id rfl (by simp [Ev.mid])
        case' false => exact h.note (es := [.subscribed k]) rfl rfl rfl rfl id rfl (by simp [Ev.mid])
    | call t k n =>
      simp only
      split
      · exact h.push (t := t) (who := some (s.calls, k, n)) (ph := .at (cfg.sub k).guards n []) rfl rfl rfl rfl ⟨rfl, rfl, rfl, rfl⟩
      · exact h
    | dispose t g =>
      simp only
      split
      · exact h.push (t := t) (who := none) (ph := .shut [g]) rfl rfl rfl rfl ⟨⟨_, rfl⟩, rfl, rfl⟩
      · exact h
    | ret t =>
      simp only
      split
      · rename_i who n cl rest h0
        have hf := h.frames _ ⟨t, by rw [h0]; exact List.mem_cons_self ..⟩
        refine h.turn h0 ?_ ?_ (fun _ _ hh => by cases hh)
        · cases who with
          | none => exact .inl ⟨_, rfl⟩
          | some x =>
            obtain ⟨c, k, n0⟩ := x
            obtain ⟨f1, f2, f3, f4, f5, f6, f7, f8⟩ := hf
            refine ⟨f1, f2, fun h1 h2 g hg => ?_, fun h1 h2 g hg => ?_, fun d hd => absurd hd (f5 d), fun _ => .inl f8⟩
            · rcases f6 with ⟨rfl, h3⟩ | ⟨rfl, _, _⟩
              · have := h3 h1
                rw [this] at hg; right; simpa using hg
              · simp [Note.last] at h1
            · rcases f6 with ⟨rfl, _⟩ | ⟨_, _, h3⟩
              · exact absurd h2 (f7 h1)
              · right; simpa using h3 g hg
        · intro c' k' n' g' _ _ _ hp
          rcases hp with hp | hp <;> cases hp
      · exact h
    | throw t =>
      simp only
      split
      · rename_i c k n0 n cl rest h0
        split
        · exact h.note (es := [.died]) rfl rfl rfl rfl (fun _ => rfl) rfl (by simp [Ev.mid])
        · rename_i hnl
          split
          · rename_i g hg
            have hf := h.frames _ ⟨t, by rw [h0]; exact List.mem_cons_self ..⟩
            obtain ⟨f1, f2, f3, f4, f5, f6, f7, f8⟩ := hf
            have hn : n = .next := by
              cases n with
              | next => rfl
              | up d => exact absurd rfl (f4 d)
              | error => simp [Note.last] at hnl
              | completed => simp [Note.last] at hnl
            subst hn
            have hn0 : n0 = .next := by
              rcases f6 with ⟨h1, _⟩ | ⟨h1, _, _⟩
              · exact h1.symm
              · exact h1
            subst hn0
            refine h.turn h0 ⟨f1, f2, getLast_suffix hg, .inr ⟨rfl, rfl, fun x hx => ?_⟩, fun _ => f7 rfl, fun _ => f7 rfl,
              (fun d hd => by cases hd), (fun d hd => by cases hd), fun _ => f8⟩ ?_ (fun _ _ hh => by cases hh)
            · rw [hg] at hx; injection hx with hx; simp [hx]
            · intro c' k' n' g' _ _ _ hp
              rcases hp with hp | hp <;> cases hp
          · exact h
      · exact h
    | run t =>
      simp only
      split
      · rename_i who ph rest h0
        cases ph with
        | «at» gs n cl =>
          cases gs with
          | nil =>
            cases who with
            | none => exact h
            | some x => exact h.tell h0
          | cons g gs => exact h.at h0
        | add g gs d => exact h.add h0
        | run n cl => exact h
        | free g cl => exact h.free h0
        | shut cl =>
          cases cl with
          | cons g cl => exact h.close h0
          | nil =>
            cases who with
            | none => exact h.pop h0 rfl rfl rfl rfl rfl rfl
            | some x => exact h.pop h0 rfl rfl rfl rfl rfl rfl
      · exact h

theorem Inv.init (cfg : Cfg) : Inv cfg {} := by
  refine ⟨by simp, ?_, by simp, by simp, by simp [ids], by simp [ids], by simp, by simp, by simp, ?_, by simp⟩
  · rintro f ⟨t, hf⟩; simp at hf
  · rintro c k n g ⟨a, b, d, h⟩; simp at h

theorem exec_inv (cfg : Cfg) (ls : List Lbl) : Inv cfg (exec cfg ls) := by
  have : ∀ (ls : List Lbl) (s : St), Inv cfg s → Inv cfg (ls.foldl (Share.step cfg) s) := by
    intro ls
    induction ls with
    | nil => exact fun _ h => h
    | cons l ls ih => exact fun s h => ih _ (h.step l)
  exact this ls {} (Inv.init cfg)

end Rpp.Share
