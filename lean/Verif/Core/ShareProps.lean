import Verif.Core.ShareProofs

/-!
# Subscriptions that share a disposable or an observer (C99)
-/

namespace Rpp.Share

/-! ## What a step adds to the log -/

/-- What holds of the events `es` of one step. -/
structure Shape (cfg : Cfg) (s s' : St) (es : List Ev) : Prop where
  log : s'.log = s.log ++ es
  sub : ∀ k, Ev.subscribed k ∈ es → (if (cfg.sub k).direct then (cfg.sub k).guards.take 1 else (cfg.sub k).guards).any s.flag = false
  told : ∀ c k, Ev.told c k .error ∈ es → (cfg.sub k).handler = false → es = [.told c k .error, .died] ∧ s'.dead = true
  dead : s'.dead = true → s.dead = true ∨ Ev.died ∈ es
  begun : ∀ c k n, Ev.begun c k n ∈ es → Ev.subscribed k ∈ s.log

theorem Shape.quiet {cfg : Cfg} {s s' : St} (h1 : s'.log = s.log) (h2 : s'.dead = s.dead) : ∃ es, Shape cfg s s' es :=
  ⟨[], by simp [h1], by simp, by simp, fun h => .inl (h2 ▸ h), by simp⟩

theorem Shape.rel {cfg : Cfg} {s s' : St} {es : List Ev} (h1 : s'.log = s.log ++ es) (h2 : s'.dead = s.dead)
    (h3 : ∀ e ∈ es, ∃ d, e = .released d) : ∃ es, Shape cfg s s' es :=
  ⟨es, h1, fun k hk => (by obtain ⟨d, hd⟩ := h3 _ hk; cases hd), fun c k hk => (by obtain ⟨d, hd⟩ := h3 _ hk; cases hd),
    fun h => .inl (h2 ▸ h), fun c k n hk => (by obtain ⟨d, hd⟩ := h3 _ hk; cases hd)⟩

theorem advance_shape (cfg : Cfg) (s : St) (t : Nat) (who : Option (Nat × Nat × Note)) (rest : List Frame) (ph : Ph) :
    ∃ es, Shape cfg s (s.advance cfg t who rest ph) es := by
  cases ph with
  | «at» gs n cl =>
    cases gs with
    | nil =>
      cases who with
      | none => exact Shape.quiet rfl rfl
      | some x =>
        obtain ⟨c, k, n0⟩ := x
        simp only [St.advance]
        cases n with
        | up d => exact Shape.quiet rfl rfl
        | next => exact ⟨[.told c k .next], rfl, by simp, by simp, fun h => .inl h, by simp⟩
        | completed => exact ⟨[.told c k .completed], rfl, by simp, by simp, fun h => .inl h, by simp⟩
        | error =>
          by_cases hh : (cfg.sub k).handler = true
          · refine ⟨[.told c k .error], ?_, by simp, ?_, ?_, by simp⟩
            · simp [St.tell, hh, St.say, St.put]
            · intro c' k' hm hf
              simp only [List.mem_singleton, Ev.told.injEq] at hm
              obtain ⟨rfl, rfl, _⟩ := hm
              rw [hh] at hf; cases hf
            · simp only [St.tell, hh]
              exact fun h => .inl h
          · have hh' : (cfg.sub k).handler = false := by simpa using hh
            refine ⟨[.told c k .error, .died], ?_, by simp, ?_, by simp, by simp⟩
            · simp [St.tell, hh', St.say, St.put]
            · intro c' k' hm hf
              simp only [List.mem_cons, Ev.told.injEq, List.not_mem_nil, or_false, reduceCtorEq] at hm
              obtain ⟨rfl, rfl, _⟩ := hm
              exact ⟨rfl, by simp [St.tell, hh', St.say]⟩
    | cons g gs =>
      simp only [St.advance]
      split
      · cases n with
        | up d =>
          obtain ⟨es, e1, e2, e3⟩ := release_spec s d
          refine Shape.rel (es := es) ?_ ?_ e2
          · simp only [St.put, e1]
          · simp only [St.put, e1]
        | next => exact Shape.quiet rfl rfl
        | error => exact Shape.quiet rfl rfl
        | completed => exact Shape.quiet rfl rfl
      · cases n <;> exact Shape.quiet rfl rfl
  | add g gs d =>
    simp only [St.advance, St.attach]
    split
    · obtain ⟨es, e1, e2, e3⟩ := release_spec s d
      refine Shape.rel (es := es) ?_ ?_ e2
      · simp only [St.put, e1]
      · simp only [St.put, e1]
    · exact Shape.quiet rfl rfl
  | run n cl => exact Shape.quiet rfl rfl
  | free g cl =>
    obtain ⟨es, e1, e2, e3⟩ := releases_spec (s.ups g) s
    refine Shape.rel (es := es) ?_ ?_ e2
    · simp only [St.advance, St.put, St.free, e1]
    · simp only [St.advance, St.put, St.free, e1]
  | shut cl =>
    cases cl with
    | nil =>
      cases who with
      | none => exact Shape.quiet rfl rfl
      | some x => exact ⟨[.done x.1], rfl, by simp, by simp, fun h => .inl h, by simp⟩
    | cons g cl =>
      simp only [St.advance, St.close]
      split
      · exact Shape.quiet rfl rfl
      · exact ⟨[.shut g], rfl, by simp, by simp, fun h => .inl h, by simp⟩

theorem step_shape (cfg : Cfg) (s : St) (l : Lbl) : ∃ es, Shape cfg s (step cfg s l) es := by
  unfold step
  split
  · exact Shape.quiet rfl rfl
  · cases l with
    | sub k =>
      simp only
      split
      · exact Shape.quiet rfl rfl
      · cases hb : (if (cfg.sub k).direct then (cfg.sub k).guards.take 1 else (cfg.sub k).guards).any s.flag with
        | true => exact ⟨[.refused k], rfl, by simp, by simp, fun h => .inl h, by simp⟩
        | false =>
          refine ⟨[.subscribed k], rfl, ?_, by simp, fun h => .inl h, by simp⟩
          intro k' hk
          simp only [List.mem_singleton, Ev.subscribed.injEq] at hk
          subst hk; exact hb
    | call t k n =>
      simp only
      split
      · rename_i hc
        refine ⟨[.begun s.calls k n], rfl, by simp, by simp, fun h => .inl h, ?_⟩
        intro c' k' n' hk
        simp only [List.mem_singleton, Ev.begun.injEq] at hk
        obtain ⟨_, rfl, _⟩ := hk
        simp only [Bool.and_eq_true, decide_eq_true_eq] at hc
        exact hc.2
      · exact Shape.quiet rfl rfl
    | dispose t g =>
      simp only
      split <;> exact Shape.quiet rfl rfl
    | ret t =>
      simp only
      split <;> exact Shape.quiet rfl rfl
    | throw t =>
      simp only
      split
      · split
        · exact ⟨[.died], rfl, by simp, by simp, by simp, by simp⟩
        · split <;> exact Shape.quiet rfl rfl
      · exact Shape.quiet rfl rfl
    | run t =>
      simp only
      split
      · exact advance_shape ..
      · exact Shape.quiet rfl rfl

theorem foldl_log (cfg : Cfg) : ∀ (ls : List Lbl) (s : St), ∃ es, (ls.foldl (step cfg) s).log = s.log ++ es
  | [], s => ⟨[], by simp⟩
  | l :: ls, s => by
    obtain ⟨es, h⟩ := step_shape cfg s l
    obtain ⟨es', h'⟩ := foldl_log cfg ls (step cfg s l)
    exact ⟨es ++ es', by simp [h', h.log]⟩

theorem exec_append (cfg : Cfg) (a b : List Lbl) : exec cfg (a ++ b) = b.foldl (step cfg) (exec cfg a) := by
  simp [exec, List.foldl_append]

theorem exec_log (cfg : Cfg) (a b : List Lbl) : ∃ es, (exec cfg (a ++ b)).log = (exec cfg a).log ++ es := by
  rw [exec_append]; exact foldl_log cfg b _

theorem exec_mem {cfg : Cfg} {a : List Lbl} (b : List Lbl) {e : Ev} (h : e ∈ (exec cfg a).log) : e ∈ (exec cfg (a ++ b)).log := by
  obtain ⟨es, he⟩ := exec_log cfg a b
  rw [he]; simp [h]

/-- What the log says about the death of the program. -/
theorem dead_inv (cfg : Cfg) : ∀ (ls : List Lbl) (s : St),
    ((s.dead = true → Ev.died ∈ s.log) ∧ ∀ c k, Ev.told c k .error ∈ s.log → (cfg.sub k).handler = false →
      s.dead = true ∧ ∃ pre, s.log = pre ++ [.told c k .error, .died]) →
    (((ls.foldl (step cfg) s).dead = true → Ev.died ∈ (ls.foldl (step cfg) s).log) ∧
      ∀ c k, Ev.told c k .error ∈ (ls.foldl (step cfg) s).log → (cfg.sub k).handler = false →
      (ls.foldl (step cfg) s).dead = true ∧ ∃ pre, (ls.foldl (step cfg) s).log = pre ++ [.told c k .error, .died])
  | [], _, h => h
  | l :: ls, s, h => by
    refine dead_inv cfg ls (step cfg s l) ?_
    by_cases hd : s.dead = true
    · have : step cfg s l = s := by simp [step, hd]
      rw [this]; exact h
    · obtain ⟨es, he⟩ := step_shape cfg s l
      refine ⟨fun h1 => ?_, fun c k h1 h2 => ?_⟩
      · rw [he.log]
        rcases he.dead h1 with h1 | h1
        · exact absurd h1 hd
        · simp [h1]
      · rw [he.log, List.mem_append] at h1
        rcases h1 with h1 | h1
        · exact absurd (h.2 c k h1 h2).1 hd
        · obtain ⟨e1, e2⟩ := he.told c k h1 h2
          exact ⟨e2, s.log, by rw [he.log, e1]⟩

theorem sub_inv (cfg : Cfg) (k g : Nat) (hg : g ∈ (if (cfg.sub k).direct then (cfg.sub k).guards.take 1 else (cfg.sub k).guards)) :
    ∀ (ls : List Lbl) (s : St), Inv cfg s → s.flag g = true → Ev.subscribed k ∉ s.log → Ev.subscribed k ∉ (ls.foldl (step cfg) s).log
  | [], _, _, _, h => h
  | l :: ls, s, hi, hf, hn => by
    have hi' := hi.step l
    obtain ⟨es, he⟩ := step_shape cfg s l
    have h1 : Ev.shut g ∈ (step cfg s l).log := by rw [he.log]; simp [(hi.flags g).1 hf]
    refine sub_inv cfg k g hg ls _ hi' ((hi'.flags g).2 h1) ?_
    rw [he.log, List.mem_append]
    rintro (hh | hh)
    · exact hn hh
    · have := he.sub k hh
      rw [List.any_eq_false] at this
      exact this g hg hf

theorem begun_inv (cfg : Cfg) : ∀ (ls : List Lbl) (s : St), (∀ c k n, Ev.begun c k n ∈ s.log → Ev.subscribed k ∈ s.log) →
    ∀ c k n, Ev.begun c k n ∈ (ls.foldl (step cfg) s).log → Ev.subscribed k ∈ (ls.foldl (step cfg) s).log
  | [], _, h => h
  | l :: ls, s, h => by
    refine begun_inv cfg ls _ ?_
    obtain ⟨es, he⟩ := step_shape cfg s l
    intro c k n hb
    rw [he.log, List.mem_append] at hb
    rw [he.log, List.mem_append]
    rcases hb with hb | hb
    · exact .inl (h c k n hb)
    · exact .inl (he.begun c k n hb)

/-! ## Property C99 -/

/-- **C99.** After a disposable is disposed of, no callback of any subscription made with it is entered in a call that begins later:
whoever disposed of it, and whichever threads call. `before` is what happens up to then, `after` all the rest. -/
theorem C99_silent (cfg : Cfg) (before after : List Lbl) (g k c : Nat) (hg : g ∈ (cfg.sub k).guards)
    (hs : Ev.shut g ∈ (exec cfg before).log) (hb : ∀ n, Ev.begun c k n ∉ (exec cfg before).log) (n : Note) :
    Ev.told c k n ∉ (exec cfg (before ++ after)).log := by
  intro ht
  have hi := exec_inv cfg (before ++ after)
  obtain ⟨n0, h0⟩ := hi.told c k n ht
  obtain ⟨es, he⟩ := exec_log cfg before after
  have hmem : Ev.begun c k n0 ∈ es := by
    rw [he, List.mem_append] at h0
    exact h0.elim (fun hh => absurd hh (hb n0)) id
  obtain ⟨p, q, hpq⟩ := List.append_of_mem hmem
  obtain ⟨a, b, hab⟩ := List.append_of_mem hs
  exact (hi.late c k n0 g ⟨a, b ++ p, q, by rw [he, hab, hpq]; simp⟩ hg).1 k n ht

/-- **C99.** Once `on_error` or `on_completed` of a subscription has been called and the call has returned, every disposable it was made
with is disposed of; so whatever subscriptions share one of them have ended with it: none of their callbacks is entered in a call that
begins later. -/
theorem C99_together (cfg : Cfg) (before after : List Lbl) (c k : Nat) (n : Note) (hn : n.last = true)
    (hb : Ev.begun c k n ∈ (exec cfg before).log) (ht : Ev.told c k n ∈ (exec cfg before).log)
    (hd : Ev.done c ∈ (exec cfg before).log) :
    (∀ g ∈ (cfg.sub k).guards, Ev.shut g ∈ (exec cfg before).log) ∧
    ∀ g ∈ (cfg.sub k).guards, ∀ k', g ∈ (cfg.sub k').guards → ∀ c' n', (∀ n, Ev.begun c' k' n ∉ (exec cfg before).log) →
      Ev.told c' k' n' ∉ (exec cfg (before ++ after)).log := by
  have hi := exec_inv cfg before
  have h1 : ∀ g ∈ (cfg.sub k).guards, Ev.shut g ∈ (exec cfg before).log := by
    intro g hg
    rcases ((hi.done c hd).2 k n hb).last hn ht g hg with hh | hh
    · exact (hi.flags g).1 hh
    · cases hh
  exact ⟨h1, fun g hg k' hg' c' n' hb' => C99_silent cfg before after g k' c' hg' (h1 g hg) hb' n'⟩

/-- **C99.** What does not share a disposable that is disposed of goes on: when a call has returned and none of the disposables of its
subscription is disposed of, the callback was entered. -/
theorem C99_delivered (cfg : Cfg) (ls : List Lbl) (c k : Nat) (n : Note) (hn : ∀ d, n ≠ .up d)
    (hb : Ev.begun c k n ∈ (exec cfg ls).log) (hd : Ev.done c ∈ (exec cfg ls).log)
    (hg : ∀ g ∈ (cfg.sub k).guards, Ev.shut g ∉ (exec cfg ls).log) : Ev.told c k n ∈ (exec cfg ls).log := by
  have hi := exec_inv cfg ls
  rcases ((hi.done c hd).2 k n hb).heard hn with hh | ⟨g, h1, h2⟩
  · exact hh
  · exact absurd ((hi.flags g).1 h2) (hg g h1)

/-- **C99.** The same when `on_next` threw and so `on_error` was called, of a subscription with one disposable. -/
theorem C99_thrown (cfg : Cfg) (before after : List Lbl) (c k g : Nat) (h1 : (cfg.sub k).guards = [g])
    (hb : Ev.begun c k .next ∈ (exec cfg before).log) (ht : Ev.told c k .error ∈ (exec cfg before).log)
    (hd : Ev.done c ∈ (exec cfg before).log) :
    Ev.shut g ∈ (exec cfg before).log ∧
    ∀ k', g ∈ (cfg.sub k').guards → ∀ c' n', (∀ n, Ev.begun c' k' n ∉ (exec cfg before).log) →
      Ev.told c' k' n' ∉ (exec cfg (before ++ after)).log := by
  have hi := exec_inv cfg before
  have hs : Ev.shut g ∈ (exec cfg before).log := by
    rcases ((hi.done c hd).2 k .next hb).thrown rfl ht g (by rw [h1]; rfl) with hh | hh
    · exact (hi.flags g).1 hh
    · cases hh
  exact ⟨hs, fun k' hg' c' n' hb' => C99_silent cfg before after g k' c' hg' hs hb' n'⟩

/-- **C99.** When a shared disposable has been disposed of and all calls have returned, every upstream that any of the subscriptions made
with it was given has been disposed of, whether it was given before or after. -/
theorem C99_released (cfg : Cfg) (ls : List Lbl) (hq : Quiet (exec cfg ls)) (hl : Ev.died ∉ (exec cfg ls).log) (g c k d : Nat)
    (he : cfg.ext g = true) (hs : Ev.shut g ∈ (exec cfg ls).log) (hg : g ∈ (cfg.sub k).guards)
    (hb : Ev.begun c k (.up d) ∈ (exec cfg ls).log) : Ev.released d ∈ (exec cfg ls).log := by
  have hi := exec_inv cfg ls
  have hnd : (exec cfg ls).dead ≠ true := fun hh => hl ((dead_inv cfg ls {} ⟨by simp, by simp⟩).1 hh)
  have hdone : Ev.done c ∈ (exec cfg ls).log := by
    by_cases hh : Ev.done c ∈ (exec cfg ls).log
    · exact hh
    · rcases hi.open_ c k _ hb hh with h1 | ⟨t, h1⟩
      · exact absurd h1 hnd
      · rw [hq t] at h1; simp [ids] at h1
  rcases ((hi.done c hdone).2 k _ hb).up d rfl g hg he with h1 | h1
  · obtain ⟨who, cl, t, ht⟩ := hi.ups g he ((hi.flags g).2 hs) (fun hh => by rw [hh] at h1; cases h1)
    rw [hq t] at ht; cases ht
  · exact h1

/-- **C99, the part about a new subscription.** A source is not subscribed, and no callback is ever entered, when one of the disposables
it is to be subscribed with has been disposed of already. Missing: `subscribe(d, observer)` looks at `d` only, see
`C99_refused_refutes`. -/
theorem C99_refused_partial (cfg : Cfg) (before after : List Lbl) (k g : Nat) (hd : (cfg.sub k).direct = false)
    (hg : g ∈ (cfg.sub k).guards) (hs : Ev.shut g ∈ (exec cfg before).log) (hn : Ev.subscribed k ∉ (exec cfg before).log) :
    Ev.subscribed k ∉ (exec cfg (before ++ after)).log ∧ ∀ c n, Ev.told c k n ∉ (exec cfg (before ++ after)).log := by
  have hi := exec_inv cfg before
  have h1 : Ev.subscribed k ∉ (exec cfg (before ++ after)).log := by
    rw [exec_append]
    exact sub_inv cfg k g (by rw [hd]; exact hg) after _ hi ((hi.flags g).2 hs) hn
  refine ⟨h1, fun c n ht => ?_⟩
  obtain ⟨n0, h0⟩ := (exec_inv cfg (before ++ after)).told c k n ht
  exact h1 (begun_inv cfg (before ++ after) {} (by simp) c k n0 h0)

/-- **C99.** `on_error` of a subscription without an error callback is the end of the program, and the last thing that happens. -/
theorem C99_unhandled (cfg : Cfg) (ls : List Lbl) (c k : Nat) (hh : (cfg.sub k).handler = false)
    (ht : Ev.told c k .error ∈ (exec cfg ls).log) :
    ∃ pre, (exec cfg ls).log = pre ++ [.told c k .error, .died] ∧ ∀ more, exec cfg (ls ++ more) = exec cfg ls := by
  obtain ⟨h1, pre, h2⟩ := (dead_inv cfg ls {} ⟨by simp, by simp⟩).2 c k ht hh
  have h1 : (exec cfg ls).dead = true := h1
  refine ⟨pre, h2, fun more => ?_⟩
  rw [exec_append]
  induction more with
  | nil => rfl
  | cons l ls' ih => rw [List.foldl_cons, show step cfg (exec cfg ls) l = exec cfg ls by simp [step, h1]]; exact ih

/-! ## Examples -/

/-- Three subscriptions: 0 and 1 share disposable 0, 2 is made by `subscribe(d, observer)` with disposable 0 and an observer that has its
own strategy 5; subscription 3 has no error callback; 4 is `subscribe(d, observer)` with disposable 1 and the same observer. -/
def demo : Cfg where
  sub := fun
    | 0 => { guards := [0] }
    | 1 => { guards := [0] }
    | 2 => { guards := [0, 5], direct := true }
    | 4 => { guards := [1, 5], direct := true }
    | _ => { guards := [3], handler := false }
  ext := fun g => g != 5

/-- Both subscribe; 0 is given upstream 10, thread 1 begins a call with a value, 0 completes, upstream 11 comes for 1, and is disposed of. -/
def demoRun : List Lbl :=
  [.sub 0, .sub 1, .call 0 0 (.up 10), .run 0, .run 0, .run 0, .run 0, .call 1 1 .next, .run 1, .run 1,
   .call 0 0 .completed, .run 0, .run 0, .ret 0, .run 0, .run 0, .run 0, .ret 1, .run 1]

set_option maxRecDepth 100000 in
/-- All hypotheses of the theorems above are met, and what they say is not void. -/
example : (exec demo demoRun).log = [.subscribed 0, .subscribed 1, .begun 0 0 (.up 10), .done 0, .begun 1 1 .next, .told 1 1 .next,
    .begun 2 0 .completed, .told 2 0 .completed, .shut 0, .released 10, .done 2, .done 1] := by decide

set_option maxRecDepth 100000 in
/-- Afterwards: a value for subscription 1 is not passed on, a late upstream is disposed of, subscription 2 is refused. -/
example : (exec demo (demoRun ++ [.call 1 1 .next, .run 1, .run 1, .call 1 1 (.up 11), .run 1, .run 1, .sub 2])).log =
    (exec demo demoRun).log ++ [.begun 3 1 .next, .done 3, .begun 4 1 (.up 11), .released 11, .done 4, .refused 2] := by decide

set_option maxRecDepth 100000 in
/-- `on_next` throws: `on_error` is called and the disposable is disposed of (`C99_thrown`). -/
example : (exec demo [.sub 0, .call 0 0 .next, .run 0, .run 0, .throw 0, .run 0, .run 0, .ret 0, .run 0, .run 0, .run 0]).log =
    [.subscribed 0, .begun 0 0 .next, .told 0 0 .next, .told 0 0 .error, .shut 0, .done 0] := by decide

set_option maxRecDepth 100000 in
/-- An error without a callback for it (`C99_unhandled`). -/
example : (exec demo [.sub 3, .call 0 3 .error, .run 0, .run 0, .ret 0]).log =
    [.subscribed 3, .begun 0 3 .error, .told 0 3 .error, .died] := by decide

/-- The observer of subscription 2 has ended, then it is subscribed again with disposable 1. -/
def directRun : List Lbl :=
  [.sub 2, .call 0 2 .completed, .run 0, .run 0, .run 0, .ret 0, .run 0, .run 0, .run 0, .run 0, .run 0]

set_option maxRecDepth 100000 in
/-- **C99, refuted in full.** An observer has ended (its own strategy 5 is disposed of), and yet `subscribe(d, observer)` subscribes
the source with it. -/
theorem C99_refused_refutes : 5 ∈ (demo.sub 4).guards ∧ Ev.shut 5 ∈ (exec demo directRun).log ∧
    Ev.subscribed 4 ∉ (exec demo directRun).log ∧ Ev.subscribed 4 ∈ (exec demo (directRun ++ [.sub 4])).log := by decide

/-- `on_next` of the observer given to `subscribe(d, observer)` throws; all calls return. -/
def thrownRun : List Lbl :=
  [.sub 2, .call 0 2 .next, .run 0, .run 0, .run 0, .throw 0, .run 0, .run 0, .ret 0, .run 0, .run 0, .run 0]

set_option maxRecDepth 100000 in
/-- **C99, refuted in full.** `on_next` threw and `on_error` was called, the call has returned, and yet the disposable 0 the subscription
was made with is not disposed of: the inner observer has caught the exception and ended, the outer one does not know. -/
theorem C99_disposed_refutes : (exec demo thrownRun).log =
      [.subscribed 2, .begun 0 2 .next, .told 0 2 .next, .told 0 2 .error, .shut 5, .done 0] ∧
    0 ∈ (demo.sub 2).guards ∧ Ev.shut 0 ∉ (exec demo thrownRun).log := by decide

/-- **C99, the part about `on_next` that throws.** Whatever the disposables: the innermost is disposed of, and the subscription
itself is silent from then on. Missing: the other disposables, see `C99_disposed_refutes`. -/
theorem C99_disposed_partial (cfg : Cfg) (before after : List Lbl) (c k g : Nat) (h1 : (cfg.sub k).guards.getLast? = some g)
    (hb : Ev.begun c k .next ∈ (exec cfg before).log) (ht : Ev.told c k .error ∈ (exec cfg before).log)
    (hd : Ev.done c ∈ (exec cfg before).log) :
    Ev.shut g ∈ (exec cfg before).log ∧
    ∀ c' n', (∀ n, Ev.begun c' k n ∉ (exec cfg before).log) → Ev.told c' k n' ∉ (exec cfg (before ++ after)).log := by
  have hi := exec_inv cfg before
  have hs : Ev.shut g ∈ (exec cfg before).log := by
    rcases ((hi.done c hd).2 k .next hb).thrown rfl ht g h1 with hh | hh
    · exact (hi.flags g).1 hh
    · cases hh
  exact ⟨hs, fun c' n' hb' => C99_silent cfg before after g k c' (List.mem_of_getLast? h1) hs hb' n'⟩

end Rpp.Share
