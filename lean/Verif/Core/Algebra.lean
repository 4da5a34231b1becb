import Verif.Core.Props

/-!
# Laws of operators (C72)

Which pipelines a user may exchange for one another: they show every subscriber the same notifications, for every source.
-/

namespace Rpp

/-! ## Specification -/

/-- `p | q` -/
def Pipe.append : Pipe ε α β → Pipe ε β γ → Pipe ε α γ
  | .nil, q => q
  | .cons o p, q => .cons o (p.append q)

/-- Two pipelines no subscriber can tell apart by what it is shown: whatever its callbacks do (throwing, disposing the
subscription) and whatever calls the source makes.  (`Fits`: the subscriber's disposable container does not overflow.) -/
def Same [DecidableEq γ] [DecidableEq ε] (p q : Pipe ε α γ) : Prop :=
  ∀ (cap : Option Nat) (ov : ε) (react : List (Call γ ε) → Reaction ε) (cs : List (Call α ε)),
    Fits cap (p.finals.length + (upsOf cs).length) → Fits cap (q.finals.length + (upsOf cs).length) →
    subscriberSees cap ov react p cs = subscriberSees cap ov react q cs

/-- First `f`, then `g` unless `f` threw. -/
def andThen (f : α → Except ε β) (g : β → Except ε γ) (a : α) : Except ε γ :=
  match f a with
  | .ok b => g b
  | .error e => .error e

/-- First `p`, then `q` unless `p` was false or threw. -/
def both (p q : α → Except ε Bool) (a : α) : Except ε Bool :=
  match p a with
  | .ok true => q a
  | .ok false => .ok false
  | .error e => .error e

/-! ## Proofs -/

theorem Pipe.append_spec : {α β γ : Type} → (p : Pipe ε α β) → (q : Pipe ε β γ) → (t : Trace α ε) →
    (p.append q).spec t = q.spec (p.spec t)
  | _, _, _, .nil, _, _ => rfl
  | _, _, _, .cons _ p, q, _ => p.append_spec q _

theorem Pipe.append_WF : {α β γ : Type} → (p : Pipe ε α β) → (q : Pipe ε β γ) → p.WF → q.WF → (p.append q).WF
  | _, _, _, .nil, _, _, h => h
  | _, _, _, .cons _ p, q, h, h' => ⟨h.1, p.append_WF q h.2 h'⟩

theorem endWith_endWith (a b : Option ε) (fin : Option (Term ε)) :
    Spec.endWith b (Spec.endWith a fin) = Spec.endWith (b.or a) fin := by
  cases a <;> cases b <;> rfl

/-- Passing through, until an exception. -/
theorem mapUntil_andThen (f : α → Except ε β) (g : β → Except ε γ) (l : List α) :
    (Spec.mapUntil g (Spec.mapUntil f l).1).1 = (Spec.mapUntil (andThen f g) l).1 ∧
    (Spec.mapUntil g (Spec.mapUntil f l).1).2.or (Spec.mapUntil f l).2 = (Spec.mapUntil (andThen f g) l).2 := by
  induction l with
  | nil => exact ⟨rfl, rfl⟩
  | cons a l ih =>
    simp only [Spec.mapUntil, andThen]
    cases hf : f a with
    | error e => exact ⟨rfl, rfl⟩
    | ok b =>
      simp only [Spec.mapUntil]
      cases hg : g b with
      | error e => exact ⟨rfl, rfl⟩
      | ok c => exact ⟨by simp [ih.1], ih.2⟩

theorem filterUntil_both (p q : α → Except ε Bool) (l : List α) :
    (Spec.filterUntil q (Spec.filterUntil p l).1).1 = (Spec.filterUntil (both p q) l).1 ∧
    (Spec.filterUntil q (Spec.filterUntil p l).1).2.or (Spec.filterUntil p l).2 = (Spec.filterUntil (both p q) l).2 := by
  induction l with
  | nil => exact ⟨rfl, rfl⟩
  | cons a l ih =>
    simp only [Spec.filterUntil, both]
    rcases hp : p a with e | _ | _
    · exact ⟨rfl, rfl⟩
    · exact ih
    · simp only [Spec.filterUntil]
      rcases hq : q a with e | _ | _
      · exact ⟨rfl, rfl⟩
      · exact ih
      · exact ⟨by simp [ih.1], ih.2⟩

theorem takeWhile_both (p q : α → Except ε Bool) (l : List α) (fin : Option (Term ε)) :
    Spec.takeWhile q (Spec.takeWhile p l fin).vals (Spec.takeWhile p l fin).fin = Spec.takeWhile (both p q) l fin := by
  induction l with
  | nil => rfl
  | cons a l ih =>
    simp only [Spec.takeWhile, both]
    rcases hp : p a with e | _ | _
    · rfl
    · rfl
    · simp only [Spec.takeWhile]
      rcases hq : q a with e | _ | _
      · rfl
      · rfl
      · simp only [ih]

theorem map_filter (f : α → Except ε β) (p : β → Except ε Bool) (l : List α) :
    (Spec.filterUntil p (Spec.mapUntil f l).1).1 = (Spec.mapUntil f (Spec.filterUntil (andThen f p) l).1).1 ∧
    (Spec.filterUntil p (Spec.mapUntil f l).1).2.or (Spec.mapUntil f l).2 =
      (Spec.mapUntil f (Spec.filterUntil (andThen f p) l).1).2.or (Spec.filterUntil (andThen f p) l).2 := by
  induction l with
  | nil => exact ⟨rfl, rfl⟩
  | cons a l ih =>
    simp only [Spec.mapUntil, Spec.filterUntil, andThen]
    cases hf : f a with
    | error e => exact ⟨rfl, rfl⟩
    | ok b =>
      simp only [Spec.filterUntil]
      rcases hp : p b with e | _ | _
      · exact ⟨rfl, rfl⟩
      · exact ih
      · simp only [Spec.mapUntil, hf]
        exact ⟨by simp [ih.1], ih.2⟩

theorem mapUntil_length (f : α → Except ε β) (l : List α) : (Spec.mapUntil f l).1.length ≤ l.length := by
  induction l with
  | nil => simp [Spec.mapUntil]
  | cons a l ih => simp only [Spec.mapUntil]; split <;> simp; exact ih

theorem mapUntil_take (f : α → Except ε β) (l : List α) : ∀ n,
    (Spec.mapUntil f (l.take n)).1 = (Spec.mapUntil f l).1.take n ∧
    (Spec.mapUntil f (l.take n)).2 = if n ≤ (Spec.mapUntil f l).1.length then none else (Spec.mapUntil f l).2 := by
  induction l with
  | nil => intro n; simp [Spec.mapUntil]
  | cons a l ih =>
    intro n
    cases n with
    | zero => simp [Spec.mapUntil]
    | succ n =>
      cases hf : f a with
      | error e => simp [Spec.mapUntil, hf]
      | ok b => simp [Spec.mapUntil, hf, (ih n).1, (ih n).2]

theorem mapUntil_none (f : α → Except ε β) (l : List α) (h : (Spec.mapUntil f l).2 = none) :
    (Spec.mapUntil f l).1.length = l.length := by
  induction l with
  | nil => rfl
  | cons a l ih =>
    simp only [Spec.mapUntil] at h ⊢
    cases hf : f a with
    | error e => simp [hf] at h
    | ok b => simp [hf] at h; simp [ih h]

/-- The last running accumulation is the accumulation. -/
theorem scan_last (f : β → α → Except ε β) (l : List α) : ∀ s,
    (match l.foldlM f s with
      | .error e => (Spec.scanUntil f s l).2 = some e
      | .ok b => (Spec.scanUntil f s l).2 = none ∧ (s :: (Spec.scanUntil f s l).1).getLast? = some b) := by
  induction l with
  | nil => intro s; exact ⟨rfl, rfl⟩
  | cons a l ih =>
    intro s
    simp only [List.foldlM_cons, Spec.scanUntil]
    cases hf : f s a with
    | error e => rfl
    | ok b =>
      have := ih b
      simp only [bind, Except.bind]
      split at this
      · rename_i e he
        exact this
      · rename_i c hc
        refine ⟨this.1, ?_⟩
        simp only [List.getLast?_cons_cons]
        exact this.2

theorem collapse_collapse (eq : α → α → Except ε Bool) (l : List α) : ∀ prev,
    (Spec.collapse eq prev (Spec.collapse eq prev l).1) = ((Spec.collapse eq prev l).1, none) := by
  induction l with
  | nil => intro prev; rfl
  | cons a l ih =>
    intro prev
    cases h : prev.elim (Except.ok false) (fun l => eq l a) with
    | error e => simp only [Spec.collapse, h]
    | ok b =>
      cases b with
      | true => simp only [Spec.collapse, h]; exact ih prev
      | false => simp only [Spec.collapse, h, ih (some a)]

theorem nub_nodup [BEq α] [LawfulBEq α] (l : List α) : (Spec.nub l).Nodup := by
  induction l with
  | nil => simp [Spec.nub]
  | cons a l ih =>
    simp only [Spec.nub, List.nodup_cons]
    exact ⟨by simp, ih.filter _⟩

theorem nub_of_nodup [BEq α] [LawfulBEq α] (l : List α) (h : l.Nodup) : Spec.nub l = l := by
  induction l with
  | nil => rfl
  | cons a l ih =>
    rw [List.nodup_cons] at h
    rw [Spec.nub, ih h.2]
    congr 1
    rw [List.filter_eq_self]
    intro b hb
    simp only [Bool.not_eq_eq_eq_not, Bool.not_true, beq_eq_false_iff_ne]
    rintro rfl
    exact h.1 hb

section
variable [DecidableEq γ] [DecidableEq ε]

theorem same_of_spec {p q : Pipe ε α γ} (hp : p.WF) (hq : q.WF) (h : ∀ t, p.spec t = q.spec t) : Same p q := by
  classical
  intro cap ov react cs h1 h2
  rw [C04_pipeline cap ov react p hp cs h1, C04_pipeline cap ov react q hq cs h2, h]

/-- Every sequence can be made by a source. -/
theorem traceOf_surj (t : Trace α ε) : ∃ cs, traceOf cs = t := by
  classical
  exact ⟨_, traceOf_deliver_passive t.vals t.fin []⟩

theorem spec_of_same {p q : Pipe ε α γ} (hp : p.WF) (hq : q.WF) (ov : ε) (h : Same p q) (t : Trace α ε) :
    p.spec t = q.spec t := by
  classical
  obtain ⟨cs, rfl⟩ := traceOf_surj t
  rw [← C04_seen ov p hp cs, ← C04_seen ov q hq cs]
  exact congrArg traceOf (h none ov (fun _ => {}) cs (fun _ h => by cases h) (fun _ h => by cases h))

end

/-! ## The laws -/

section
variable [DecidableEq β] [DecidableEq γ] [DecidableEq ε]

/-- C72: equal parts of a pipeline may be exchanged for one another wherever they occur. -/
theorem C72_congr (r : Pipe ε δ α) (p q : Pipe ε α β) (s : Pipe ε β γ) (hr : r.WF) (hp : p.WF) (hq : q.WF) (hs : s.WF)
    (h : Same p q) : Same (r.append (p.append s)) (r.append (q.append s)) := by
  intro cap ov
  revert cap ov
  suffices h : ∀ _ : ε, Same (r.append (p.append s)) (r.append (q.append s)) from fun cap ov => h ov cap ov
  intro ov
  refine same_of_spec (Pipe.append_WF _ _ hr (Pipe.append_WF _ _ hp hs)) (Pipe.append_WF _ _ hr (Pipe.append_WF _ _ hq hs)) ?_
  intro t
  simp only [Pipe.append_spec, spec_of_same hp hq ov h]

/-- Laws need no side conditions except where stated. -/
local macro "law " : tactic => `(tactic| refine same_of_spec (by simp [Pipe.WF, Op.WF]) (by simp [Pipe.WF, Op.WF]) ?_)

/-! ### Fusion -/

/-- C72: `map(f) | map(g)` is `map(g ∘ f)`. -/
theorem C72_map_map (f : α → Except ε β) (g : β → Except ε γ) :
    Same (.cons (.map f) (.cons (.map g) .nil)) (.cons (.map (andThen f g)) .nil) := by
  law
  intro t
  simp only [Pipe.spec, Op.spec, Spec.map, endWith_endWith, (mapUntil_andThen f g t.vals).1, (mapUntil_andThen f g t.vals).2]

/-- C72: `filter(p) | filter(q)` is `filter(p && q)`. -/
theorem C72_filter_filter (p q : β → Except ε Bool) :
    Same (.cons (.filter p) (.cons (.filter q) .nil)) (.cons (.filter (both p q)) .nil) := by
  law
  intro t
  simp only [Pipe.spec, Op.spec, Spec.filter, endWith_endWith, (filterUntil_both p q t.vals).1, (filterUntil_both p q t.vals).2]

/-- C72: `take_while(p) | take_while(q)` is `take_while(p && q)`. -/
theorem C72_takeWhile_takeWhile (p q : β → Except ε Bool) :
    Same (.cons (.takeWhile p) (.cons (.takeWhile q) .nil)) (.cons (.takeWhile (both p q)) .nil) := by
  law
  intro t
  simp only [Pipe.spec, Op.spec, takeWhile_both]

/-- C72: `take(n) | take(m)` is `take(min(n, m))`. -/
theorem C72_take_take (n m : Nat) :
    Same (ε := ε) (α := β) (.cons (.take n) (.cons (.take m) .nil)) (.cons (.take (min n m)) .nil) := by
  law
  intro t
  simp only [Pipe.spec, Op.spec, Spec.take, List.take_take, List.length_take, Nat.min_comm m n]
  congr 1
  repeat' split
  all_goals first | rfl | omega

/-- C72: `skip(n) | skip(m)` is `skip(n + m)`. -/
theorem C72_skip_skip (n m : Nat) :
    Same (ε := ε) (α := β) (.cons (.skip n) (.cons (.skip m) .nil)) (.cons (.skip (n + m)) .nil) := by
  law
  intro t
  simp only [Pipe.spec, Op.spec, Spec.skip, List.drop_drop]

/-- C72: `take_last(n) | take_last(m)` is `take_last(min(n, m))`. -/
theorem C72_takeLast_takeLast (n m : Nat) :
    Same (ε := ε) (α := β) (.cons (.takeLast n) (.cons (.takeLast m) .nil)) (.cons (.takeLast (min n m)) .nil) := by
  law
  rintro ⟨vs, _ | _ | _⟩
  · rfl
  · rfl
  · simp only [Pipe.spec, Op.spec, Spec.takeLast, List.drop_drop, List.length_drop]
    congr 2
    omega

/-- C72: `distinct()` twice is `distinct()`. -/
theorem C72_distinct_distinct [BEq β] [LawfulBEq β] :
    Same (ε := ε) (α := β) (.cons .distinct (.cons .distinct .nil)) (.cons .distinct .nil) := by
  refine same_of_spec ⟨inferInstanceAs (LawfulBEq β), inferInstanceAs (LawfulBEq β), trivial⟩
    ⟨inferInstanceAs (LawfulBEq β), trivial⟩ ?_
  intro t
  simp only [Pipe.spec, Op.spec, Spec.distinct, nub_of_nodup _ (nub_nodup t.vals)]

/-- C72: `distinct_until_changed(eq)` twice is `distinct_until_changed(eq)`, for any comparison. -/
theorem C72_distinctUntilChanged_twice (eq : β → β → Except ε Bool) :
    Same (.cons (.distinctUntilChanged eq) (.cons (.distinctUntilChanged eq) .nil)) (.cons (.distinctUntilChanged eq) .nil) := by
  law
  intro t
  simp only [Pipe.spec, Op.spec, Spec.distinctUntilChanged, collapse_collapse, Spec.endWith]

/-! ### Exchange -/

/-- C72: filtering the results of a function is filtering its arguments first. -/
theorem C72_map_filter (f : α → Except ε β) (p : β → Except ε Bool) :
    Same (.cons (.map f) (.cons (.filter p) .nil)) (.cons (.filter (andThen f p)) (.cons (.map f) .nil)) := by
  law
  intro t
  simp only [Pipe.spec, Op.spec, Spec.filter, Spec.map, endWith_endWith, (map_filter f p t.vals).1, (map_filter f p t.vals).2]

/-- C72: `map(f) | take(n)` is `take(n) | map(f)` for `n ≥ 1`, even if `f` throws. -/
theorem C72_map_take (f : α → Except ε β) (n : Nat) (hn : 1 ≤ n) :
    Same (.cons (.map f) (.cons (.take n) .nil)) (.cons (.take n) (.cons (.map f) .nil)) := by
  law
  intro t
  simp only [Pipe.spec, Op.spec, Spec.take, Spec.map, (mapUntil_take f t.vals n).1, (mapUntil_take f t.vals n).2]
  congr 1
  have h1 := mapUntil_length f t.vals
  have h2 := mapUntil_none f t.vals
  have hm : max 1 n = n := by omega
  simp only [hm]
  by_cases h : n ≤ (Spec.mapUntil f t.vals).1.length
  · rw [if_pos h, if_pos h, if_pos (by omega)]; rfl
  · rw [if_neg h, if_neg h]
    cases he : (Spec.mapUntil f t.vals).2 with
    | none => rw [if_neg (by have := h2 he; omega)]
    | some e => rfl

/-- C72: `map(f) | skip(n)` is `skip(n) | map(f)` if `f` does not throw. -/
theorem C72_map_skip (f : α → β) (n : Nat) :
    Same (ε := ε) (.cons (.map (fun a => .ok (f a))) (.cons (.skip n) .nil))
      (.cons (.skip n) (.cons (.map (fun a => .ok (f a))) .nil)) := by
  law
  classical
  intro t
  simp only [Pipe.spec, Op.spec, Spec.skip, Spec.map, mapUntil_ok, List.map_drop]

/-- C72: `skip(n) | take(m)` is `take(n + m) | skip(n)` for `m ≥ 1`. -/
theorem C72_skip_take (n m : Nat) (hm : 1 ≤ m) :
    Same (ε := ε) (α := β) (.cons (.skip n) (.cons (.take m) .nil)) (.cons (.take (n + m)) (.cons (.skip n) .nil)) := by
  law
  intro t
  simp only [Pipe.spec, Op.spec, Spec.skip, Spec.take, List.drop_take, List.length_drop]
  congr 1
  · congr 1; omega
  · repeat' split
    all_goals first | rfl | omega

/-! ### Operators in terms of others -/

/-- C72: `element_at(i)` is `skip(i) | first()`, up to the exception if there is no such value. -/
theorem C72_elementAt (i : Nat) (e : ε) (hi : i + 1 < 2 ^ 64) :
    Same (α := β) (.cons (.elementAt i e) .nil) (.cons (.skip i) (.cons (.first e) .nil)) := by
  refine same_of_spec ⟨hi, trivial⟩ (by simp [Pipe.WF, Op.WF]) ?_
  intro t
  simp only [Pipe.spec, Op.spec, Spec.skip, Spec.elementAt, Spec.first]
  have h : t.vals[i]? = (t.vals.drop i).head? := by simp
  rw [h]
  cases t.vals.drop i with
  | cons a l => rfl
  | nil => rcases t.fin with _ | _ | _ <;> rfl

/-- C72: `first()` is `take(1) | last()`. -/
theorem C72_first (e : ε) :
    Same (α := β) (.cons (.first e) .nil) (.cons (.take 1) (.cons (.last e) .nil)) := by
  law
  rintro ⟨_ | ⟨a, l⟩, _ | _ | _⟩ <;> simp [Pipe.spec, Op.spec, Spec.take, Spec.first, Spec.last]

/-- C72: `last()` is `take_last(1) | first()`. -/
theorem C72_last (e : ε) :
    Same (α := β) (.cons (.last e) .nil) (.cons (.takeLast 1) (.cons (.first e) .nil)) := by
  law
  rintro ⟨l, _ | _ | _⟩
  · rfl
  · rfl
  · simp only [Pipe.spec, Op.spec, Spec.takeLast, Spec.first, Spec.last]
    rcases List.eq_nil_or_concat l with rfl | ⟨l', a, rfl⟩
    · rfl
    · simp

/-- C72: `reduce(seed, f)` is `scan(seed, f) | last()`; `last` never lacks a value here. -/
theorem C72_reduce (seed : β) (f : β → α → Except ε β) (e : ε) :
    Same (.cons (.reduce seed f) .nil) (.cons (.scan seed f) (.cons (.last e) .nil)) := by
  law
  intro t
  simp only [Pipe.spec, Op.spec, Spec.reduce, Spec.scan, Spec.last]
  have h := scan_last f t.vals seed
  cases hr : t.vals.foldlM f seed with
  | error x => rw [hr] at h; simp only [h, Spec.endWith]
  | ok b =>
    rw [hr] at h
    simp only [h.1, h.2, Spec.endWith]

/-- C72: `reduce(f)` is `scan(f) | take_last(1)`. -/
theorem C72_reduceNoSeed (f : β → β → Except ε β) :
    Same (.cons (.reduceNoSeed f) .nil) (.cons (.scanNoSeed f) (.cons (.takeLast 1) .nil)) := by
  law
  rintro ⟨_ | ⟨a, l⟩, fin⟩
  · rcases fin with _ | _ | _ <;> rfl
  · simp only [Pipe.spec, Op.spec, Spec.reduceNoSeed, Spec.scanNoSeed, Spec.reduce, Spec.scan, Spec.takeLast]
    have h := scan_last f l a
    cases hr : l.foldlM f a with
    | error x => rw [hr] at h; simp only [h, Spec.endWith]
    | ok b =>
      rw [hr] at h
      simp only [h.1, Spec.endWith]
      rcases fin with _ | _ | _
      · rfl
      · rfl
      · simp only
        have h2 := h.2
        obtain ⟨l', hl'⟩ := List.getLast?_eq_some_iff.1 h2
        rw [hl']
        simp

/-- C72: `buffer(1)` is `map` to singletons. -/
theorem C72_buffer_one :
    Same (ε := ε) (α := β) (.cons (.buffer 1) .nil) (.cons (.map (fun a => .ok [a])) .nil) := by
  law
  intro t
  have hf : Spec.fullChunks 1 t.vals = t.vals.map (fun a => [a]) := by
    apply List.ext_getElem
    · simp [Spec.fullChunks]
    · intro i h1 h2
      simp only [List.length_map] at h2
      simp [Spec.fullChunks, Spec.chunk, List.take_one, List.head?_drop, List.getElem?_eq_getElem h2]
  have hrem : Spec.remainder 1 t.vals = [] := by simp [Spec.remainder]
  simp only [Pipe.spec, Op.spec, Spec.buffer, Spec.map, mapUntil_ok, Nat.max_self, hf, hrem]
  rcases t.fin with _ | _ | _ <;> simp [Spec.endWith]

/-! ### No effect -/

theorem C72_map_id : Same (ε := ε) (α := β) (.cons (.map .ok) .nil) .nil := by
  law
  intro t
  have := mapUntil_ok (ε := ε) (id : β → β) t.vals
  simp only [id] at this
  simp only [Pipe.spec, Op.spec, Spec.map, this, Spec.endWith]
  simp

theorem C72_filter_true : Same (ε := ε) (α := β) (.cons (.filter (fun _ => .ok true)) .nil) .nil := by
  law
  intro t
  have : ∀ l : List β, Spec.filterUntil (fun _ => (.ok true : Except ε Bool)) l = (l, none) := by
    intro l; induction l with
    | nil => rfl
    | cons a l ih => simp only [Spec.filterUntil, ih]
  simp only [Pipe.spec, Op.spec, Spec.filter, this, Spec.endWith]

theorem C72_takeWhile_true : Same (ε := ε) (α := β) (.cons (.takeWhile (fun _ => .ok true)) .nil) .nil := by
  law
  intro t
  have : ∀ (l : List β) (fin : Option (Term ε)), Spec.takeWhile (fun _ => (.ok true : Except ε Bool)) l fin = ⟨l, fin⟩ := by
    intro l fin; induction l with
    | nil => rfl
    | cons a l ih => simp only [Spec.takeWhile, ih]
  simp only [Pipe.spec, Op.spec, this]

theorem C72_skip_zero : Same (ε := ε) (α := β) (.cons (.skip 0) .nil) .nil := by
  law
  intro t
  rfl

/-- C72: `tap` whose callback does not throw, and `finally`, leave the sequence alone. -/
theorem C72_tap : Same (ε := ε) (α := β) (.cons (.tap (fun _ => none)) .nil) .nil := by
  law
  intro t
  have := mapUntil_ok (ε := ε) (id : β → β) t.vals
  simp only [id] at this
  simp only [Pipe.spec, Op.spec, Spec.tap, Spec.map, this, Spec.endWith]
  simp

theorem C72_finally (d : Nat) : Same (ε := ε) (α := β) (.cons (.finallyOp d) .nil) .nil := by
  law
  intro t
  rfl

end

/-! ### The side conditions matter -/

/-- `map(f) | take(0)` shows the exception of `f`, `take(0) | map(f)` does not call `f`. -/
theorem C72_map_take_zero : ¬ Same (ε := Nat) (α := Nat) (γ := Nat)
    (.cons (.map (fun _ => .error 7)) (.cons (.take 0) .nil)) (.cons (.take 0) (.cons (.map (fun _ => .error 7)) .nil)) := by
  intro h
  exact absurd (h none 0 (fun _ => {}) [.next 1] (fun _ h => by cases h) (fun _ h => by cases h)) (by decide)

/-- `map(f) | skip(1)` shows the exception `f` throws on the skipped value. -/
theorem C72_map_skip_throwing : ¬ Same (ε := Nat) (α := Nat) (γ := Nat)
    (.cons (.map (fun _ => .error 7)) (.cons (.skip 1) .nil)) (.cons (.skip 1) (.cons (.map (fun _ => .error 7)) .nil)) := by
  intro h
  exact absurd (h none 0 (fun _ => {}) [.next 1] (fun _ h => by cases h) (fun _ h => by cases h)) (by decide)

/-- `skip(1) | take(0)` completes with the second value, `take(1) | skip(1)` with the first. -/
theorem C72_skip_take_zero : ¬ Same (ε := Nat) (α := Nat) (γ := Nat)
    (.cons (.skip 1) (.cons (.take 0) .nil)) (.cons (.take (1 + 0)) (.cons (.skip 1) .nil)) := by
  intro h
  exact absurd (h none 0 (fun _ => {}) [.next 1] (fun _ h => by cases h) (fun _ h => by cases h)) (by decide)

/-- `filter(p) | take(n)` is not `take(n) | filter(p)`. -/
theorem C72_filter_take : ¬ Same (ε := Nat) (α := Nat) (γ := Nat)
    (.cons (.filter (fun a => .ok (a == 2))) (.cons (.take 1) .nil))
    (.cons (.take 1) (.cons (.filter (fun a => .ok (a == 2))) .nil)) := by
  intro h
  exact absurd (h none 0 (fun _ => {}) [.next 1, .next 2] (fun _ h => by cases h) (fun _ h => by cases h)) (by decide)

/-- A law used inside a pipeline: both sides show a subscriber that throws on its second value the same. -/
example : subscriberSees (ε := Nat) none 0 (fun h => { throws := if h.length = 2 then some 9 else none })
      (.cons (.skip 1) (.cons (.map (fun a : Nat => .ok (a + 1))) (.cons (.map (fun a : Nat => .ok (a * 2))) .nil)))
      [.next 1, .next 2, .next 3, .next 4]
    = [.next 6, .next 8, .error 9]
  ∧ subscriberSees (ε := Nat) none 0 (fun h => { throws := if h.length = 2 then some 9 else none })
      (.cons (.skip 1) (.cons (.map (andThen (fun a : Nat => .ok (a + 1)) (fun a : Nat => .ok (a * 2)))) .nil))
      [.next 1, .next 2, .next 3, .next 4]
    = [.next 6, .next 8, .error 9] := by decide

end Rpp
