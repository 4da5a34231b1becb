import Verif.Combine.Locks

/-!
# Mutexes across threads: proofs for C95
-/

namespace Rpp.Locks

open Rpp.Emit (Instr Port)

/-- What the rest of a body does with the mutexes `mine` held; models no code. Mutexes are locked in ascending order, except that mutex `0` of a subject or
queue (`src`) may be locked at any time, nothing but unlocking happens while it is held; all are unlocked in the end; calls are
made under a mutex only if `holds`. -/
def ord (src holds : Bool) : List Instr → List Nat → Bool
  | [], mine => mine.isEmpty
  | .lock m :: c, mine =>
    ((src && m == 0) || mine.all (fun x => decide (x < m))) && (!src || !mine.contains 0) && ord src holds c (m :: mine)
  | .unlock m :: c, mine => ord src holds c (mine.erase m)
  | .down :: c, mine => (mine.isEmpty || holds) && (!src || !mine.contains 0) && ord src holds c mine

theorem ord_down {src holds : Bool} {mine : List Nat} (h : (mine.isEmpty || holds) = true) (h0 : (!src || !mine.contains 0) = true)
    (c : List Instr) : ∀ n, ord src holds c mine = true → ord src holds (List.replicate n .down ++ c) mine = true
  | 0, hc => by simpa using hc
  | n + 1, hc => by
    simp only [List.replicate_succ, List.cons_append, ord, h, h0, Bool.true_and]
    exact ord_down h h0 c n hc

theorem ord_down' {src holds : Bool} {mine : List Nat} (h : (mine.isEmpty || holds) = true) (h0 : (!src || !mine.contains 0) = true)
    (n : Nat) (hc : mine = []) : ord src holds (List.replicate n .down) mine = true := by
  have := ord_down h h0 [] n (by simp [ord, hc])
  simpa using this

/-- The mutexes of with_latest_from's values, locked in this order. -/
def lockRange (a n : Nat) : List Nat := (List.range n).map (fun i => a + i + 1)

theorem lockRange_succ (a n : Nat) : lockRange a (n + 1) = (a + 1) :: lockRange (a + 1) n := by
  simp only [lockRange, List.range_succ_eq_map, List.map_cons, List.map_map, Nat.add_zero]
  congr 1
  apply List.map_congr_left
  intro i _
  simp only [Function.comp]
  omega

theorem ord_locks (holds : Bool) (c : List Instr) : ∀ (n a : Nat) (mine : List Nat), (∀ x ∈ mine, x ≤ a) →
    ord false holds c ((lockRange a n).reverse ++ mine) = true →
    ord false holds ((lockRange a n).map .lock ++ c) mine = true
  | 0, a, mine, _, hc => by simpa [lockRange] using hc
  | n + 1, a, mine, hm, hc => by
    rw [lockRange_succ] at hc ⊢
    simp only [List.map_cons, List.cons_append, ord, Bool.false_and, Bool.false_or, Bool.not_false, Bool.true_or, Bool.and_true]
    rw [Bool.and_eq_true]
    refine ⟨by simp only [List.all_eq_true, decide_eq_true_eq]; intro x hx; have := hm x hx; omega, ?_⟩
    apply ord_locks holds c n (a + 1)
    · intro x hx
      rcases List.mem_cons.1 hx with rfl | hx
      · omega
      · have := hm x hx; omega
    · simpa using hc

theorem ord_unlocks (holds : Bool) (c : List Instr) : ∀ (l mine : List Nat),
    ord false holds c (l.foldl List.erase mine) = true → ord false holds (l.map .unlock ++ c) mine = true
  | [], _, hc => by simpa using hc
  | m :: l, mine, hc => by
    simp only [List.map_cons, List.cons_append, ord]
    exact ord_unlocks holds c l _ hc

theorem foldl_erase_perm : ∀ (l mine : List Nat), l.Perm mine → l.foldl List.erase mine = []
  | [], mine, h => by simpa using h
  | m :: l, mine, h => by
    rw [List.foldl_cons]
    apply foldl_erase_perm
    have := List.Perm.erase m h
    simpa using this

theorem ord_drain (n : Nat) : ord false false ((List.replicate n [Instr.lock 0, .unlock 0, .down]).flatten ++ [.lock 0, .unlock 0]) [] = true := by
  induction n with
  | zero => rfl
  | succ n ih => simpa [List.replicate_succ, ord] using ih

theorem ord_code (e : Entry) (h : e.clean = true) : ord e.src e.holds e.code [] = true := by
  cases e with
  | next p =>
    cases p with
    | zip d => cases d <;> rfl
    | combineLatest d => cases d <;> rfl
    | latestMain n d =>
      have hl : (List.range n).map (fun i => Instr.lock (i + 1)) = (lockRange 0 n).map .lock := by
        simp only [lockRange, List.map_map]; apply List.map_congr_left; intro i _; simp
      have hu : (List.range n).map (fun i => Instr.unlock (i + 1)) = (lockRange 0 n).map .unlock := by
        simp only [lockRange, List.map_map]; apply List.map_congr_left; intro i _; simp
      simp only [Entry.src, Entry.holds, Entry.code, Port.code, hl, hu, List.append_assoc]
      apply ord_locks
      · intro x hx; cases hx
      apply ord_unlocks
      rw [List.append_nil, foldl_erase_perm _ _ (List.reverse_perm _).symm]
      cases d <;> rfl
    | latestOther i => simp [Entry.src, Entry.holds, Entry.code, Port.code, ord]
    | windowToggle n =>
      simp only [Entry.src, Entry.holds, Entry.code, Port.code]
      simp only [List.singleton_append, List.cons_append, ord]
      simp only [Bool.false_and, Bool.not_false, Bool.true_or, List.all_nil, Bool.or_true, Bool.true_and]
      exact ord_down (by simp) (by simp) _ n (by simp [ord])
    | subject n =>
      simp only [Entry.src, Entry.holds, Entry.code, Port.code, List.cons_append, List.nil_append]
      simp [ord, ord_down']
    | serializedSubject n =>
      simp only [Entry.src, Entry.holds, Entry.code, Port.code, List.cons_append, List.nil_append]
      simp only [ord, List.append_assoc]
      simp
      exact ord_down (by simp) (by simp) _ n (by simp [ord])
    | _ => rfl
  | guarded n =>
    simp only [Entry.src, Entry.holds, Entry.code, List.cons_append, ord]
    simp only [Bool.false_and, Bool.not_false, Bool.true_or, List.all_nil, Bool.or_true, Bool.true_and]
    exact ord_down (by simp) (by simp) _ n (by simp [ord])
  | calls n => exact ord_down' (by simp) (by simp [Entry.src]) n rfl
  | subjectEnd ser n k =>
    cases ser
    · simp only [Entry.src, Entry.holds, Entry.code, List.cons_append, List.nil_append, List.append_assoc, Bool.false_eq_true, if_false]
      simp only [ord]
      simp
      exact ord_down (by simp) (by simp) _ n (by simp [ord, ord_down'])
    · simp only [Entry.src, Entry.holds, Entry.code, List.cons_append, List.nil_append, List.append_assoc, if_true]
      simp only [ord]
      simp
      exact ord_down (by simp) (by simp) _ n (by simp [ord, ord_down'])
  | leave n =>
    have : n = 0 := by simpa [Entry.clean] using h
    subst this; rfl
  | pump n =>
    have : n = 0 := by simpa [Entry.clean] using h
    subst this; rfl
  | delayDrain n => exact ord_drain n
  | _ => rfl

/-! ## The invariant -/

section
variable (net : Net) (ri ru : Nat → Nat) (src : Nat → Bool)

/-- `Below` for an activation record; models no code. -/
def lev (r : Nat) (strict : Bool) : Frame → Prop
  | .fn j e _ _ => e.free = true ∨ (r ≤ ri j ∧ (strict = true → r < ri j))
  | .cb (some u) _ => r ≤ ru u ∧ (strict = true → r < ru u)
  | .cb none _ => False

/-- `f` is below `g` in a stack; models no code. -/
def Over (g f : Frame) : Prop :=
  match f with
  | .cb none _ => ∃ u : Frame, u = g ∧ ∀ l, g ≠ .cb none l
  | .cb (some u) _ => lev ri ru (ru u) false g
  | .fn i e _ mine => e.free = false ∧ (src i = true → 0 ∉ mine) ∧ lev ri ru (ri i) (!mine.isEmpty) g

/-- What holds of each activation record; models no code. -/
def Okay : Frame → Prop
  | .fn i e code mine => e.src = src i ∧ e.clean = true ∧ ord (src i) e.holds code mine = true ∧
      (e.free = true → ∀ x ∈ code, x = .lock 0 ∨ x = .unlock 0)
  | .cb u todo => (∀ x ∈ todo, Fine src x) ∧ ∀ v, u = some v → ∀ x ∈ todo, Below ri ru (ru v) false x

/-- The mutex `x` is held by a record of this stack; models no code. -/
def Holds (fs : List Frame) (x : Nat × Nat) : Prop := ∃ e code mine, .fn x.1 e code mine ∈ fs ∧ x.2 ∈ mine

/-- The invariant of all executions; models no code. -/
structure Inv (s : St) : Prop where
  okay : ∀ t, ∀ f ∈ s.stack t, Okay ri ru src f
  over : ∀ t, (s.stack t).Pairwise (Over ri ru src)
  own : ∀ x t, s.owner x = some t → Holds (s.stack t) x

end

theorem stack_lt {s : St} {t : Nat} (h : s.stack t ≠ []) : t < s.stacks.length := by
  unfold St.stack at h
  by_cases hl : t < s.stacks.length
  · exact hl
  · exact absurd (by rw [List.getD_eq_getElem?_getD, List.getElem?_eq_none (by omega)]; rfl) h

theorem stack_put (s : St) (t u : Nat) (fs : List Frame) (h : t < s.stacks.length) :
    (s.put t fs).stack u = if u = t then fs else s.stack u := by
  unfold St.put St.stack
  simp only [List.getD_eq_getElem?_getD, List.getElem?_set, h, if_true]
  by_cases hu : t = u
  · subst hu; simp
  · rw [if_neg hu, if_neg (fun h => hu h.symm)]

section
variable {net : Net} {ri ru : Nat → Nat} {src : Nat → Bool}

/-- Replacing one stack. -/
theorem Inv.put {s : St} (I : Inv ri ru src s) {t : Nat} (hl : t < s.stacks.length) {fs : List Frame} {o : Nat × Nat → Option Nat} {k : Nat}
    (h1 : ∀ f ∈ fs, Okay ri ru src f) (h2 : fs.Pairwise (Over ri ru src))
    (h3 : ∀ x u, o x = some u → if u = t then Holds fs x else s.owner x = some u) :
    Inv ri ru src { s.put t fs with owner := o, calls := k } := by
  have hs : ∀ u, St.stack { s.put t fs with owner := o, calls := k } u = if u = t then fs else s.stack u := fun u => stack_put s t u fs hl
  refine ⟨?_, ?_, ?_⟩
  · intro u f hf
    rw [hs] at hf
    by_cases hu : u = t
    · rw [if_pos hu] at hf; exact h1 f hf
    · rw [if_neg hu] at hf; exact I.okay u f hf
  · intro u
    rw [hs]
    by_cases hu : u = t
    · rw [if_pos hu]; exact h2
    · rw [if_neg hu]; exact I.over u
  · intro x u hx
    have := h3 x u hx
    rw [hs]
    by_cases hu : u = t
    · rw [if_pos hu] at this ⊢; exact this
    · rw [if_neg hu] at this ⊢; exact I.own x u this

/-- `Over` depends on the upper record through what it is a record of. -/
theorem over_fn {i : Nat} {e : Entry} {c c' : List Instr} {m m' : List Nat} {f : Frame} (h : Over ri ru src (.fn i e c m) f) :
    Over ri ru src (.fn i e c' m') f := by
  match f with
  | .cb none _ => exact ⟨_, rfl, fun _ h => by cases h⟩
  | .cb (some u) _ => exact h
  | .fn j e' _ mine => exact h

theorem over_cb {u : Option Nat} {l l' : List Target} {f : Frame} (h : Over ri ru src (.cb u l) f) : Over ri ru src (.cb u l') f := by
  match f, u with
  | .cb none _, none => obtain ⟨_, _, h⟩ := h; exact absurd rfl (h l)
  | .cb none _, some _ => exact ⟨_, rfl, fun _ h => by cases h⟩
  | .cb (some _) _, none => exact h
  | .cb (some _) _, some _ => exact h
  | .fn .., none => exact h
  | .fn .., some _ => exact h

theorem over_none {l : List Target} {f : Frame} : ¬ Over ri ru src (.cb none l) f := by
  intro h
  match f with
  | .cb none _ => obtain ⟨_, _, h⟩ := h; exact h l rfl
  | .cb (some _) _ => exact h
  | .fn .. => exact h.2.2

theorem lev_trans {r r' : Nat} {st st' : Bool} {g : Frame} (h : lev ri ru r' st' g) (hr : r ≤ r') (hst : st = true → r < r') : lev ri ru r st g := by
  match g with
  | .fn j e _ _ =>
    rcases h with h | h
    · exact .inl h
    · exact .inr ⟨by omega, fun x => by have := hst x; omega⟩
  | .cb (some u) _ => exact ⟨by have := h.1; omega, fun x => by have := hst x; have := h.1; omega⟩
  | .cb none _ => exact h

/-- A call: the new record is above all those below the caller. -/
theorem over_call {h x f : Frame} (hh : Over ri ru src h f) (hx : Over ri ru src x h) (hn : ∀ i e c m, h = .fn i e c m → e.free = false) : Over ri ru src x f := by
  have key : ∀ r st, lev ri ru r st h → lev ri ru r st x := by
    intro r st hl
    match h with
    | .cb none _ => exact hl.elim
    | .cb (some u) _ => exact lev_trans hx hl.1 hl.2
    | .fn i e c m =>
      rcases hl with hl | hl
      · rw [hn _ _ _ _ rfl] at hl; cases hl
      · exact lev_trans hx.2.2 hl.1 hl.2
  match f with
  | .cb none _ =>
    refine ⟨_, rfl, ?_⟩
    rintro l rfl
    exact over_none hx
  | .cb (some u) _ => exact key _ _ hh
  | .fn i e c m => exact ⟨hh.1, hh.2.1, key _ _ hh.2.2⟩

/-- The record of a called function or callback; models no code. -/
def Target.frame (net : Net) (k : Nat) : Target → Frame
  | .fn i e => .fn i e e.code []
  | .user u => .cb (some u) (net.user u k)

theorem lev_weak {r : Nat} {st st' : Bool} {g : Frame} (h : lev ri ru r st' g) (hst : st = true → st' = true) : lev ri ru r st g := by
  match g with
  | .fn j e _ _ =>
    rcases h with h | h
    · exact .inl h
    · exact .inr ⟨h.1, fun x => h.2 (hst x)⟩
  | .cb (some u) _ => exact ⟨h.1, fun x => h.2 (hst x)⟩
  | .cb none _ => exact h

theorem okay_call {progs : List (List Target)} (hA : Acyclic net ri ru) (hC : Clean net src progs) {k : Nat} {x : Target} (hx : Fine src x) :
    Okay ri ru src (x.frame net k) := by
  match x with
  | .fn i e =>
    refine ⟨hx.1, hx.2, ?_, ?_⟩
    · rw [← hx.1]; exact ord_code e hx.2
    · intro hf
      cases e with
      | leave n =>
        have : n = 0 := by simpa [Fine, Entry.clean] using hx.2
        subst this
        simp [Entry.code]
      | put => simp [Entry.code]
      | _ => cases hf
  | .user u =>
    refine ⟨fun y hy => hC.user u k y hy, ?_⟩
    rintro v h
    cases h
    exact fun y hy => hA.user u k y hy

theorem lev_call {r : Nat} {st : Bool} {k : Nat} {x : Target} (h : Below ri ru r st x) :
    lev ri ru r st (x.frame net k) := by
  match x with
  | .fn i e => exact h
  | .user u => exact h

/-- What the caller's record becomes, with the called one above it. -/
theorem Inv.enter {progs : List (List Target)} (hA : Acyclic net ri ru) (hC : Clean net src progs) {s : St} (I : Inv ri ru src s) {t : Nat}
    {h : Frame} {fs : List Frame} (hl : t < s.stacks.length)
    (h1 : ∀ f ∈ h :: fs, Okay ri ru src f) (h2 : (h :: fs).Pairwise (Over ri ru src))
    (h3 : ∀ x, s.owner x = some t → Holds (h :: fs) x) {x : Option Target}
    (hf : ∀ y, x = some y → Fine src y)
    (ho : ∀ y, x = some y → Over ri ru src (y.frame net s.calls) h)
    (hn : ∀ i e c m, h = .fn i e c m → e.free = false) : Inv ri ru src (s.enter net t (h :: fs) x) := by
  have own : ∀ (g : List Frame), (∀ f ∈ h :: fs, f ∈ g) → ∀ x u, s.owner x = some u → if u = t then Holds g x else s.owner x = some u := by
    intro g hg x u hx
    by_cases hu : u = t
    · rw [if_pos hu]
      subst hu
      obtain ⟨e, c, m, hm, hx⟩ := h3 x hx
      exact ⟨e, c, m, hg _ hm, hx⟩
    · rw [if_neg hu]; exact hx
  match x with
  | none => exact I.put hl h1 h2 (own _ (fun _ h => h))
  | some (.fn i e) =>
    refine I.put hl ?_ ?_ (own _ (fun _ h => List.mem_cons_of_mem _ h))
    · intro f hfm
      rcases List.mem_cons.1 hfm with rfl | hfm
      · exact okay_call (k := 0) hA hC (hf _ rfl)
      · exact h1 f hfm
    · refine List.pairwise_cons.2 ⟨?_, h2⟩
      intro f hfm
      have := ho _ rfl
      rcases List.mem_cons.1 hfm with rfl | hfm
      · exact this
      · exact over_call ((List.pairwise_cons.1 h2).1 f hfm) this hn
  | some (.user u) =>
    refine I.put hl ?_ ?_ (own _ (fun _ h => List.mem_cons_of_mem _ h))
    · intro f hfm
      rcases List.mem_cons.1 hfm with rfl | hfm
      · exact okay_call (x := .user u) hA hC (hf _ rfl)
      · exact h1 f hfm
    · refine List.pairwise_cons.2 ⟨?_, h2⟩
      intro f hfm
      have := ho _ rfl
      rcases List.mem_cons.1 hfm with rfl | hfm
      · exact this
      · exact over_call ((List.pairwise_cons.1 h2).1 f hfm) this hn

theorem Inv.step {progs : List (List Target)} (hA : Acyclic net ri ru) (hC : Clean net src progs) {s : St} (I : Inv ri ru src s) (t : Nat) :
    Inv ri ru src (step net s t) := by
  have ok := I.okay t
  have ov := I.over t
  have ow := fun x => I.own x t
  have hl : s.stack t ≠ [] → t < s.stacks.length := stack_lt
  unfold Locks.step
  generalize hst : s.stack t = st at ok ov ow hl
  match st with
  | [] => exact I
  | .fn i e [] mine :: fs =>
    have hl := hl (by simp)
    refine I.put hl (fun f hf => ok f (List.mem_cons_of_mem _ hf)) (List.pairwise_cons.1 ov).2 ?_
    intro x u hx
    by_cases hu : u = t
    · rw [if_pos hu]
      subst hu
      obtain ⟨e', c, m, hm, hxm⟩ := ow x hx
      rcases List.mem_cons.1 hm with h | h
      · obtain ⟨rfl, rfl, rfl, rfl⟩ := Frame.fn.inj h
        have := (ok _ (List.mem_cons_self ..)).2.2.1
        simp only [ord, List.isEmpty_iff] at this
        rw [this] at hxm; cases hxm
      · exact ⟨e', c, m, h, hxm⟩
    · rw [if_neg hu]; exact hx
  | .fn i e (.lock m :: code) mine :: fs =>
    have hl := hl (by simp)
    by_cases hm : s.owner (i, m) = none
    · simp only [hm, if_true]
      have o := ok _ (List.mem_cons_self ..)
      refine I.put hl ?_ ?_ ?_
      · intro f hf
        rcases List.mem_cons.1 hf with rfl | hf
        · have := o.2.2.1
          simp only [ord, Bool.and_eq_true] at this
          exact ⟨o.1, o.2.1, this.2, fun h x hx => o.2.2.2 h x (List.mem_cons_of_mem _ hx)⟩
        · exact ok f (List.mem_cons_of_mem _ hf)
      · exact List.pairwise_cons.2 ⟨fun f hf => over_fn ((List.pairwise_cons.1 ov).1 f hf), (List.pairwise_cons.1 ov).2⟩
      · intro x u hx
        by_cases hxm : x = (i, m)
        · simp only [hxm, if_true, Option.some.injEq] at hx
          rw [if_pos hx.symm, hxm]
          exact ⟨e, code, m :: mine, List.mem_cons_self .., List.mem_cons_self ..⟩
        · simp only [hxm, if_false] at hx
          by_cases hu : u = t
          · rw [if_pos hu]
            subst hu
            obtain ⟨e', c, m', hm', hxm'⟩ := ow x hx
            rcases List.mem_cons.1 hm' with h | h
            · obtain ⟨rfl, rfl, rfl, rfl⟩ := Frame.fn.inj h
              exact ⟨e', code, m :: m', List.mem_cons_self .., List.mem_cons_of_mem _ hxm'⟩
            · exact ⟨e', c, m', List.mem_cons_of_mem _ h, hxm'⟩
          · rw [if_neg hu]; exact hx
    · simp only [hm, if_false]; exact I
  | .fn i e (.unlock m :: code) mine :: fs =>
    have hl := hl (by simp)
    have o := ok _ (List.mem_cons_self ..)
    refine I.put hl ?_ ?_ ?_
    · intro f hf
      rcases List.mem_cons.1 hf with rfl | hf
      · exact ⟨o.1, o.2.1, o.2.2.1, fun h x hx => o.2.2.2 h x (List.mem_cons_of_mem _ hx)⟩
      · exact ok f (List.mem_cons_of_mem _ hf)
    · exact List.pairwise_cons.2 ⟨fun f hf => over_fn ((List.pairwise_cons.1 ov).1 f hf), (List.pairwise_cons.1 ov).2⟩
    · intro x u hx
      by_cases hxm : x = (i, m)
      · simp only [hxm, if_true] at hx; cases hx
      · simp only [hxm, if_false] at hx
        by_cases hu : u = t
        · rw [if_pos hu]
          subst hu
          obtain ⟨e', c, m', hm', hxm'⟩ := ow x hx
          rcases List.mem_cons.1 hm' with h | h
          · obtain ⟨rfl, rfl, rfl, rfl⟩ := Frame.fn.inj h
            refine ⟨e', code, m'.erase m, List.mem_cons_self .., ?_⟩
            exact (List.mem_erase_of_ne (fun h => hxm (by rw [← h]))).2 hxm'
          · exact ⟨e', c, m', List.mem_cons_of_mem _ h, hxm'⟩
        · rw [if_neg hu]; exact hx
  | .fn i e (.down :: code) mine :: fs =>
    have hl := hl (by simp)
    have o := ok _ (List.mem_cons_self ..)
    have hord := o.2.2.1
    simp only [ord, Bool.and_eq_true, Bool.or_eq_true] at hord
    have hfree : e.free = false := by
      by_cases hf : e.free = true
      · have := o.2.2.2 hf _ (List.mem_cons_self ..)
        rcases this with h | h <;> cases h
      · simpa using hf
    refine I.enter hA hC hl ?_ ?_ ?_ (fun y hy => hC.fn _ _ _ _ hy) ?_ ?_
    · intro f hf
      rcases List.mem_cons.1 hf with rfl | hf
      · exact ⟨o.1, o.2.1, hord.2, fun h => by rw [hfree] at h; cases h⟩
      · exact ok f (List.mem_cons_of_mem _ hf)
    · exact List.pairwise_cons.2 ⟨fun f hf => over_fn ((List.pairwise_cons.1 ov).1 f hf), (List.pairwise_cons.1 ov).2⟩
    · intro x hx
      obtain ⟨e', c, m', hm', hxm'⟩ := ow x hx
      rcases List.mem_cons.1 hm' with h | h
      · obtain ⟨rfl, rfl, rfl, rfl⟩ := Frame.fn.inj h
        exact ⟨e', code, m', List.mem_cons_self .., hxm'⟩
      · exact ⟨e', c, m', List.mem_cons_of_mem _ h, hxm'⟩
    · intro y hy
      refine ⟨hfree, ?_, ?_⟩
      · intro hs
        have := hord.1.2
        rw [hs] at this
        simpa using this
      · refine lev_weak (lev_call (hA.fn _ _ _ _ hy)) ?_
        intro hm
        rcases hord.1.1 with h | h
        · rw [h] at hm; cases hm
        · exact h
    · rintro _ _ _ _ h
      obtain ⟨rfl, rfl, rfl, rfl⟩ := Frame.fn.inj h
      exact hfree
  | .cb u [] :: fs =>
    have hl := hl (by simp)
    refine I.put hl (fun f hf => ok f (List.mem_cons_of_mem _ hf)) (List.pairwise_cons.1 ov).2 ?_
    intro x v hx
    by_cases hu : v = t
    · rw [if_pos hu]
      subst hu
      obtain ⟨e', c, m, hm, hxm⟩ := ow x hx
      rcases List.mem_cons.1 hm with h | h
      · cases h
      · exact ⟨e', c, m, h, hxm⟩
    · rw [if_neg hu]; exact hx
  | .cb u (x :: todo) :: fs =>
    have hl := hl (by simp)
    have o := ok _ (List.mem_cons_self ..)
    refine I.enter hA hC hl ?_ ?_ ?_ ?_ ?_ ?_
    · intro f hf
      rcases List.mem_cons.1 hf with rfl | hf
      · exact ⟨fun y hy => o.1 y (List.mem_cons_of_mem _ hy), fun v hv y hy => o.2 v hv y (List.mem_cons_of_mem _ hy)⟩
      · exact ok f (List.mem_cons_of_mem _ hf)
    · exact List.pairwise_cons.2 ⟨fun f hf => over_cb ((List.pairwise_cons.1 ov).1 f hf), (List.pairwise_cons.1 ov).2⟩
    · intro y hy
      obtain ⟨e', c, m', hm', hxm'⟩ := ow y hy
      rcases List.mem_cons.1 hm' with h | h
      · cases h
      · exact ⟨e', c, m', List.mem_cons_of_mem _ h, hxm'⟩
    · rintro y h
      cases h
      exact o.1 _ (List.mem_cons_self ..)
    · rintro y h
      cases h
      match u with
      | none =>
        refine ⟨_, rfl, ?_⟩
        cases x <;> intro l h <;> cases h
      | some v => exact lev_call (o.2 v rfl _ (List.mem_cons_self ..))
    · rintro _ _ _ _ h; cases h

theorem Inv.run {progs : List (List Target)} (hA : Acyclic net ri ru) (hC : Clean net src progs) (sched : List Nat) :
    Inv ri ru src (run net progs sched) := by
  have h0 : Inv ri ru src { stacks := progs.map (fun p => [Frame.cb none p]) } := by
    have hs : ∀ t, ∃ l : List Frame, St.stack { stacks := progs.map (fun p => [Frame.cb none p]) } t = l ∧ (l = [] ∨ ∃ p ∈ progs, l = [.cb none p]) := by
      intro t
      refine ⟨_, rfl, ?_⟩
      simp only [St.stack, List.getD_eq_getElem?_getD, List.getElem?_map]
      cases h : progs[t]? with
      | none => exact .inl rfl
      | some p => exact .inr ⟨p, List.mem_of_getElem? h, rfl⟩
    refine ⟨?_, ?_, fun x t h => by cases h⟩
    · intro t f hf
      obtain ⟨l, hl, h | ⟨p, hp, h⟩⟩ := hs t
      · rw [hl, h] at hf; cases hf
      · rw [hl, h] at hf
        obtain rfl := List.mem_singleton.1 hf
        exact ⟨fun x hx => hC.prog p hp x hx, fun v h => by cases h⟩
    · intro t
      obtain ⟨l, hl, h | ⟨p, hp, h⟩⟩ := hs t
      · rw [hl, h]; exact List.Pairwise.nil
      · rw [hl, h]; exact List.pairwise_singleton ..
  unfold Locks.run
  generalize ({ stacks := progs.map (fun p => [Frame.cb none p]) } : St) = s at h0
  induction sched generalizing s with
  | nil => exact h0
  | cons t l ih => exact ih _ (h0.step hA hC t)

end

/-! ## Progress -/

/-- The mutex a thread is about to lock, by the level of its object; models no code. -/
def wantLevel (ri : Nat → Nat) : List Frame → Nat
  | .fn i _ (.lock _ :: _) _ :: _ => ri i
  | _ => 0

/-- The number of the mutex a thread is about to lock; models no code. -/
def wantNumber : List Frame → Nat
  | .fn _ _ (.lock m :: _) _ :: _ => m
  | _ => 0

theorem bounded (f : List Frame → Nat) : ∀ l : List (List Frame), ∃ B, ∀ x ∈ l, f x ≤ B
  | [] => ⟨0, fun x h => by cases h⟩
  | a :: l => by
    obtain ⟨B, hB⟩ := bounded f l
    refine ⟨B + f a, fun x hx => ?_⟩
    rcases List.mem_cons.1 hx with rfl | hx
    · omega
    · have := hB x hx; omega

theorem bounded_stack (f : List Frame → Nat) (s : St) (h0 : f [] = 0) : ∃ B, ∀ t, f (s.stack t) ≤ B := by
  obtain ⟨B, hB⟩ := bounded f s.stacks
  refine ⟨B, fun t => ?_⟩
  by_cases h : s.stack t = []
  · rw [h, h0]; omega
  · apply hB
    have := stack_lt h
    unfold St.stack
    rw [List.getD_eq_getElem?_getD, List.getElem?_eq_getElem this]
    exact List.getElem_mem this

section
variable {net : Net} {ri ru : Nat → Nat} {src : Nat → Bool}

/-- Who holds mutex `0` of a subject or queue is about to unlock it. -/
theorem leaf_able {s : St} (I : Inv ri ru src s) {i u : Nat} (hs : src i = true) (ho : s.owner (i, 0) = some u) : Able s u := by
  obtain ⟨e, code, mine, hf, hm⟩ := I.own _ _ ho
  refine ⟨fun h => (by rw [h] at hf; cases hf), ?_⟩
  rintro ⟨j, e', m', code', mine', fs, hst, -⟩
  have ok := I.okay u
  have ov := I.over u
  rw [hst] at hf ok ov
  rcases List.mem_cons.1 hf with h | h
  · obtain ⟨rfl, rfl, rfl, rfl⟩ := Frame.fn.inj h
    have := (ok _ (List.mem_cons_self ..)).2.2.1
    dsimp only at hs hm
    simp only [ord, hs, Bool.and_eq_true, Bool.not_true, Bool.false_or] at this
    have h0 := this.1.2
    simp at h0
    exact h0 hm
  · exact ((List.pairwise_cons.1 ov).1 _ h).2.1 hs hm

/-- Who holds another mutex waits, if at all, for one of a subject or queue, or a higher one. -/
theorem holder {s : St} (I : Inv ri ru src s) {i m u : Nat} (ho : s.owner (i, m) = some u) (hn : ¬ (src i = true ∧ m = 0)) :
    Able s u ∨ ∃ j e m' code mine fs, s.stack u = .fn j e (.lock m' :: code) mine :: fs ∧ s.owner (j, m') ≠ none ∧
      ((src j = true ∧ m' = 0) ∨ ri i < ri j ∨ (ri i = ri j ∧ m < m')) := by
  by_cases hb : Blocked s u
  · obtain ⟨j, e', m', code', mine', fs, hst, hw⟩ := hb
    refine .inr ⟨j, e', m', code', mine', fs, hst, hw, ?_⟩
    obtain ⟨e, code, mine, hf, hm⟩ := I.own _ _ ho
    have ok := I.okay u
    have ov := I.over u
    rw [hst] at hf ok ov
    have o := ok _ (List.mem_cons_self ..)
    by_cases hleaf : src j = true ∧ m' = 0
    · exact .inl hleaf
    rcases List.mem_cons.1 hf with h | h
    · obtain ⟨rfl, rfl, rfl, rfl⟩ := Frame.fn.inj h
      have := o.2.2.1
      simp only [ord, Bool.and_eq_true, Bool.or_eq_true, List.all_eq_true, decide_eq_true_eq, beq_iff_eq] at this
      rcases this.1.1 with h | h
      · exact .inl h
      · exact .inr (.inr ⟨rfl, h _ hm⟩)
    · have hov := ((List.pairwise_cons.1 ov).1 _ h).2.2
      rcases hov with hfree | hlev
      · have := o.2.2.2 hfree _ (List.mem_cons_self ..)
        have hm0 : m' = 0 := by
          rcases this with h | h
          · cases h; rfl
          · cases h
        have hsrc : src j = true := by
          rw [← o.1]
          cases e' <;> first | rfl | cases hfree
        exact .inl ⟨hsrc, hm0⟩
      · refine .inr (.inl (hlev.2 ?_))
        cases mine with
        | nil => cases hm
        | cons => rfl
  · refine .inl ⟨?_, hb⟩
    obtain ⟨e, code, mine, hf, hm⟩ := I.own _ _ ho
    intro h
    rw [h] at hf; cases hf

theorem progress {s : St} (I : Inv ri ru src s) {t : Nat} (hb : Blocked s t) : ∃ u, Chain s t u ∧ Able s u := by
  obtain ⟨B, hB⟩ := bounded_stack (wantLevel ri) s rfl
  obtain ⟨K, hK⟩ := bounded_stack wantNumber s rfl
  have main : ∀ n t i e m code mine fs, s.stack t = .fn i e (.lock m :: code) mine :: fs → s.owner (i, m) ≠ none →
      B * (K + 1) + K - (ri i * (K + 1) + m) ≤ n → ∃ u, Chain s t u ∧ Able s u := by
    intro n
    induction n with
    | zero =>
      intro t i e m code mine fs hst hw hn
      obtain ⟨u, hu⟩ := Option.ne_none_iff_exists'.1 hw
      have hwait : Waits s t u := ⟨i, e, m, code, mine, fs, hst, hu⟩
      by_cases hleaf : src i = true ∧ m = 0
      · obtain ⟨h1, rfl⟩ := hleaf
        exact ⟨u, .one hwait, leaf_able I h1 hu⟩
      rcases holder I hu hleaf with h | ⟨j, e', m', code', mine', fs', hst', hw', h | h⟩
      · exact ⟨u, .one hwait, h⟩
      · obtain ⟨h1, rfl⟩ := h
        obtain ⟨v, hv⟩ := Option.ne_none_iff_exists'.1 hw'
        exact ⟨v, .more hwait (.one ⟨_, _, _, _, _, _, hst', hv⟩), leaf_able I h1 hv⟩
      · exfalso
        have b := hB u
        have k := hK u
        have k0 := hK t
        rw [hst'] at b k
        rw [hst] at k0
        simp only [wantLevel, wantNumber] at b k k0
        rcases h with h | ⟨h, h'⟩
        · have h1 : (ri i + 1) * (K + 1) ≤ B * (K + 1) := Nat.mul_le_mul_right _ (by omega)
          rw [Nat.add_mul] at h1
          omega
        · have h1 : ri j * (K + 1) ≤ B * (K + 1) := Nat.mul_le_mul_right _ (by omega)
          rw [h] at hn
          omega
    | succ n ih =>
      intro t i e m code mine fs hst hw hn
      obtain ⟨u, hu⟩ := Option.ne_none_iff_exists'.1 hw
      have hwait : Waits s t u := ⟨i, e, m, code, mine, fs, hst, hu⟩
      by_cases hleaf : src i = true ∧ m = 0
      · obtain ⟨h1, rfl⟩ := hleaf
        exact ⟨u, .one hwait, leaf_able I h1 hu⟩
      rcases holder I hu hleaf with h | ⟨j, e', m', code', mine', fs', hst', hw', h | h⟩
      · exact ⟨u, .one hwait, h⟩
      · obtain ⟨h1, rfl⟩ := h
        obtain ⟨v, hv⟩ := Option.ne_none_iff_exists'.1 hw'
        exact ⟨v, .more hwait (.one ⟨_, _, _, _, _, _, hst', hv⟩), leaf_able I h1 hv⟩
      · have k0 := hK t
        rw [hst] at k0
        simp only [wantNumber] at k0
        have : B * (K + 1) + K - (ri j * (K + 1) + m') ≤ n := by
          rcases h with h | ⟨h, h'⟩
          · have h1 : (ri i + 1) * (K + 1) ≤ ri j * (K + 1) := Nat.mul_le_mul_right _ (by omega)
            rw [Nat.add_mul] at h1
            omega
          · rw [h] at hn
            omega
        obtain ⟨v, hv, ha⟩ := ih u j e' m' code' mine' fs' hst' hw' this
        exact ⟨v, .more hwait hv, ha⟩
  obtain ⟨i, e, m, code, mine, fs, hst, hw⟩ := hb
  exact main _ t i e m code mine fs hst hw (Nat.le_refl _)

end

theorem waits_blocked {s : St} {t u : Nat} (h : Waits s t u) : Blocked s t := by
  obtain ⟨i, e, m, code, mine, fs, h1, h2⟩ := h
  exact ⟨i, e, m, code, mine, fs, h1, by rw [h2]; exact Option.some_ne_none u⟩

theorem waits_unique {s : St} {t u v : Nat} (h : Waits s t u) (h' : Waits s t v) : u = v := by
  obtain ⟨i, e, m, code, mine, fs, h1, h2⟩ := h
  obtain ⟨i', e', m', code', mine', fs', h1', h2'⟩ := h'
  rw [h1] at h1'
  cases h1'
  rw [h2] at h2'
  exact Option.some.inj h2'

/-- No thread is in a circle of threads waiting for each other, if it gets to one that is able to go on. -/
theorem chain_acyclic {s : St} {t u : Nat} (h : Chain s t u) (ha : Able s u) : ¬ Chain s t t := by
  intro hc
  -- the chain from `t` to `u` may be shortened until it is gone
  have short : ∀ v u, Chain s v u → Chain s v v → Able s u → False := by
    intro v u h
    induction h with
    | one w =>
      intro hc ha
      cases hc with
      | one w' =>
        have := waits_unique w w'
        subst this
        exact ha.2 (waits_blocked w')
      | more w' h' =>
        have := waits_unique w w'
        subst this
        cases h' with
        | one x => exact ha.2 (waits_blocked x)
        | more x _ => exact ha.2 (waits_blocked x)
    | more w h ih =>
      intro hc ha
      refine ih ?_ ha
      -- rotate the circle
      have app : ∀ a b, Chain s a b → ∀ c, Chain s b c → Chain s a c := by
        intro a b h1
        induction h1 with
        | one w => exact fun c h => .more w h
        | more w _ ih => exact fun c h => .more w (ih c h)
      cases hc with
      | one w' =>
        have := waits_unique w w'
        subst this
        exact .one w'
      | more w' h' =>
        rw [← waits_unique w w'] at h'
        exact app _ _ h' _ (.one w)
  exact short t u h hc ha

end Rpp.Locks
