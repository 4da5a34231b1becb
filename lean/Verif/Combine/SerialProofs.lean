import Verif.Combine.Serial
import Verif.Combine.LocksProofs

/-!
# Callbacks of one observer do not overlap: proofs for C96
-/

namespace Rpp.Locks

open Rpp.Emit (Instr Port)

/-- The rest of a body unlocks only what is locked, and all of that; models no code. -/
def bal : List Instr → List Nat → Bool
  | [], mine => mine.isEmpty
  | .lock m :: c, mine => !mine.contains m && bal c (m :: mine)
  | .unlock m :: c, mine => mine.contains m && bal c (mine.erase m)
  | .down :: c, mine => bal c mine

theorem bal_down (c : List Instr) (mine : List Nat) : ∀ n, bal (List.replicate n .down ++ c) mine = bal c mine
  | 0 => rfl
  | n + 1 => by simp only [List.replicate_succ, List.cons_append, bal]; exact bal_down c mine n

theorem bal_down' (mine : List Nat) (n : Nat) : bal (List.replicate n .down) mine = bal [] mine := by
  have := bal_down [] mine n
  simpa using this

theorem bal_locks (c : List Instr) : ∀ (n a : Nat) (mine : List Nat), (∀ x ∈ mine, x ≤ a) →
    bal c ((lockRange a n).reverse ++ mine) = true → bal ((lockRange a n).map .lock ++ c) mine = true
  | 0, a, mine, _, hc => by simpa [lockRange] using hc
  | n + 1, a, mine, hm, hc => by
    rw [lockRange_succ] at hc ⊢
    simp only [List.map_cons, List.cons_append, bal]
    rw [Bool.and_eq_true]
    refine ⟨by simp; intro h; have := hm _ h; omega, ?_⟩
    apply bal_locks c n (a + 1)
    · intro x hx
      rcases List.mem_cons.1 hx with rfl | hx
      · omega
      · have := hm x hx; omega
    · simpa using hc

theorem bal_unlocks (c : List Instr) : ∀ (l mine : List Nat), l.Perm mine → bal c [] = true → bal (l.map .unlock ++ c) mine = true
  | [], mine, h, hc => by
    have : mine = [] := by simpa using h
    subst this; simpa using hc
  | m :: l, mine, h, hc => by
    simp only [List.map_cons, List.cons_append, bal, Bool.and_eq_true]
    refine ⟨by simpa using h.subset (List.mem_cons_self ..), bal_unlocks c l _ ?_ hc⟩
    have := List.Perm.erase m h
    simpa using this

theorem bal_drain (n : Nat) : bal ((List.replicate n [Instr.lock 0, .unlock 0, .down]).flatten ++ [.lock 0, .unlock 0]) [] = true := by
  induction n with
  | zero => rfl
  | succ n ih => simpa [List.replicate_succ, bal] using ih

theorem bal_code (e : Entry) : bal e.code [] = true := by
  cases e with
  | next p =>
    cases p with
    | zip d => cases d <;> rfl
    | combineLatest d => cases d <;> rfl
    | latestMain n d =>
      have hl : (List.range n).map (fun i => Instr.lock (i + 1)) = (lockRange 0 n).map .lock := by
        simp only [lockRange, List.map_map]; apply List.map_congr_left; intro i _; simp
      have hu : (List.range n).map (fun i => Instr.unlock (i + 1)) = (lockRange 0 n).map .unlock := by
        simp only [lockRange, List.map_map]; apply List.map_congr_left; intro i _; simp
      simp only [Entry.code, Port.code, hl, hu, List.append_assoc]
      apply bal_locks
      · intro x hx; cases hx
      apply bal_unlocks
      · rw [List.append_nil]; exact (List.reverse_perm _).symm
      cases d <;> rfl
    | latestOther i => simp [Entry.code, Port.code, bal]
    | windowToggle n => simp [Entry.code, Port.code, bal, bal_down]
    | subject n => simp [Entry.code, Port.code, bal, bal_down']
    | serializedSubject n => simp [Entry.code, Port.code, bal, bal_down]
    | _ => rfl
  | guarded n => simp [Entry.code, bal, bal_down]
  | calls n => simp [Entry.code, bal, bal_down']
  | subjectEnd ser n k => cases ser <;> simp [Entry.code, bal, bal_down, bal_down']
  | leave n => simp [Entry.code, bal, bal_down]
  | pump n => simp [Entry.code, bal, bal_down]
  | delayDrain n => exact bal_drain n
  | _ => rfl

/-! ## Invariants -/

section
variable (net : Net) (progs : List (List Target))

/-- What holds of each record; models no code. -/
def Good (t : Nat) : Frame → Prop
  | .fn _ e code mine => bal code mine = true ∧ mine.Nodup ∧ ∀ m, e.lockedBy m = true → lockedBy m code (mine.contains m) = true
  | .cb (some u) todo => ∃ k, ∀ x ∈ todo, x ∈ net.user u k
  | .cb none todo => ∃ p, progs[t]? = some p ∧ ∀ x ∈ todo, x ∈ p

/-- `f` is a record of the call `y`; models no code. -/
def IsFrame (y : Target) : Frame → Prop
  | .fn i e _ _ => y = .fn i e
  | .cb (some u) _ => y = .user u
  | .cb none _ => False

/-- `g` has called `f`; models no code. -/
def Called (t : Nat) (f g : Frame) : Prop :=
  ∃ y, IsFrame y f ∧ match g with
    | .fn i e _ mine => (∃ k, net.next i e k = some y) ∧ ∀ m, e.lockedBy m = true → m ∈ mine
    | .cb (some u) _ => ∃ k, y ∈ net.user u k
    | .cb none _ => ∃ p, progs[t]? = some p ∧ y ∈ p

/-- Each record has been called by the next one, the last is the thread's program; models no code. -/
def Linked (t : Nat) : List Frame → Prop
  | [] => True
  | [f] => ∃ todo, f = .cb none todo
  | f :: g :: fs => Called net progs t f g ∧ Linked t (g :: fs)

/-- Two records of a stack hold different mutexes; models no code. -/
def Apart (f g : Frame) : Prop := ∀ i m, ¬ ((∃ e c l, f = .fn i e c l ∧ m ∈ l) ∧ ∃ e c l, g = .fn i e c l ∧ m ∈ l)

/-- The invariant of all executions; models no code. -/
structure Inv2 (s : St) : Prop where
  good : ∀ t, ∀ f ∈ s.stack t, Good net progs t f
  linked : ∀ t, Linked net progs t (s.stack t)
  apart : ∀ t, (s.stack t).Pairwise Apart
  own : ∀ t x, Holds (s.stack t) x → s.owner x = some t

end

section
variable {net : Net} {progs : List (List Target)}

theorem Linked.tail {t : Nat} {f : Frame} {fs : List Frame} (h : Linked net progs t (f :: fs)) : Linked net progs t fs := by
  cases fs with
  | nil => trivial
  | cons => exact h.2

/-- The caller may go on, as long as it stays the same function with the mutexes its callee relies on. -/
theorem Called.caller_fn {t : Nat} {f : Frame} {i : Nat} {e : Entry} {c c' : List Instr} {l : List Nat}
    (h : Called net progs t f (.fn i e c l)) : Called net progs t f (.fn i e c' l) := h

theorem Linked.top_fn {t : Nat} {i : Nat} {e : Entry} {c c' : List Instr} {l l' : List Nat} {fs : List Frame}
    (h : Linked net progs t (.fn i e c l :: fs)) : Linked net progs t (.fn i e c' l' :: fs) := by
  cases fs with
  | nil => obtain ⟨todo, h⟩ := h; cases h
  | cons g fs => exact h

theorem Linked.top_cb {t : Nat} {u : Option Nat} {l l' : List Target} {fs : List Frame} (h : Linked net progs t (.cb u l :: fs)) :
    Linked net progs t (.cb u l' :: fs) := by
  cases fs with
  | nil => obtain ⟨todo, h⟩ := h; cases h; exact ⟨l', rfl⟩
  | cons g fs => cases u <;> exact h

theorem Inv2.put {s : St} (I : Inv2 net progs s) {t : Nat} (hl : t < s.stacks.length) {fs : List Frame} {o : Nat × Nat → Option Nat} {k : Nat}
    (h1 : ∀ f ∈ fs, Good net progs t f) (h2 : Linked net progs t fs) (h3 : fs.Pairwise Apart) (h4 : ∀ x, Holds fs x → o x = some t)
    (h5 : ∀ x u, u ≠ t → s.owner x = some u → o x = some u) :
    Inv2 net progs { s.put t fs with owner := o, calls := k } := by
  have hs : ∀ u, St.stack { s.put t fs with owner := o, calls := k } u = if u = t then fs else s.stack u := fun u => stack_put s t u fs hl
  refine ⟨?_, ?_, ?_, ?_⟩
  · intro u f hf
    rw [hs] at hf
    by_cases hu : u = t
    · rw [if_pos hu] at hf; rw [hu]; exact h1 f hf
    · rw [if_neg hu] at hf; exact I.good u f hf
  · intro u
    rw [hs]
    by_cases hu : u = t
    · rw [if_pos hu, hu]; exact h2
    · rw [if_neg hu]; exact I.linked u
  · intro u
    rw [hs]
    by_cases hu : u = t
    · rw [if_pos hu]; exact h3
    · rw [if_neg hu]; exact I.apart u
  · intro u x hx
    rw [hs] at hx
    by_cases hu : u = t
    · rw [if_pos hu] at hx; rw [hu]; exact h4 x hx
    · rw [if_neg hu] at hx; exact h5 x u hu (I.own u x hx)

theorem good_call {t k : Nat} (x : Target) : Good net progs t (x.frame net k) := by
  match x with
  | .fn i e => exact ⟨bal_code e, List.nodup_nil, fun m h => h⟩
  | .user u => exact ⟨k, fun _ h => h⟩

theorem isFrame_call (k : Nat) (x : Target) : IsFrame x (x.frame net k) := by
  match x with
  | .fn i e => rfl
  | .user u => rfl

theorem apart_call (k : Nat) (x : Target) (g : Frame) : Apart (x.frame net k) g := by
  rintro i m ⟨⟨e, c, l, h, hm⟩, -⟩
  match x with
  | .fn _ _ => simp only [Target.frame, Frame.fn.injEq] at h; obtain ⟨_, _, _, rfl⟩ := h; cases hm
  | .user u => cases h

theorem holds_call {k : Nat} {x : Target} {fs : List Frame} {y : Nat × Nat} (h : Holds (x.frame net k :: fs) y) : Holds fs y := by
  obtain ⟨e, c, l, hf, hm⟩ := h
  rcases List.mem_cons.1 hf with h | h
  · match x with
    | .fn _ _ => simp only [Target.frame, Frame.fn.injEq] at h; obtain ⟨_, _, _, rfl⟩ := h; cases hm
    | .user u => cases h
  · exact ⟨e, c, l, h, hm⟩

theorem Inv2.enter {s : St} (I : Inv2 net progs s) {t : Nat} {h : Frame} {fs : List Frame} (hl : t < s.stacks.length)
    (h1 : ∀ f ∈ h :: fs, Good net progs t f) (h2 : Linked net progs t (h :: fs)) (h3 : (h :: fs).Pairwise Apart)
    (h4 : ∀ x, Holds (h :: fs) x → s.owner x = some t) {x : Option Target}
    (hx : ∀ y, x = some y → ∀ f, IsFrame y f → Called net progs t f h) : Inv2 net progs (s.enter net t (h :: fs) x) := by
  cases x with
  | none => exact I.put hl h1 h2 h3 h4 (fun _ _ _ h => h)
  | some y =>
    have key : Inv2 net progs { s.put t (y.frame net s.calls :: h :: fs) with calls := s.calls + 1 } := by
      refine I.put hl ?_ ⟨hx y rfl _ (isFrame_call _ _), h2⟩ (List.pairwise_cons.2 ⟨fun g _ => apart_call _ _ g, h3⟩)
        (fun z hz => h4 z (holds_call hz)) (fun _ _ _ h => h)
      intro f hf
      rcases List.mem_cons.1 hf with rfl | hf
      · exact good_call y
      · exact h1 f hf
    match y with
    | .fn i e => exact key
    | .user u => exact key

theorem Inv2.step {s : St} (I : Inv2 net progs s) (t : Nat) : Inv2 net progs (step net s t) := by
  have go := I.good t
  have li := I.linked t
  have ap := I.apart t
  have ow := I.own t
  have hl : s.stack t ≠ [] → t < s.stacks.length := stack_lt
  unfold Locks.step
  generalize hst : s.stack t = st at go li ap ow hl
  have sub : ∀ (f : Frame) (fs : List Frame), (∀ x, Holds (f :: fs) x → s.owner x = some t) → ∀ x, Holds fs x → s.owner x = some t := by
    rintro f fs ow x ⟨e, c, l, h, hm⟩
    exact ow x ⟨e, c, l, List.mem_cons_of_mem _ h, hm⟩
  match st with
  | [] => exact I
  | .fn i e [] mine :: fs =>
    exact I.put (hl (by simp)) (fun f hf => go f (List.mem_cons_of_mem _ hf)) li.tail (List.pairwise_cons.1 ap).2 (sub _ _ ow) (fun _ _ _ h => h)
  | .fn i e (.lock m :: code) mine :: fs =>
    by_cases hm : s.owner (i, m) = none
    · simp only [hm, if_true]
      have g := go _ (List.mem_cons_self ..)
      have free : ∀ e' c l, .fn i e' c l ∈ Frame.fn i e (.lock m :: code) mine :: fs → m ∉ l := by
        intro e' c l hf hml
        have := ow (i, m) ⟨e', c, l, hf, hml⟩
        rw [hm] at this; cases this
      refine I.put (hl (by simp)) ?_ li.top_fn ?_ ?_ ?_
      · intro f hf
        rcases List.mem_cons.1 hf with rfl | hf
        · refine ⟨?_, List.nodup_cons.2 ⟨free _ _ _ (List.mem_cons_self ..), g.2.1⟩, ?_⟩
          · have := g.1
            simp only [bal, Bool.and_eq_true] at this
            exact this.2
          · intro m' h
            have := g.2.2 m' h
            simp only [lockedBy] at this
            rw [List.contains_cons, Bool.or_comm]
            rw [show (m' == m) = (m == m') from Bool.beq_comm]
            exact this
        · exact go f (List.mem_cons_of_mem _ hf)
      · refine List.pairwise_cons.2 ⟨?_, (List.pairwise_cons.1 ap).2⟩
        intro g hg i' m' hboth
        obtain ⟨⟨e1, c1, l1, h1, hm1⟩, e2, c2, l2, h2, hm2⟩ := hboth
        obtain ⟨rfl, rfl, rfl, rfl⟩ := Frame.fn.inj h1
        rcases List.mem_cons.1 hm1 with rfl | hm1
        · exact free e2 c2 l2 (by rw [← h2]; exact List.mem_cons_of_mem _ hg) hm2
        · exact (List.pairwise_cons.1 ap).1 g hg i m' ⟨⟨_, _, _, rfl, hm1⟩, e2, c2, l2, h2, hm2⟩
      · intro x hx
        by_cases hxm : x = (i, m)
        · simp only [hxm, if_true]
        · simp only [hxm, if_false]
          obtain ⟨e1, c1, l1, h1, hm1⟩ := hx
          rcases List.mem_cons.1 h1 with h1 | h1
          · obtain ⟨rfl, rfl, rfl, rfl⟩ := Frame.fn.inj h1
            rcases List.mem_cons.1 hm1 with hm1 | hm1
            · exact absurd (by rw [← hm1]) hxm
            · exact ow x ⟨_, _, _, List.mem_cons_self .., hm1⟩
          · exact ow x ⟨_, _, _, List.mem_cons_of_mem _ h1, hm1⟩
      · intro x u hu hx
        have hxm : x ≠ (i, m) := fun h => by rw [h, hm] at hx; cases hx
        simp only [hxm, if_false]; exact hx
    · simp only [hm, if_false]; exact I
  | .fn i e (.unlock m :: code) mine :: fs =>
    have g := go _ (List.mem_cons_self ..)
    have hb := g.1
    simp only [bal, Bool.and_eq_true, List.contains_iff_mem] at hb
    have hown : s.owner (i, m) = some t := ow (i, m) ⟨_, _, _, List.mem_cons_self .., hb.1⟩
    refine I.put (hl (by simp)) ?_ li.top_fn ?_ ?_ ?_
    · intro f hf
      rcases List.mem_cons.1 hf with rfl | hf
      · refine ⟨hb.2, g.2.1.erase m, ?_⟩
        intro m' h
        have := g.2.2 m' h
        simp only [lockedBy] at this
        have e1 : (mine.erase m).contains m' = (mine.contains m' && m != m') := by
          rw [Bool.eq_iff_iff]
          simp only [List.contains_iff_mem, Bool.and_eq_true, bne_iff_ne, g.2.1.mem_erase_iff]
          exact ⟨fun h => ⟨h.2, fun h' => h.1 h'.symm⟩, fun h => ⟨fun h' => h.2 h'.symm, h.1⟩⟩
        rw [e1]; exact this
      · exact go f (List.mem_cons_of_mem _ hf)
    · refine List.pairwise_cons.2 ⟨?_, (List.pairwise_cons.1 ap).2⟩
      intro g' hg i' m' hboth
      obtain ⟨⟨e1, c1, l1, h1, hm1⟩, e2, c2, l2, h2, hm2⟩ := hboth
      obtain ⟨rfl, rfl, rfl, rfl⟩ := Frame.fn.inj h1
      exact (List.pairwise_cons.1 ap).1 g' hg i m' ⟨⟨_, _, _, rfl, List.mem_of_mem_erase hm1⟩, e2, c2, l2, h2, hm2⟩
    · intro x hx
      obtain ⟨e1, c1, l1, h1, hm1⟩ := hx
      have hxm : x ≠ (i, m) := by
        rintro rfl
        rcases List.mem_cons.1 h1 with h1 | h1
        · obtain ⟨-, rfl, rfl, rfl⟩ := Frame.fn.inj h1
          exact (g.2.1.mem_erase_iff.1 hm1).1 rfl
        · exact (List.pairwise_cons.1 ap).1 _ h1 i m ⟨⟨_, _, _, rfl, hb.1⟩, _, _, _, rfl, hm1⟩
      simp only [hxm, if_false]
      rcases List.mem_cons.1 h1 with h1 | h1
      · obtain ⟨rfl, rfl, rfl, rfl⟩ := Frame.fn.inj h1
        exact ow x ⟨_, _, _, List.mem_cons_self .., List.mem_of_mem_erase hm1⟩
      · exact ow x ⟨_, _, _, List.mem_cons_of_mem _ h1, hm1⟩
    · intro x u hu hx
      have hxm : x ≠ (i, m) := fun h => by rw [h, hown] at hx; exact hu (Option.some.inj hx).symm
      simp only [hxm, if_false]; exact hx
  | .fn i e (.down :: code) mine :: fs =>
    have g := go _ (List.mem_cons_self ..)
    refine I.enter (hl (by simp)) ?_ li.top_fn ?_ ?_ ?_
    · intro f hf
      rcases List.mem_cons.1 hf with rfl | hf
      · refine ⟨g.1, g.2.1, ?_⟩
        intro m h
        have := g.2.2 m h
        simp only [lockedBy, Bool.and_eq_true] at this
        exact this.2
      · exact go f (List.mem_cons_of_mem _ hf)
    · refine List.pairwise_cons.2 ⟨?_, (List.pairwise_cons.1 ap).2⟩
      intro g' hg i' m' hboth
      obtain ⟨⟨e1, c1, l1, h1, hm1⟩, h2⟩ := hboth
      obtain ⟨rfl, rfl, rfl, rfl⟩ := Frame.fn.inj h1
      exact (List.pairwise_cons.1 ap).1 g' hg i m' ⟨⟨_, _, _, rfl, hm1⟩, h2⟩
    · intro x hx
      obtain ⟨e1, c1, l1, h1, hm1⟩ := hx
      rcases List.mem_cons.1 h1 with h1 | h1
      · obtain ⟨rfl, rfl, rfl, rfl⟩ := Frame.fn.inj h1
        exact ow x ⟨_, _, _, List.mem_cons_self .., hm1⟩
      · exact ow x ⟨_, _, _, List.mem_cons_of_mem _ h1, hm1⟩
    · intro y hy f hf
      refine ⟨y, hf, ⟨_, hy⟩, ?_⟩
      intro m h
      have := g.2.2 m h
      simp only [lockedBy, Bool.and_eq_true, List.contains_iff_mem] at this
      exact this.1
  | .cb u [] :: fs =>
    exact I.put (hl (by simp)) (fun f hf => go f (List.mem_cons_of_mem _ hf)) li.tail (List.pairwise_cons.1 ap).2 (sub _ _ ow) (fun _ _ _ h => h)
  | .cb u (x :: todo) :: fs =>
    have g := go _ (List.mem_cons_self ..)
    refine I.enter (hl (by simp)) ?_ li.top_cb ?_ ?_ ?_
    · intro f hf
      rcases List.mem_cons.1 hf with rfl | hf
      · cases u with
        | none => obtain ⟨p, hp, h⟩ := g; exact ⟨p, hp, fun y hy => h y (List.mem_cons_of_mem _ hy)⟩
        | some u => obtain ⟨k, h⟩ := g; exact ⟨k, fun y hy => h y (List.mem_cons_of_mem _ hy)⟩
      · exact go f (List.mem_cons_of_mem _ hf)
    · refine List.pairwise_cons.2 ⟨?_, (List.pairwise_cons.1 ap).2⟩
      intro g' hg i' m' hboth
      obtain ⟨⟨e1, c1, l1, h1, hm1⟩, h2⟩ := hboth
      cases h1
    · intro x hx
      obtain ⟨e1, c1, l1, h1, hm1⟩ := hx
      rcases List.mem_cons.1 h1 with h1 | h1
      · cases h1
      · exact ow x ⟨_, _, _, List.mem_cons_of_mem _ h1, hm1⟩
    · intro y hy f hf
      cases hy
      refine ⟨x, hf, ?_⟩
      cases u with
      | none => obtain ⟨p, hp, h⟩ := g; exact ⟨p, hp, h x (List.mem_cons_self ..)⟩
      | some u => obtain ⟨k, h⟩ := g; exact ⟨k, h x (List.mem_cons_self ..)⟩

theorem Inv2.run (sched : List Nat) : Inv2 net progs (run net progs sched) := by
  have h0 : Inv2 net progs { stacks := progs.map (fun p => [Frame.cb none p]) } := by
    have hs : ∀ t, ∃ l : List Frame, St.stack { stacks := progs.map (fun p => [Frame.cb none p]) } t = l ∧
        (l = [] ∨ ∃ p, progs[t]? = some p ∧ l = [.cb none p]) := by
      intro t
      refine ⟨_, rfl, ?_⟩
      simp only [St.stack, List.getD_eq_getElem?_getD, List.getElem?_map]
      cases h : progs[t]? with
      | none => exact .inl rfl
      | some p => exact .inr ⟨p, rfl, rfl⟩
    refine ⟨?_, ?_, ?_, ?_⟩
    · intro t f hf
      obtain ⟨l, hl, h | ⟨p, hp, h⟩⟩ := hs t
      · rw [hl, h] at hf; cases hf
      · rw [hl, h] at hf
        obtain rfl := List.mem_singleton.1 hf
        exact ⟨p, hp, fun _ h => h⟩
    · intro t
      obtain ⟨l, hl, h | ⟨p, hp, h⟩⟩ := hs t
      · rw [hl, h]; trivial
      · rw [hl, h]; exact ⟨p, rfl⟩
    · intro t
      obtain ⟨l, hl, h | ⟨p, hp, h⟩⟩ := hs t
      · rw [hl, h]; exact List.Pairwise.nil
      · rw [hl, h]; exact List.pairwise_singleton ..
    · rintro t x ⟨e, c, m, hf, -⟩
      obtain ⟨l, hl, h | ⟨p, hp, h⟩⟩ := hs t
      · rw [hl, h] at hf; cases hf
      · rw [hl, h] at hf; cases List.mem_singleton.1 hf
  unfold Locks.run
  generalize ({ stacks := progs.map (fun p => [Frame.cb none p]) } : St) = s at h0
  induction sched generalizing s with
  | nil => exact h0
  | cons t l ih => exact ih _ (h0.step t)

/-- Whatever runs has been called. -/
theorem called_of_mem {t : Nat} : ∀ {fs : List Frame}, Linked net progs t fs → ∀ {f : Frame}, f ∈ fs → f.node ≠ none →
    ∃ g ∈ fs, Called net progs t f g
  | [], _, f, hf, _ => by cases hf
  | [g], h, f, hf, hn => by
    obtain ⟨todo, rfl⟩ := h
    obtain rfl := List.mem_singleton.1 hf
    exact absurd rfl hn
  | f' :: g :: fs, h, f, hf, hn => by
    rcases List.mem_cons.1 hf with rfl | hf
    · exact ⟨g, List.mem_cons_of_mem _ (List.mem_cons_self ..), h.1⟩
    · obtain ⟨g', hg', hc⟩ := called_of_mem h.2 hf hn
      exact ⟨g', List.mem_cons_of_mem _ hg', hc⟩

theorem node_of_isFrame {y : Target} {f : Frame} (h : IsFrame y f) : y.node = f.node := by
  match f with
  | .fn i e _ _ => cases h; rfl
  | .cb (some u) _ => cases h; rfl
  | .cb none _ => exact h.elim

theorem serial {s : St} (I : Inv2 net progs s) {x : Node} (hx : Serial net progs x) : ∀ t u, Runs s x t → Runs s x u → t = u := by
  have call : ∀ {x t}, Runs s x t → ∃ f g y, g ∈ s.stack t ∧ Called net progs t f g ∧ y.node = some x ∧ IsFrame y f ∧
      match g with
      | .fn i e _ mine => (∃ k, net.next i e k = some y) ∧ ∀ m, e.lockedBy m = true → m ∈ mine
      | .cb (some u) _ => ∃ k, y ∈ net.user u k
      | .cb none _ => ∃ p, progs[t]? = some p ∧ y ∈ p := by
    rintro x t ⟨f, hf, hn⟩
    obtain ⟨g, hg, hc⟩ := called_of_mem (I.linked t) hf (by rw [hn]; exact Option.some_ne_none x)
    have hc' := hc
    obtain ⟨y, hy, hm⟩ := hc
    exact ⟨f, g, y, hg, hc', by rw [node_of_isFrame hy, hn], hy, hm⟩
  induction hx with
  | @thread z t0 h =>
    have one : ∀ {t}, Runs s z t → t = t0 := by
      intro t ht
      obtain ⟨f, g, y, hg, -, hy, -, hm⟩ := call ht
      match g with
      | .fn i e _ mine => obtain ⟨⟨k, hk⟩, -⟩ := hm; exact absurd hy (h.fn _ _ _ _ hk)
      | .cb (some u) _ => obtain ⟨k, hk⟩ := hm; exact absurd hy (h.user _ _ _ hk)
      | .cb none _ => obtain ⟨p, hp, hyp⟩ := hm; exact h.prog t p hp y hyp hy
    intro t u ht hu
    rw [one ht, one hu]
  | @guarded z i m h =>
    have one : ∀ {t}, Runs s z t → s.owner (i, m) = some t := by
      intro t ht
      obtain ⟨f, g, y, hg, -, hy, -, hm⟩ := call ht
      match g with
      | .fn j e c mine =>
        obtain ⟨⟨k, hk⟩, hl⟩ := hm
        obtain ⟨rfl, he⟩ := h.fn _ _ _ _ hk hy
        exact I.own t (j, m) ⟨e, c, mine, hg, hl m he⟩
      | .cb (some u) _ => obtain ⟨k, hk⟩ := hm; exact absurd hy (h.user _ _ _ hk)
      | .cb none _ => obtain ⟨p, hp, hyp⟩ := hm; exact absurd hy (h.prog p (List.mem_of_getElem? hp) y hyp)
    intro t u ht hu
    have := one ht
    rw [one hu] at this
    exact (Option.some.inj this).symm
  | @after z i h _ ih =>
    have one : ∀ {t}, Runs s z t → Runs s (.obj i) t := by
      intro t ht
      obtain ⟨f, g, y, hg, -, hy, -, hm⟩ := call ht
      match g with
      | .fn j e c mine =>
        obtain ⟨⟨k, hk⟩, hl⟩ := hm
        obtain ⟨rfl, he⟩ := h.fn _ _ _ _ hk hy
        refine ⟨_, hg, ?_⟩
        simp only [Frame.node, he]
        rfl
      | .cb (some u) _ => obtain ⟨k, hk⟩ := hm; exact absurd hy (h.user _ _ _ hk)
      | .cb none _ => obtain ⟨p, hp, hyp⟩ := hm; exact absurd hy (h.prog p (List.mem_of_getElem? hp) y hyp)
    exact fun t u ht hu => ih t u (one ht) (one hu)
  | @within z v h _ ih =>
    have one : ∀ {t}, Runs s z t → Runs s (.sub v) t := by
      intro t ht
      obtain ⟨f, g, y, hg, -, hy, -, hm⟩ := call ht
      match g with
      | .fn j e c mine => obtain ⟨⟨k, hk⟩, -⟩ := hm; exact absurd hy (h.fn _ _ _ _ hk)
      | .cb (some u) _ =>
        obtain ⟨k, hk⟩ := hm
        obtain rfl := h.user _ _ _ hk hy
        exact ⟨_, hg, rfl⟩
      | .cb none _ => obtain ⟨p, hp, hyp⟩ := hm; exact absurd hy (h.prog p (List.mem_of_getElem? hp) y hyp)
    exact fun t u ht hu => ih t u (one ht) (one hu)

end

end Rpp.Locks
