import Verif.Ext.StrandProofs

/-!
# The asio strand scheduler: the invariants are kept by every step
-/

namespace Rpp.Strand

/-- The requests that wait. -/
def St.pend (s : St) : List Job := s.ready ++ (s.timers ++ s.queue)

/-- The functions that run. -/
def St.live (s : St) : List Job := s.run.map Frame.job

/-- What the logs satisfy (for the proofs); models no code. -/
abbrev St.Book (s : St) : Prop := Inv s.pend s.live s.count s.gone s.log

theorem mem_insert {e j : Job} {q : List Job} : j ∈ insert e q ↔ j = e ∨ j ∈ q := by
  induction q with
  | nil => simp [insert]
  | cons a q ih =>
    simp only [insert]
    split
    · simp
    · simp [ih]; grind

theorem insert_perm (e : Job) (q : List Job) : (insert e q).Perm (e :: q) := by
  induction q with
  | nil => exact List.Perm.refl _
  | cons a q ih =>
    simp only [insert]
    split
    · exact List.Perm.refl _
    · exact (ih.cons a).trans (List.Perm.swap e a q)

theorem erase_perm {l : List Job} {i : Nat} {j : Job} (h : l[i]? = some j) : l.Perm (j :: l.eraseIdx i) := by
  induction l generalizing i with
  | nil => simp at h
  | cons a l ih =>
    cases i with
    | zero => simp at h; subst h; simp
    | succ i =>
      simp at h
      simp only [List.eraseIdx_cons_succ]
      exact ((ih h).cons a).trans (List.Perm.swap j a _)

theorem timed_live {s : St} {j : Job} (hg : j.h ∉ s.gone) : deferWithTime s j = { s with timers := s.timers ++ [j] } :=
  if_neg hg

theorem book_defer {s : St} {j : Job} (P : List Job) (h : Inv (j :: P) s.live s.count s.gone s.log) (hp : s.pend = P)
    (hl : ∃ pre due, s.log = pre ++ [.asked j.id j.h due j.how]) : (defer s j).Book := by
  unfold defer
  split
  case isTrue hg =>
    obtain ⟨pre, due, hl⟩ := hl
    have := h.leave (e := .refused j.id j.how) (.inl ⟨_, rfl⟩) ⟨j.h, due, pre, hl, (h.gones _).1 hg⟩
    rw [← hp] at this
    exact this
  case isFalse =>
    refine h.perm ?_
    subst hp
    unfold St.pend
    simp only [List.append_assoc, List.singleton_append]
    exact List.perm_middle.symm

theorem book_timed {s : St} {j : Job} (P : List Job) (h : Inv (j :: P) s.live s.count s.gone s.log) (hp : s.pend = P)
    (hl : ∃ pre due, s.log = pre ++ [.asked j.id j.h due j.how]) : (deferWithTime s j).Book := by
  unfold deferWithTime
  split
  case isTrue hg =>
    obtain ⟨pre, due, hl⟩ := hl
    have := h.leave (e := .refused j.id j.how) (.inl ⟨_, rfl⟩) ⟨j.h, due, pre, hl, (h.gones _).1 hg⟩
    rw [← hp] at this
    exact this
  case isFalse =>
    refine h.perm ?_
    subst hp
    unfold St.pend
    simp only [List.append_assoc, List.singleton_append]
    exact (List.perm_middle.symm).trans (List.perm_middle.symm.append_left s.ready)

theorem book_deferFor {s : St} (b : s.Book) (h : Nat) (d : Int) : (deferFor s h d).Book := by
  unfold deferFor
  simp only
  split
  · refine book_defer s.pend (b.ask h s.now .posted) rfl ⟨s.log, s.now, rfl⟩
  · refine book_timed s.pend (b.ask h (s.now + d) .timed) rfl ⟨s.log, s.now + d, rfl⟩

theorem book_deferTo {s : St} (b : s.Book) (h : Nat) (tp : Int) : (deferTo s h tp).Book :=
  book_timed s.pend (b.ask h tp .timed) rfl ⟨s.log, tp, rfl⟩

/-- The guard of the running function is in place. -/
structure Ctl (s : St) : Prop where
  one : s.run.length ≤ 1
  guard : ∀ f ∈ s.run, f.own = true → s.tls f.tid = some .guard
  away : ∀ f ∈ s.run, f.own = false → s.tls f.tid = some .outer ∧ s.queue = []
  free : ∀ t, s.tls t = some .guard → ∃ f ∈ s.run, f.tid = t ∧ f.own = true
  idle : s.run = [] → s.queue = []
  via : ∀ j ∈ s.queue, j.via = true ∧ j.how = .queued
  due : ∀ j ∈ s.ready, j.due ≤ s.now
  unq : ∀ j ∈ s.ready ++ s.timers, j.how ≠ .queued
  tim : ∀ j ∈ s.timers, j.how = .timed

theorem book_ctDefer {s : St} (b : s.Book) (c : Ctl s) (h : Nat) (tp : Int) : (ctDefer s h tp).Book := by
  unfold ctDefer
  split
  · exact b
  · rename_i f fs hr
    simp only
    have b' := b.ask h tp .queued
    split
    · rename_i hg
      exact b'.leave (e := .refused (s.count + 1) .queued) (.inl ⟨_, rfl⟩) ⟨h, tp, s.log, rfl, (b'.gones _).1 hg⟩
    · have hf : f ∈ s.run := by simp [hr]
      split
      · rename_i ht
        refine b'.perm ?_
        show (_ :: (s.ready ++ (s.timers ++ s.queue))).Perm (s.ready ++ (s.timers ++ insert _ s.queue))
        exact ((List.perm_middle.symm).trans (List.perm_middle.symm.append_left s.ready)).trans
          ((((insert_perm _ s.queue).symm).append_left s.timers).append_left s.ready)
      · exact b'.leave (e := .outer (s.count + 1)) (.inr (.inr rfl)) trivial
      · rename_i ht
        exfalso
        change s.tls f.tid = none at ht
        cases ho : f.own with
        | true => have := c.guard f hf ho; simp [ht] at this
        | false => have := (c.away f hf ho).1; simp [ht] at this

theorem book_start {s : St} (b : s.Book) (c : Ctl s) (t : Nat) : (start s t).Book := by
  unfold start
  split
  · rename_i j rest hrun hready
    have b' : Inv (j :: (rest ++ (s.timers ++ s.queue))) [] s.count s.gone s.log := by
      have := b
      unfold St.Book St.pend St.live at this
      rw [hrun, hready] at this
      simpa using this
    simp only
    split
    · rename_i hg
      have := b'.leave (e := .dropped j.id j.how) (.inr (.inl ⟨_, rfl⟩)) ⟨j.h, j.due, b'.wait j (by simp), (b'.gones _).1 hg⟩
      show Inv (rest ++ (s.timers ++ s.queue)) (s.run.map _) s.count s.gone (s.log ++ _)
      rw [hrun]; exact this
    · rename_i hg
      have hd := c.due j (by simp [hready])
      have := b'.begin t s.now j.how hd hg
      split <;> exact this
  · exact b

theorem handOver_same (s : St) (q : List Job) :
    (handOver s q).run = s.run ∧ (handOver s q).count = s.count ∧ (handOver s q).gone = s.gone ∧
      (handOver s q).ready = s.ready ∧ (handOver s q).now = s.now ∧ (handOver s q).tls = s.tls := by
  induction q generalizing s with
  | nil => simp [handOver]
  | cons j q ih =>
    simp only [handOver]
    split
    · have := ih ({ s with link := fun i => if i = j.id then q.head?.map Job.id else s.link i }.say (.dropped j.id j.how))
      exact this
    · have hd : ∀ (s : St) (k : Job), (deferWithTime s k).run = s.run ∧ (deferWithTime s k).count = s.count ∧
          (deferWithTime s k).gone = s.gone ∧ (deferWithTime s k).ready = s.ready ∧ (deferWithTime s k).now = s.now ∧
          (deferWithTime s k).tls = s.tls := by
        intro s k; unfold deferWithTime; split <;> simp [St.say]
      have h1 := ih (deferWithTime (({ s with link := fun i => if i = j.id then q.head?.map Job.id else s.link i }).say (.handed j.id)) { j with how := .timed })
      have h2 := hd (({ s with link := fun i => if i = j.id then q.head?.map Job.id else s.link i }).say (.handed j.id)) { j with how := .timed }
      obtain ⟨a1, a2, a3, a4, a5, a6⟩ := h1
      obtain ⟨b1, b2, b3, b4, b5, b6⟩ := h2
      exact ⟨a1.trans b1, a2.trans b2, a3.trans b3, a4.trans b4, a5.trans b5, a6.trans b6⟩

theorem handOver_book {s : St} {q : List Job} (h : Inv (s.ready ++ (s.timers ++ q)) s.live s.count s.gone s.log) :
    Inv ((handOver s q).ready ++ (handOver s q).timers) s.live s.count s.gone (handOver s q).log := by
  induction q generalizing s with
  | nil => simpa [handOver] using h
  | cons j q ih =>
    have h' : Inv (j :: (s.ready ++ (s.timers ++ q))) s.live s.count s.gone s.log := by
      refine h.perm ?_
      exact (List.perm_middle.append_left s.ready).trans List.perm_middle
    simp only [handOver]
    split
    · rename_i hg
      refine ih (s := { s with link := fun i => if i = j.id then q.head?.map Job.id else s.link i }.say (.dropped j.id j.how)) ?_
      exact h'.leave (e := .dropped j.id j.how) (.inr (.inl ⟨_, rfl⟩)) ⟨j.h, j.due, h'.wait j (by simp), (h'.gones _).1 hg⟩
    · rename_i hg
      have hn := (h'.neutral (e := .handed j.id) (by intros; rfl) (by intros; rfl)
        (by intro id hi; simp [Ev.about] at hi; subst hi; exact h'.le j (by simp)) (by simp) (by simp) trivial).rehow .timed
      have hd : deferWithTime (({ s with link := fun i => if i = j.id then q.head?.map Job.id else s.link i }).say (.handed j.id))
          { j with how := .timed } =
          { ({ s with link := fun i => if i = j.id then q.head?.map Job.id else s.link i }).say (.handed j.id) with
            timers := s.timers ++ [{ j with how := .timed }] } := timed_live hg
      rw [hd]
      refine ih (s := { ({ s with link := fun i => if i = j.id then q.head?.map Job.id else s.link i }).say (.handed j.id) with
            timers := s.timers ++ [{ j with how := .timed }] }) ?_
      refine hn.perm ?_
      simp only [St.say, List.append_assoc, List.singleton_append]
      exact (List.perm_middle.symm).trans (List.perm_middle.symm.append_left s.ready)

theorem unguard_book {s : St} (b : s.Book) (f : Frame) : (unguard s f).Book := by
  unfold unguard
  split
  · have h := handOver_book (s := s) (q := s.queue) b
    have e := handOver_same s s.queue
    simp only [St.Book, St.pend, St.live, e.1, e.2.1, e.2.2.1, List.append_nil] at h ⊢
    exact h
  · exact b

/-- The state just before the destructor of the guard. -/
def ending (s : St) (f : Frame) (fs : List Frame) (r : Res) : St :=
  let j := f.job
  let s := { s with run := fs }
  match r with
  | .done => s.say (.ended j.id s.now r)
  | .again w =>
    let due := if j.via then nextVia s.now j.due w else nextDirect s.now w
    deferWithTime ((s.say (.ended j.id s.now r)).say (.asked j.id j.h due .timed)) { j with due, how := .timed }
  | .throws =>
    if j.via then (s.say (.onError j.id j.h)).say (.ended j.id s.now r)
    else (s.say (.ended j.id s.now r)).say (.escaped j.id)

theorem finish_eq {s : St} {f : Frame} {fs : List Frame} (h : s.run = f :: fs) (r : Res) :
    finish s r = unguard (ending s f fs r) f := by
  unfold finish
  rw [h]
  rfl

theorem ending_book {s : St} {f : Frame} {fs : List Frame} (b : s.Book) (h : s.run = f :: fs) (r : Res) :
    (ending s f fs r).Book := by
  have b' : Inv s.pend (f.job :: fs.map Frame.job) s.count s.gone s.log := by
    have := b
    unfold St.Book St.live at this
    rw [h] at this
    exact this
  unfold ending
  cases r with
  | done => exact b'.end s.now .done
  | again w =>
    exact book_timed s.pend (b'.again s.now _ w) rfl ⟨_, _, rfl⟩
  | throws =>
    simp only
    split
    · rename_i hv
      have hn := b'.neutral (e := .onError f.job.id f.job.h) (by intros; rfl) (by intros; rfl)
        (by intro id hi; simp [Ev.about] at hi; subst hi; exact b'.le f.job (by simp)) (by simp) (by simp)
        ⟨(b'.kind f.job (by simp)).1 hv, b'.hand f.job (by simp)⟩
      exact hn.end s.now .throws
    · have hn := (b'.end s.now .throws).neutral (e := .escaped f.job.id) (by intros; rfl) (by intros; rfl)
        (by intro id hi; simp [Ev.about] at hi; subst hi; exact b'.le f.job (by simp)) (by simp) (by simp) trivial
      exact hn

theorem book_finish {s : St} (b : s.Book) (r : Res) : (finish s r).Book := by
  cases h : s.run with
  | nil => unfold finish; rw [h]; exact b
  | cons f fs => rw [finish_eq h]; exact unguard_book (ending_book b h r) f

theorem step_book {s : St} (b : s.Book) (c : Ctl s) (l : Lbl) : (step s l).Book := by
  cases l with
  | schedule h d => exact book_deferFor b h d
  | scheduleTo h tp => exact book_deferTo b h tp
  | current h d => exact book_ctDefer b c h _
  | currentTo h tp => exact book_ctDefer b c h tp
  | dispose h => exact b.dispose
  | tick k => exact b
  | expire i =>
    simp only [step]
    split
    · rename_i j hj
      split
      · refine Inv.perm b ?_
        unfold St.pend
        simp only [List.append_assoc, List.singleton_append]
        exact ((erase_perm hj).append_right s.queue).append_left s.ready
      · exact b
    · exact b
  | start t => exact book_start b c t
  | finish r => exact book_finish b r
  | own t =>
    simp only [step]
    split <;> exact b

/-! ## Control -/

theorem timed_same (s : St) (k : Job) : (deferWithTime s k).run = s.run ∧ (deferWithTime s k).count = s.count ∧
    (deferWithTime s k).gone = s.gone ∧ (deferWithTime s k).ready = s.ready ∧ (deferWithTime s k).now = s.now ∧
    (deferWithTime s k).tls = s.tls ∧ (deferWithTime s k).queue = s.queue ∧ (deferWithTime s k).link = s.link := by
  unfold deferWithTime; split <;> simp [St.say]

theorem timed_timers {s : St} {k j : Job} (h : j ∈ (deferWithTime s k).timers) : j ∈ s.timers ∨ j = k := by
  unfold deferWithTime at h
  split at h
  · exact .inl h
  · simpa using h

theorem Ctl.timed {s : St} (c : Ctl s) {k : Job} (hk : k.how = .timed) : Ctl (deferWithTime s k) := by
  obtain ⟨h1, _, _, h4, h5, h6, h7, _⟩ := timed_same s k
  refine ⟨h1 ▸ c.one, ?_, ?_, ?_, ?_, ?_, ?_, ?_, ?_⟩
  · rw [h1, h6]; exact c.guard
  · rw [h1, h6, h7]; exact c.away
  · rw [h1, h6]; exact c.free
  · rw [h1, h7]; exact c.idle
  · rw [h7]; exact c.via
  · rw [h4, h5]; exact c.due
  · intro j hj
    rw [h4] at hj
    rcases List.mem_append.1 hj with hj | hj
    · exact c.unq j (by simp [hj])
    · rcases timed_timers hj with hj | rfl
      · exact c.unq j (by simp [hj])
      · simp [hk]
  · intro j hj
    rcases timed_timers hj with hj | rfl
    · exact c.tim j hj
    · exact hk

/-- `Ctl` does not look at these fields. -/
theorem Ctl.same {s : St} (c : Ctl s) (n : Nat) (log : List Ev) (gone : List Nat) (link : Nat → Option Nat) :
    Ctl { s with count := n, log := log, gone := gone, link := link } :=
  ⟨c.one, c.guard, c.away, c.free, c.idle, c.via, c.due, c.unq, c.tim⟩

theorem handOver_timers (s : St) (q : List Job) (h : ∀ j ∈ s.timers, j.how = .timed) :
    ∀ j ∈ (handOver s q).timers, j.how = .timed := by
  induction q generalizing s with
  | nil => simpa [handOver] using h
  | cons a q ih =>
    simp only [handOver]
    split
    · exact ih _ h
    · refine ih _ ?_
      intro j hj
      rcases timed_timers hj with hj | rfl
      · exact h j hj
      · rfl

theorem handOver_queue (s : St) (q : List Job) : (handOver s q).queue = s.queue := by
  induction q generalizing s with
  | nil => rfl
  | cons a q ih =>
    simp only [handOver]
    split
    · rw [ih]; rfl
    · rw [ih]; exact (timed_same _ _).2.2.2.2.2.2.1

theorem step_ctl {s : St} (c : Ctl s) (l : Lbl) : Ctl (step s l) := by
  cases l with
  | schedule h d =>
    simp only [step, deferFor]
    split
    · unfold defer
      split
      · exact c.same _ _ s.gone s.link
      · refine ⟨c.one, c.guard, c.away, c.free, c.idle, c.via, ?_, ?_, c.tim⟩
        · intro j hj
          simp [St.say] at hj
          rcases hj with hj | rfl
          · exact c.due j hj
          · exact Int.le_refl _
        · intro j hj
          simp [St.say] at hj
          rcases hj with hj | rfl | hj
          · exact c.unq j (by simp [hj])
          · simp
          · exact c.unq j (by simp [hj])
    · exact (c.same _ _ s.gone s.link).timed rfl
  | scheduleTo h tp => exact (c.same _ _ s.gone s.link).timed rfl
  | current h d => exact ctl_ct c h _
  | currentTo h tp => exact ctl_ct c h tp
  | dispose h => exact c.same s.count _ _ s.link
  | tick k =>
    refine ⟨c.one, c.guard, c.away, c.free, c.idle, c.via, ?_, c.unq, c.tim⟩
    intro j hj
    have := c.due j hj
    simp only [step]; omega
  | expire i =>
    simp only [step]
    split
    · rename_i j hj
      split
      · rename_i hd
        have hm : j ∈ s.timers := List.mem_of_getElem? hj
        refine ⟨c.one, c.guard, c.away, c.free, c.idle, c.via, ?_, ?_, ?_⟩
        · intro k hk
          simp at hk
          rcases hk with hk | rfl
          · exact c.due k hk
          · exact hd
        · intro k hk
          simp at hk
          rcases hk with hk | rfl | hk
          · exact c.unq k (by simp [hk])
          · exact c.unq k (by simp [hm])
          · exact c.unq k (by simp [List.mem_of_mem_eraseIdx hk])
        · intro k hk
          exact c.tim k (List.mem_of_mem_eraseIdx hk)
      · exact c
    · exact c
  | start t =>
    simp only [step, start]
    split
    · rename_i j rest hrun hready
      have hq := c.idle hrun
      have hfree : ∀ t, s.tls t ≠ some .guard := fun t ht => by
        obtain ⟨f, hf, _⟩ := c.free t ht
        simp [hrun] at hf
      have hdue : ∀ k ∈ rest, k.due ≤ s.now := fun k hk => c.due k (by simp [hready, hk])
      have hunq : ∀ k ∈ rest ++ s.timers, k.how ≠ .queued := fun k hk => c.unq k (by
        rw [hready]; simp at hk ⊢; rcases hk with hk | hk <;> simp [hk])
      split
      · exact ⟨c.one, c.guard, c.away, c.free, c.idle, c.via, hdue, hunq, c.tim⟩
      · simp only [Option.isNone_iff_eq_none]
        split
        · rename_i ht
          refine ⟨by simp [St.say], ?_, ?_, ?_, by simp [St.say], c.via, hdue, hunq, c.tim⟩
          · intro f hf _
            simp [St.say] at hf ⊢
            subst hf
            simp
          · intro f hf ho
            simp [St.say] at hf
            subst hf
            simp at ho
            simp [ht] at ho
          · intro t' ht'
            simp [St.say] at ht' ⊢
            by_cases he : t' = t
            · exact ⟨he.symm, by simp [ht]⟩
            · exact absurd (ht' he) (hfree t')
        · rename_i ht
          refine ⟨by simp [St.say], ?_, ?_, ?_, by simp [St.say], c.via, hdue, hunq, c.tim⟩
          · intro f hf ho
            simp [St.say] at hf
            subst hf
            simp at ho
            exact absurd ho ht
          · intro f hf ho
            simp [St.say] at hf
            subst hf
            simp only [St.say]
            refine ⟨?_, hq⟩
            cases htt : s.tls t with
            | none => exact absurd htt ht
            | some x =>
              cases x with
              | outer => rfl
              | guard => exact absurd htt (hfree t)
          · intro t' ht'
            exact absurd ht' (hfree t')
    · exact c
  | finish r =>
    show Ctl (finish s r)
    cases hr : s.run with
    | nil => unfold finish; rw [hr]; exact c
    | cons f fs =>
      have hfs : fs = [] := by
        have := c.one
        rw [hr] at this
        cases fs with
        | nil => rfl
        | cons _ _ => simp at this
      subst hfs
      rw [finish_eq hr]
      have he : (ending s f [] r).run = [] ∧ (ending s f [] r).ready = s.ready ∧ (ending s f [] r).now = s.now ∧
          (ending s f [] r).tls = s.tls ∧ (ending s f [] r).queue = s.queue ∧
          (∀ j ∈ (ending s f [] r).timers, j.how = .timed) := by
        unfold ending
        cases r with
        | done => exact ⟨rfl, rfl, rfl, rfl, rfl, c.tim⟩
        | again w =>
          simp only
          obtain ⟨h1, _, _, h4, h5, h6, h7, _⟩ := timed_same
            (({ s with run := [] }.say (.ended f.job.id s.now (.again w))).say
              (.asked f.job.id f.job.h (if f.job.via then nextVia s.now f.job.due w else nextDirect s.now w) .timed))
            { f.job with due := if f.job.via then nextVia s.now f.job.due w else nextDirect s.now w, how := .timed }
          refine ⟨h1, h4, h5, h6, h7, ?_⟩
          intro j hj
          rcases timed_timers hj with hj | rfl
          · exact c.tim j hj
          · rfl
        | throws =>
          simp only
          split <;> exact ⟨rfl, rfl, rfl, rfl, rfl, c.tim⟩
      obtain ⟨e1, e2, e3, e4, e5, e6⟩ := he
      have hf : f ∈ s.run := by simp [hr]
      unfold unguard
      split
      · rename_i ho
        obtain ⟨a1, _, _, a4, a5, a6⟩ := handOver_same (ending s f [] r) (ending s f [] r).queue
        have a7 := handOver_timers (ending s f [] r) (ending s f [] r).queue e6
        refine ⟨?_, ?_, ?_, ?_, ?_, ?_, ?_, ?_, a7⟩
        · simp [a1, e1]
        · simp [a1, e1]
        · simp [a1, e1]
        · intro t ht
          simp only [a6, e4] at ht
          split at ht
          · simp at ht
          · rename_i hne
            obtain ⟨g, hg, hgt, _⟩ := c.free t ht
            simp [hr] at hg
            subst hg
            exact absurd hgt.symm hne
        · intro _; rfl
        · simp
        · simp only [a4, a5, e2, e3]; exact c.due
        · intro j hj
          simp only [a4, e2] at hj
          rcases List.mem_append.1 hj with hj | hj
          · exact c.unq j (by simp [hj])
          · simp [a7 j hj]
      · rename_i ho
        have ho' : f.own = false := by simpa using ho
        obtain ⟨w1, w2⟩ := c.away f hf ho'
        refine ⟨by simp [e1], by simp [e1], by simp [e1], ?_, ?_, ?_, ?_, ?_, e6⟩
        · rw [e4]
          intro t ht
          obtain ⟨g, hg, hgt, hgo⟩ := c.free t ht
          simp [hr] at hg
          subst hg
          exact absurd hgo ho
        · rw [e5]; exact fun _ => w2
        · rw [e5]; exact c.via
        · rw [e2, e3]; exact c.due
        · intro j hj
          rw [e2] at hj
          rcases List.mem_append.1 hj with hj | hj
          · exact c.unq j (by simp [hj])
          · simp [e6 j hj]
  | own t =>
    simp only [step]
    split
    · rename_i ht
      refine ⟨c.one, ?_, ?_, ?_, c.idle, c.via, c.due, c.unq, c.tim⟩
      · intro f hf ho
        have := c.guard f hf ho
        simp only
        split
        · rename_i he; rw [he, ht] at this; simp at this
        · exact this
      · intro f hf ho
        have := c.away f hf ho
        refine ⟨?_, this.2⟩
        simp only
        split
        · rfl
        · exact this.1
      · intro t' ht'
        simp only at ht'
        split at ht'
        · simp at ht'
        · exact c.free t' ht'
    · exact c
where
  ctl_ct {s : St} (c : Ctl s) (h : Nat) (tp : Int) : Ctl (ctDefer s h tp) := by
    unfold ctDefer
    split
    · exact c
    · rename_i f fs hr
      simp only
      have hf : f ∈ s.run := by simp [hr]
      split
      · exact c.same _ _ s.gone s.link
      · split
        · rename_i ht
          refine ⟨c.one, c.guard, ?_, c.free, ?_, ?_, c.due, c.unq, c.tim⟩
          · intro g hg ho
            have := (c.away g hg ho).1
            have hgf : g = f := by
              have h1 := c.one
              rw [hr] at h1
              cases fs with
              | nil => simp [St.say, hr] at hg; exact hg
              | cons _ _ => simp at h1
            subst hgf
            change s.tls g.tid = some .guard at ht
            rw [this] at ht
            simp at ht
          · intro hrun
            change s.run = [] at hrun
            simp [hr] at hrun
          · intro j hj
            rcases mem_insert.1 hj with rfl | hj
            · exact ⟨rfl, rfl⟩
            · exact c.via j hj
        · exact c.same _ _ s.gone s.link
        · rename_i ht
          exfalso
          change s.tls f.tid = none at ht
          cases ho : f.own with
          | true => have := c.guard f hf ho; simp [ht] at this
          | false => have := (c.away f hf ho).1; simp [ht] at this

theorem init_book : St.Book {} := by
  refine ⟨by simp [St.pend, St.live], by simp [St.pend, St.live], by simp [St.pend], by simp [waiting], by simp [St.pend, St.live],
    by simp [St.pend, St.live], by simp [St.pend, St.live], by simp, by simp, ?_, ?_⟩
  · rintro id ⟨_, _, hm, _⟩; simp at hm
  · intro pre e post h; simp at h

theorem init_ctl : Ctl {} := by
  refine ⟨by simp, by simp, by simp, by simp, by simp, by simp, by simp, by simp, by simp⟩

theorem exec_snoc (ls : List Lbl) (l : Lbl) : exec (ls ++ [l]) = step (exec ls) l := by simp [exec]

theorem exec_inv (ls : List Lbl) : (exec ls).Book ∧ Ctl (exec ls) := by
  refine Sched.snoc_ind (P := fun ls => (exec ls).Book ∧ Ctl (exec ls)) ⟨init_book, init_ctl⟩ ?_ ls
  intro ls l ⟨b, c⟩
  rw [exec_snoc]
  exact ⟨step_book b c l, step_ctl c l⟩

end Rpp.Strand
