import Verif.Subject.Props

/-!
# rppqt `from_signal` (M34)

Qt objects with signals, and the observables made from them.  Qt itself is the environment: it calls what is connected
to a signal in the order of the connections, when the signal is emitted or the object destroyed.
-/

namespace Rpp.Signal
open Rpp.Subj (Cfg)

variable {α ε : Type} [DecidableEq α] [DecidableEq ε]

/-- What happens, one thing after the other.
* `make o g`: `from_signal(o, g)` is called; the observables are numbered in the order of these calls;
* `emit o g v`: object `o` emits signal `g` with the arguments `v`; `destroy o`: `o` is destroyed;
* `subscribe n k`, `dispose n k`: observer `k` subscribes to observable `n`, its subscription is disposed. -/
inductive Ev (α : Type) where
  | make (o g : Nat)
  | emit (o g : Nat) (v : α)
  | destroy (o : Nat)
  | subscribe (n k : Nat)
  | dispose (n k : Nat)
  deriving DecidableEq, Repr

/-- The two connections of `from_signal` (rppqt/sources/from_signal.hpp 75-85), by the object and the signal they belong to, and the `publish_subject` behind them. -/
structure Src (α ε : Type) where
  obj : Nat
  sig : Nat
  st : Subj.St α ε Unit

/-- The objects destroyed so far, and the observables made so far in order; models no code. -/
structure World (α ε : Type) where
  gone : List Nat := []
  srcs : List (Src α ε) := []

/-- The subject of a source does something. Times play no part for `publish_subject`. (subjects/publish_subject.hpp 24-63) -/
def Src.does (C : Cfg α ε Unit) (s : Src α ε) (op : Subj.Op α ε) : Src α ε := { s with st := s.st.step C (0, op) }

/-- One thing happens. A destroyed object emits nothing, and passing one to `from_signal` is not allowed. The slots are
`on_next` with the arguments as a tuple, as the value itself or as `none` (rppqt/sources/from_signal.hpp 22-58; `α` is what is passed on), and `on_completed` on `destroyed` (82). No
connection is ever undone by a subscriber. -/
def step (C : Cfg α ε Unit) (w : World α ε) : Ev α → World α ε
  | .make o g => if o ∈ w.gone then w else { w with srcs := w.srcs ++ [⟨o, g, { store := () }⟩] }
  | .emit o g v => if o ∈ w.gone then w else { w with srcs := w.srcs.map fun s => if s.obj = o ∧ s.sig = g then s.does C (.next v) else s }
  | .destroy o => if o ∈ w.gone then w else { gone := o :: w.gone, srcs := w.srcs.map fun s => if s.obj = o then s.does C .completed else s }
  | .subscribe n k => { w with srcs := w.srcs.modify n fun s => s.does C (.subscribe k) }
  | .dispose n k => { w with srcs := w.srcs.modify n fun s => s.does C (.dispose k) }

/-- The world after a history. -/
def run (C : Cfg α ε Unit) (h : List (Ev α)) : World α ε := h.foldl (step C) {}

/-- What observer `k` of observable `n` has been told (no counterpart in /repo). -/
def World.told (w : World α ε) (n k : Nat) : List (Call α ε) :=
  match w.srcs[n]? with
  | some s => evsOf (s.st.obs k).log
  | none => []

/-! ## Specification -/

/-- What an observer of `from_signal(o, g)`, the observable number `n`, is to be told from its subscription on: every emission of that signal, until it leaves or the object is destroyed. -/
def hears (n o g k : Nat) : List (Ev α) → Trace α ε
  | [] => ⟨[], none⟩
  | .emit o' g' v :: h => if o' = o ∧ g' = g then ⟨v :: (hears n o g k h).vals, (hears n o g k h).fin⟩ else hears n o g k h
  | .destroy o' :: h => if o' = o then ⟨[], some .completed⟩ else hears n o g k h
  | .dispose n' k' :: h => if n' = n ∧ k' = k then ⟨[], none⟩ else hears n o g k h
  | .make .. :: h => hears n o g k h
  | .subscribe .. :: h => hears n o g k h

/-! ## Proofs -/

/-- What a history means for the subject of observable `n`; `dead`: its object is destroyed. For the proofs; models no code. -/
def tr (n o g : Nat) : Bool → List (Ev α) → List (Int × Subj.Op α ε)
  | _, [] => []
  | dead, .emit o' g' v :: h => if dead = false ∧ o' = o ∧ g' = g then (0, .next v) :: tr n o g dead h else tr n o g dead h
  | dead, .destroy o' :: h => if dead = false ∧ o' = o then (0, .completed) :: tr n o g true h else tr n o g dead h
  | dead, .subscribe n' k :: h => if n' = n then (0, .subscribe k) :: tr n o g dead h else tr n o g dead h
  | dead, .dispose n' k :: h => if n' = n then (0, .dispose k) :: tr n o g dead h else tr n o g dead h
  | dead, .make .. :: h => tr n o g dead h

theorem src_foldl (C : Cfg α ε Unit) (n o g : Nat) (h : List (Ev α)) (w : World α ε) (s : Src α ε) (hs : w.srcs[n]? = some s) (ho : s.obj = o) (hg : s.sig = g) :
    (h.foldl (step C) w).srcs[n]? = some { s with st := (tr n o g (decide (o ∈ w.gone)) h).foldl (Subj.St.step C) s.st } := by
  induction h generalizing w s with
  | nil => exact hs
  | cons e h ih =>
    rw [List.foldl_cons]
    cases e with
    | make o' g' =>
      simp only [step, tr]
      split
      · exact ih w s hs ho hg
      · exact ih _ s (by have := (List.getElem?_eq_some_iff.1 hs).1; rw [List.getElem?_append_left this]; exact hs) ho hg
    | emit o' g' v =>
      simp only [step, tr]
      split
      · rename_i hm
        have : ¬ (decide (o ∈ w.gone) = false ∧ o' = o ∧ g' = g) := by rintro ⟨h1, rfl, _⟩; simp [hm] at h1
        rw [if_neg this]
        exact ih w s hs ho hg
      · rename_i hm
        by_cases hx : o' = o ∧ g' = g
        · have hno : o ∉ w.gone := hx.1 ▸ hm
          rw [if_pos ⟨by simpa using hno, hx⟩]
          exact ih _ (s.does C (.next v)) (by simp [hs, ho, hg, hx.1, hx.2]) ho hg
        · rw [if_neg fun hh => hx hh.2]
          refine ih _ s ?_ ho hg
          rw [List.getElem?_map, hs, Option.map_some, if_neg]
          rintro ⟨h1, h2⟩
          exact hx ⟨h1 ▸ ho, h2 ▸ hg⟩
    | destroy o' =>
      simp only [step, tr]
      split
      · rename_i hm
        have : ¬ (decide (o ∈ w.gone) = false ∧ o' = o) := by rintro ⟨h1, rfl⟩; simp [hm] at h1
        rw [if_neg this]
        exact ih w s hs ho hg
      · rename_i hm
        by_cases hx : o' = o
        · subst hx
          rw [if_pos ⟨by simpa using hm, rfl⟩]
          have := ih { gone := o' :: w.gone, srcs := w.srcs.map fun s => if s.obj = o' then s.does C .completed else s } (s.does C .completed)
            (by simp [hs, ho]) ho hg
          have e : decide (o' ∈ o' :: w.gone) = true := by simp
          rw [e] at this
          exact this
        · rw [if_neg fun hh => hx hh.2]
          have := ih { gone := o' :: w.gone, srcs := w.srcs.map fun s => if s.obj = o' then s.does C .completed else s } s (by
            rw [List.getElem?_map, hs, Option.map_some, if_neg]
            exact fun h1 => hx (h1 ▸ ho)) ho hg
          have e : decide (o ∈ o' :: w.gone) = decide (o ∈ w.gone) := by
            simp [show ¬ o = o' from fun h => hx h.symm]
          rw [e] at this
          exact this
    | subscribe n' k =>
      simp only [step, tr]
      by_cases hx : n' = n
      · subst hx
        rw [if_pos rfl]
        exact ih _ (s.does C (.subscribe k)) (by simp [hs]) ho hg
      · rw [if_neg hx]
        exact ih _ s (by simp [List.getElem?_modify, hx, hs]) ho hg
    | dispose n' k =>
      simp only [step, tr]
      by_cases hx : n' = n
      · subst hx
        rw [if_pos rfl]
        exact ih _ (s.does C (.dispose k)) (by simp [hs]) ho hg
      · rw [if_neg hx]
        exact ih _ s (by simp [List.getElem?_modify, hx, hs]) ho hg

omit [DecidableEq ε] in
theorem ending_tr (n o g : Nat) (h : List (Ev α)) : Subj.ending (tr (ε := ε) n o g false h) = if .destroy o ∈ h then some (some .completed) else none := by
  induction h with
  | nil => rfl
  | cons e h ih =>
    cases e with
    | emit o' g' v => simp only [tr]; split <;> simp [Subj.ending, ih]
    | destroy o' =>
      simp only [tr]
      split
      · rename_i hx; simp [Subj.ending, hx.2]
      · rename_i hx; simp [ih, show ¬ o = o' from fun h => hx ⟨trivial, h.symm⟩]
    | subscribe n' k => simp only [tr]; split <;> simp [Subj.ending, ih]
    | dispose n' k => simp only [tr]; split <;> simp [Subj.ending, ih]
    | make o' g' => simp [tr, ih]

omit [DecidableEq α] [DecidableEq ε] in
theorem heard_tr (n o g k : Nat) (h : List (Ev α)) : Subj.heard (ε := ε) k (tr n o g false h) = hears n o g k h := by
  induction h with
  | nil => rfl
  | cons e h ih => cases e <;> simp only [tr, hears] <;> grind [Subj.heard]

omit [DecidableEq α] [DecidableEq ε] in
theorem fresh_tr {n o g k : Nat} {d : Bool} {h : List (Ev α)} (hk : Ev.subscribe n k ∉ h) : Subj.Fresh k (tr (ε := ε) n o g d h) := by
  induction h generalizing d with
  | nil => intro t ht; cases ht
  | cons e h ih =>
    intro t
    have := fun d => ih (d := d) (by grind) t
    cases e <;> simp only [tr] <;> grind

omit [DecidableEq ε] in
theorem tr_append (n o g : Nat) (d : Bool) (h l : List (Ev α)) : tr (ε := ε) n o g d (h ++ l) = tr n o g d h ++ tr n o g (d || decide (.destroy o ∈ h)) l := by
  induction h generalizing d with
  | nil => simp [tr]
  | cons e h ih => cases e <;> simp only [tr, List.cons_append] <;> grind

theorem gone_run (C : Cfg α ε Unit) (h : List (Ev α)) (o : Nat) : o ∈ (run C h).gone ↔ .destroy o ∈ h := by
  have : ∀ (h : List (Ev α)) (w : World α ε), o ∈ (h.foldl (step C) w).gone ↔ o ∈ w.gone ∨ .destroy o ∈ h := by
    intro h
    induction h with
    | nil => simp
    | cons e h ih => intro w; rw [List.foldl_cons, ih]; cases e <;> simp only [step] <;> grind
  rw [run, this]
  simp

/-! ## C105 -/

/-- **C105.** The observable `n` which `from_signal(o, g)` returned, for an object not destroyed before: an observer which subscribes to it is told exactly the emissions of that signal which come after its subscription, until it leaves, and `on_completed` when the object is destroyed — at once, if it is destroyed already. Emissions before the subscription, of other signals or objects, other observers, and other observables made from the same signal are of no consequence. -/
theorem C105_signal (cap : Option Nat) (hcap : Fits cap 1) (ov : ε) (react : Nat → List (Call α ε) → Reaction ε) (before between after : List (Ev α)) (o g n k : Nat)
    (live : .destroy o ∉ before) (hn : n = (run ⟨cap, ov, react, Subj.publish⟩ before).srcs.length) (hk : .subscribe n k ∉ between) :
    (run ⟨cap, ov, react, Subj.publish⟩ (before ++ .make o g :: (between ++ .subscribe n k :: after))).told n k =
      if .destroy o ∈ between then deliver (react k) [] [] (some .completed)
      else deliver (react k) [] (hears (ε := ε) n o g k after).vals (hears n o g k after).fin := by
  have C42 := Subj.C42_publish cap hcap ov react (tr n o g false between) (tr n o g (decide (.destroy o ∈ between)) after) 0 k (fresh_tr hk)
  generalize hw : run ⟨cap, ov, react, Subj.publish⟩ before = w at *
  have hno : o ∉ w.gone := by rw [← hw, gone_run]; exact live
  have e : run ⟨cap, ov, react, Subj.publish⟩ (before ++ .make o g :: (between ++ .subscribe n k :: after)) =
      (between ++ .subscribe n k :: after).foldl (step ⟨cap, ov, react, Subj.publish⟩)
        { w with srcs := w.srcs ++ [⟨o, g, { store := () }⟩] } := by
    have hw' : before.foldl (step ⟨cap, ov, react, Subj.publish⟩) {} = w := hw
    simp [run, hw', step, hno]
  have hsrc := src_foldl ⟨cap, ov, react, Subj.publish⟩ n o g (between ++ .subscribe n k :: after)
    { w with srcs := w.srcs ++ [⟨o, g, { store := () }⟩] } ⟨o, g, { store := () }⟩ (by simp [hn]) rfl rfl
  have hd : decide (o ∈ w.gone) = false := by simpa using hno
  simp only [hd] at hsrc
  rw [World.told, e, hsrc]
  simp only
  rw [tr_append, Bool.false_or, tr, if_pos rfl]
  refine Eq.trans C42 ?_
  simp only [Subj.told, ending_tr]
  by_cases hx : Ev.destroy o ∈ between
  · simp [hx]
  · simp only [hx, if_false, decide_false, heard_tr]

/-- Two observables of the same signal (0 of object 1), one of another object. Observer 5 comes after the first emission, observer 6 leaves before the end, observer 7 comes when the object is gone; observer 8 disposes itself at its first value. -/
example : let react : Nat → List (Call Nat Nat) → Reaction Nat := fun k _ => { dispose := decide (k = 8) }
    let h : List (Ev Nat) := [.make 1 0, .make 2 0, .make 1 0, .emit 1 0 10, .subscribe 0 5, .subscribe 2 6, .subscribe 0 8, .emit 1 0 11, .emit 1 3 99, .emit 2 0 98,
      .dispose 2 6, .emit 1 0 12, .destroy 2, .destroy 1, .emit 1 0 97, .subscribe 0 7]
    let w := run ⟨some 1, 0, react, Subj.publish⟩ h
    w.told 0 5 = [.next 11, .next 12, .completed] ∧ w.told 2 6 = [.next 11] ∧ w.told 0 8 = [.next 11] ∧ w.told 0 7 = [.completed] ∧ w.told 1 5 = [] := by decide

end Rpp.Signal
