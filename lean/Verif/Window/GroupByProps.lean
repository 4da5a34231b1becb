import Verif.Window.GroupByProofs
import Verif.Window.WindowProps

/-!
# `group_by`: properties (C20, C71)

`exec (groupOper F) ls` is the state after any schedule `ls` of: notifications of the source, instructions of
the operator, and subscriptions and disposals by the environment between any two of them.  `F` are the two
selectors, which may throw, and the comparator, which has to be a strict weak order (as `std::map` requires);
it may identify different keys.  `op.names` are the keys of the groups handed to the main observer, in order
of creation.  `accepted s.log`, `acts s.log`, `feds w s.log`, `received o s.log` as for `window`.
-/

namespace Rpp.Win
variable {κ β α ε : Type}

theorem distinct_eq (lt : κ → κ → Bool) (ks : List κ) : distinctFrom lt [] ks = distinct lt ks := rfl

/-- What was accepted: all values go on, except at most the last notification. -/
theorem group_shape (F : GFun κ β α ε) (ls : List (Lbl (Item β ε))) :
    runOk (groupOper F) (accs (exec (groupOper F) ls).log) ∨
      ∃ bs t, accs (exec (groupOper F) ls).log = bs ++ [t] ∧ runOk (groupOper F) bs ∧
        (groupOper F).isTerm (plan (groupOper F) bs).1 t.2 t.1 = true := by
  have h := invT (groupOper_ok F) ls (O := groupOper F)
  cases ho : (exec (groupOper F) ls).over
  · exact .inl (h.t0 ho)
  · exact .inr (h.t1 ho)

theorem group_out {F : GFun κ β α ε} (hl : Swo F.lt) (ls : List (Lbl (Item β ε))) :
    GOut F (accs (exec (groupOper F) ls).log) := group_plan hl _ (group_shape F ls)

/-- Nobody leaves: the notifications kept are all. -/
theorem group_kept (F : GFun κ β α ε) (ls : List (Lbl (Item β ε))) (hg : .gone ∉ (exec (groupOper F) ls).log) :
    kept F (accs (exec (groupOper F) ls).log) = accepted (exec (groupOper F) ls).log := by
  rw [accepted_eq]
  exact kept_all F _ ((invP (groupOper_ok F) ls (O := groupOper F)).p1 ((clean_iff _).mpr hg)).1

theorem group_acts {F : GFun κ β α ε} (ls : List (Lbl (Item β ε)))
    (hg : .gone ∉ (exec (groupOper F) ls).log) (hp : (exec (groupOper F) ls).prog = []) :
    acts (exec (groupOper F) ls).log = (plan (groupOper F) (accs (exec (groupOper F) ls).log)).2.2 := by
  have hP := invP (groupOper_ok F) ls (O := groupOper F)
  rcases (hP.p1 ((clean_iff _).mpr hg)).2 with ⟨_, h⟩ | ⟨_, _, _, h⟩
  · rw [hp] at h; simpa [sim] using h
  · exact h

/-- **C20.** One group per distinct key, in the order of the keys' first appearance. -/
theorem C20_keys {F : GFun κ β α ε} (hl : Swo F.lt) (ls : List (Lbl (Item β ε)))
    (hg : .gone ∉ (exec (groupOper F) ls).log) :
    (exec (groupOper F) ls).op.names = distinct F.lt ((entries F (accepted (exec (groupOper F) ls).log)).map (·.1)) := by
  rw [← (invP (groupOper_ok F) ls (O := groupOper F)).p0, (group_out hl ls).names, group_kept F ls hg]
  rfl

/-- **C20.** What `distinct` means: no two of them are the same key, and every key is the same as one of them. -/
theorem C20_keys_distinct {lt : κ → κ → Bool} (hl : Swo lt) (ks : List κ) :
    (distinct lt ks).Pairwise (fun a b => same lt a b = false) ∧
      ∀ k ∈ ks, ∃ a ∈ distinct lt ks, same lt a k = true :=
  ⟨(distinctFrom_spec ks).1, (distinctFrom_spec ks).2 hl.irrefl⟩

/-- **C20.** As long as the main observer stays, everything `group_by` does is: for every value, open the group
of its key if there is none, and give it the value; at the end, tell the end to every group, each exactly
once, and then to the main observer.  (`order` is the order of the keys in the map.) -/
theorem C20_actions {F : GFun κ β α ε} (hl : Swo F.lt) (ls : List (Lbl (Item β ε)))
    (hg : .gone ∉ (exec (groupOper F) ls).log) (hp : (exec (groupOper F) ls).prog = []) :
    ∃ order : List Nat, order.Perm (List.range (exec (groupOper F) ls).op.names.length) ∧
      acts (exec (groupOper F) ls).log = groupActs F.lt [] (entries F (accepted (exec (groupOper F) ls).log)) ++
        match gend F (accepted (exec (groupOper F) ls).log) with
        | none => []
        | some x => order.map (fun w => .fed w x) ++ [.ended x] := by
  obtain ⟨order, h1, h2⟩ := (group_out hl ls).acts
  rw [(invP (groupOper_ok F) ls (O := groupOper F)).p0] at h1
  refine ⟨order, h1, ?_⟩
  rw [group_acts ls hg hp, h2, group_kept F ls hg]
  cases gend F (accepted (exec (groupOper F) ls).log) <;> rfl

/-- **C20.** Each group is handed to the main observer once, in the order of creation. -/
theorem C20_opens {F : GFun κ β α ε} (hl : Swo F.lt) (ls : List (Lbl (Item β ε)))
    (hg : .gone ∉ (exec (groupOper F) ls).log) (hp : (exec (groupOper F) ls).prog = []) :
    openeds (exec (groupOper F) ls).log = List.range (exec (groupOper F) ls).op.names.length := by
  rw [openeds_acts, group_acts ls hg hp, ((group_out hl ls).proj hl).2.1, (invP (groupOper_ok F) ls (O := groupOper F)).p0]

/-- **C20.** The group of a key gets the values with that key, in the order of the source, and then the end. -/
theorem C20_group_gets {F : GFun κ β α ε} (hl : Swo F.lt) (ls : List (Lbl (Item β ε)))
    (hg : .gone ∉ (exec (groupOper F) ls).log) (hp : (exec (groupOper F) ls).prog = []) (w : Nat) (k : κ)
    (hk : (exec (groupOper F) ls).op.names[w]? = some k) :
    feds w (exec (groupOper F) ls).log = groupGets F (accepted (exec (groupOper F) ls).log) k := by
  rw [← (invP (groupOper_ok F) ls (O := groupOper F)).p0] at hk
  rw [feds_acts, group_acts ls hg hp, ((group_out hl ls).proj hl).1 w, hk, group_kept F ls hg]

/-- **C20.** When the main observer has left and somebody still listens to a group, the groups go on as
before; only values with a key that has no group are dropped. -/
theorem C20_group_gets_alone {F : GFun κ β α ε} (hl : Swo F.lt) (ls : List (Lbl (Item β ε)))
    (hd : (exec (groupOper F) ls).dead = false) (hp : (exec (groupOper F) ls).prog = []) (w : Nat) (k : κ)
    (hk : (exec (groupOper F) ls).op.names[w]? = some k) :
    feds w (exec (groupOper F) ls).log = groupGets F (kept F (accs (exec (groupOper F) ls).log)) k := by
  have hP := invP (groupOper_ok F) ls (O := groupOper F)
  rw [← hP.p0] at hk
  have h2 := hP.p2 hd
  rw [hp] at h2
  simp only [sim, List.append_nil] at h2
  have hw := ((group_out hl ls).proj hl).1 w
  rw [hk] at hw
  rw [feds_acts, fedsA_fedPart, h2.1, ← fedsA_fedPart, hw]

/-- **C20.** At any moment, and whoever has left, a group was given the beginning of that. -/
theorem C20_group_prefix {F : GFun κ β α ε} (hl : Swo F.lt) (ls : List (Lbl (Item β ε))) (w : Nat) (k : κ)
    (hk : (exec (groupOper F) ls).op.names[w]? = some k) :
    feds w (exec (groupOper F) ls).log <+: groupGets F (kept F (accs (exec (groupOper F) ls).log)) k := by
  have hP := invP (groupOper_ok F) ls (O := groupOper F)
  rw [← hP.p0] at hk
  have hw := ((group_out hl ls).proj hl).1 w
  rw [hk] at hw
  simp only at hw
  rw [feds_acts, ← hw]
  exact fedsA_fed_prefix hP.p3

/-- **C20.** Nothing is given to a group that does not exist. -/
theorem C20_no_other_group {F : GFun κ β α ε} (hl : Swo F.lt) (ls : List (Lbl (Item β ε))) (w : Nat)
    (hk : (exec (groupOper F) ls).op.names.length ≤ w) : feds w (exec (groupOper F) ls).log = [] := by
  have hP := invP (groupOper_ok F) ls (O := groupOper F)
  rw [← hP.p0] at hk
  have hw := ((group_out hl ls).proj hl).1 w
  rw [List.getElem?_eq_none hk] at hw
  have := fedsA_fed_prefix (k := w) hP.p3
  rw [← feds_acts, hw] at this
  exact List.prefix_nil.mp this

/-- **C20.** Every value goes to exactly one group: among the groups, exactly one has its key. -/
theorem C20_each_value_once {lt : κ → κ → Bool} (hl : Swo lt) (ks : List κ) (k : κ) (hk : k ∈ ks) :
    ∃ w, ∀ v : Nat, (∃ a, (distinct lt ks)[v]? = some a ∧ same lt a k = true) ↔ v = w := by
  obtain ⟨a, ha, hs⟩ := (C20_keys_distinct hl ks).2 k hk
  cases hf : (distinct lt ks).findIdx? (fun a => same lt a k) with
  | none =>
    have := List.findIdx?_eq_none_iff.mp hf a ha
    rw [hs] at this; cases this
  | some w =>
    refine ⟨w, fun v => ⟨fun ⟨b, hb, hbs⟩ => ?_, fun e => ?_⟩⟩
    · exact ((findIdx_unique hl (C20_keys_distinct hl ks).1 hb hf).mp hbs).symm
    · subst e
      obtain ⟨hlt, h1, _⟩ := List.findIdx?_eq_some_iff_getElem.mp hf
      exact ⟨_, List.getElem?_eq_getElem hlt, h1⟩

/-- **C20.** The main observer is told the end, and nothing else. -/
theorem C20_main_end {F : GFun κ β α ε} (hl : Swo F.lt) (ls : List (Lbl (Item β ε)))
    (hg : .gone ∉ (exec (groupOper F) ls).log) (hp : (exec (groupOper F) ls).prog = []) :
    endeds (exec (groupOper F) ls).log = (gend F (accepted (exec (groupOper F) ls).log)).toList := by
  rw [endeds_acts, group_acts ls hg hp, ((group_out hl ls).proj hl).2.2, group_kept F ls hg]

/-- **C20.** An observer of a group is told what the group is given after it joined, in order: at any moment a
beginning of it, and all of it when the operator is between two notifications, unless it unsubscribed. -/
theorem C20_observer (F : GFun κ β α ε) (ls : List (Lbl (Item β ε))) (o w : Nat)
    (hs : .sub o w ∈ (exec (groupOper F) ls).log) :
    received o (exec (groupOper F) ls).log <+: due o (exec (groupOper F) ls).log ∧
      ((exec (groupOper F) ls).prog = [] → .unsub o ∉ (exec (groupOper F) ls).log →
        received o (exec (groupOper F) ls).log = due o (exec (groupOper F) ls).log) :=
  (invD (groupOper_ok F) ls (O := groupOper F)).observer hs

/-- **C20.** An observer who comes when the group has ended is told the end, or nothing if the group does not
exist any more. -/
theorem C20_late (F : GFun κ β α ε) (ls : List (Lbl (Item β ε))) (o w : Nat)
    (hs : .late o w ∈ (exec (groupOper F) ls).log) :
    received o (exec (groupOper F) ls).log = [] ∨
      ∃ x, received o (exec (groupOper F) ls).log = [x] ∧ x.term = true ∧ .fed w x ∈ (exec (groupOper F) ls).log :=
  lateOk (groupOper_ok F) ls hs

/-- **C20.** Left alone, the operator finishes what it is doing. -/
theorem C20_finishes (F : GFun κ β α ε) (ls : List (Lbl (Item β ε))) :
    ∃ k, (exec (groupOper F) (ls ++ List.replicate k .run)).prog = [] := by
  obtain ⟨k, h⟩ := finishes (groupOper F) (exec (groupOper F) ls)
  exact ⟨k, by simpa [exec, List.foldl_append] using h⟩

/-- **C71.** The source's subscription is disposed exactly when nobody listens any more: neither the main
observer nor any observer of a group. -/
theorem C71_group_by (F : GFun κ β α ε) (ls : List (Lbl (Item β ε))) :
    (exec (groupOper F) ls).dead = true ↔
      mainHere (exec (groupOper F) ls).log = false ∧ ∀ o, listens o (exec (groupOper F) ls).log = false :=
  dead_iff (groupOper_ok F) ls

/-! ## The hypotheses can be met -/

/-- Keys compared by their tens only, in descending order; the key selector throws for 0, the value selector
for 99. -/
def exF : GFun Nat Nat Nat Nat where
  key b := if b = 0 then .error 1 else .ok b
  value b := if b = 99 then .error 2 else .ok (b + 1000)
  lt a b := decide (b / 10 < a / 10)

theorem exF_swo : Swo exF.lt := by
  constructor
  · intro a; simp [exF]
  · intro a b c; simp only [exF, decide_eq_true_eq]; omega
  · intro a b c; simp only [exF, same, Bool.and_eq_true, Bool.not_eq_true', decide_eq_false_iff_not]; omega

/-- 11, 25 and 17; then 99, which opens a third group and then throws. -/
def groupRun : List (Lbl (Item Nat Nat)) :=
  [.notify (.val 11), .run, .run, .sub 0 0, .run, .run, .notify (.val 25), .run, .run, .run, .notify (.val 17), .run, .run,
   .notify (.val 99), .run, .run, .sub 1 2, .run, .run, .run, .run, .run, .run, .run]

example : (exec (groupOper exF) groupRun).log =
    [.acc (.val 11) false, .opened 0, .sub 0 0, .fed 0 (.val 1011), .got 0 (.val 1011),
     .acc (.val 25) false, .opened 1, .fed 1 (.val 1025),
     .acc (.val 17) false, .fed 0 (.val 1017), .got 0 (.val 1017),
     .acc (.val 99) false, .opened 2, .sub 1 2, .fed 2 (.err 2), .got 1 (.err 2), .fed 1 (.err 2), .fed 0 (.err 2), .got 0 (.err 2),
     .ended (.err 2)] := by decide

example : (exec (groupOper exF) groupRun).prog = [] ∧ (exec (groupOper exF) groupRun).op.names = [11, 25, 99] ∧
    Ev.gone ∉ (exec (groupOper exF) groupRun).log := by decide

example : groupGets exF [.val 11, .val 25, .val 17, .val 99, .val 12] 11 = [.val 1011, .val 1017, .err 2] ∧
    groupGets exF [.val 11, .val 25, .val 17, .val 0, .val 12] 25 = [.val 1025, .err 1] := by decide

/-- The main observer leaves, an observer of group 0 stays: its values still come, 25 is dropped. -/
example : (exec (groupOper exF) [.notify (.val 11), .run, .run, .sub 0 0, .leave, .run, .run, .notify (.val 25), .run,
      .notify (.val 17), .run, .run]).log =
    [.acc (.val 11) false, .opened 0, .sub 0 0, .gone, .fed 0 (.val 1011), .got 0 (.val 1011), .acc (.val 25) true,
     .acc (.val 17) true, .fed 0 (.val 1017), .got 0 (.val 1017)] := by decide

end Rpp.Win
