/-!
# Which object keeps which alive when a chain of operators is subscribed

Every allocation of a subscription — an observer, an operator's shared state, a disposable, a subject's state, an observable kept by value — is a node.
A node keeps another one alive through a member of it (`fields`: a `std::shared_ptr`, a strong wrapper, or an object held by value) or through a strong wrapper in its container of disposables (`entries` with `true`).
A weak wrapper in a container (`entries` with `false`) keeps nothing alive, but disposing the container disposes what it points to.
There are only reference counts and no collector: nodes which keep each other alive in a ring are never destroyed.

What an operator's functions do with the values is not modelled here, only the references they make.
References are added as the code adds them; `cut` drops any one of them at any time, which covers `dispose()`, `clear()`, `remove`, a queue's `pop` and an assignment over a member.
An observer or strategy held by value is a node of its own which its holder owns.
-/

namespace Rpp.Graph

/-- What an observer (or an observable) remembers, so that later calls on it know which objects they use. `o` is always the observer the operator was applied to. -/
inductive Role where
  | plain
  /-- the state of a subject made by the program -/
  | subj
  /-- merge.hpp 53-110: state and `m_disposable` -/
  | merge (st d o : Nat)
  /-- with_latest_from.hpp 28-52: state and `m_disposable` -/
  | latest (st d o : Nat)
  /-- combining_strategy.hpp 49-57, take_until.hpp 46-68, on_error_resume_next.hpp 20-90: state which passes `set_upstream` to the observer it holds -/
  | fwd (st o : Nat) (loc : Bool)
  /-- switch_on_next.hpp 85-134 -/
  | switch (st o : Nat)
  /-- concat.hpp 112-190 -/
  | concat (st d o : Nat)
  /-- retry.hpp 44-85, retry_when.hpp 48-128, sources/concat.hpp 52-84: state and the composite upstreams are added to -/
  | again (st d o : Nat)
  /-- the inner observer of concat.hpp 112-160: state and the reference it hands on to the next one (59-91) -/
  | queued (st i o : Nat)
  /-- group_by.hpp 62-128, window.hpp 28-95: the refcount_disposable -/
  | split (d : Nat) (strong : Bool)
  /-- window_toggle.hpp 110-139: the observer of the openings -/
  | toggle (st d : Nat)
  /-- a group_by group or a window: subject's state and refcount_disposable -/
  | part (s d : Nat) (group : Bool)
  /-- connectable_observable.hpp 20-67: subject's state and refcount_disposable -/
  | shared (s d : Nat)
  deriving DecidableEq, Repr

/-- All objects of a program: who owns whom (`kids`), what a container holds, what an observer is; the fields cite the members they stand for. -/
structure Heap where
  /-- nodes are `0 … size - 1` -/
  size : Nat := 0
  fields : List (Nat × Nat) := []
  /-- container, what the wrapper points to, whether it is a strong one -/
  entries : List (Nat × Nat × Bool) := []
  /-- the containers to which an observer's `set_upstream` brings a disposable (observer.hpp 46-62): the observer's own one, if it has one (observers/details/disposable_strategy.hpp 70-94; `none_disposable_strategy` 96-103 has none), and those its strategy passes it to -/
  ups : Nat → List Nat := fun _ => []
  role : Nat → Role := fun _ => .plain
  /-- (observer made by an operator, observer the operator was applied to): bookkeeping for the statement only -/
  under : List (Nat × Nat) := []

/-- Function update; no counterpart in /repo. -/
def upd {α : Type} (f : Nat → α) (i : Nat) (v : α) : Nat → α := fun j => if j = i then v else f j

/-- The containers `set_upstream(d)` on `o` writes to, as entries. (observers/details/disposable_strategy.hpp, and the `set_upstream` of the operators cited at the constructors below) -/
def Heap.given (h : Heap) (o d : Nat) (strong : Bool) : List (Nat × Nat × Bool) :=
  (h.ups o).map (fun x => (x, d, strong))

/-- A `make_lambda_observer` or the like: its own container is where upstreams go (lambda_observer.hpp, disposable_strategy.hpp 70-94). -/
def Heap.sink (h : Heap) : Heap :=
  let n := h.size
  { h with size := n + 1, ups := upd h.ups n [n] }

/-- observable.hpp 144-175 `subscribe_with_disposable`, lambda_observer.hpp 72-80: the observer holds the composite, so does the caller. Node `n` is the composite, `n + 1` the observer. -/
def Heap.sinkWith (h : Heap) : Heap :=
  let d := h.size
  let n := h.size + 1
  { h with size := h.size + 2, fields := h.fields ++ [(n, d)], ups := upd h.ups n [d] }

/-- map.hpp, filter.hpp, take.hpp, … : a strategy with `none_disposable_strategy` holding the observer by value and passing `set_upstream` on. `as_dynamic` (dynamic_observer.hpp) is the same with a `shared_ptr` in place of the value. -/
def Heap.pass (h : Heap) (o : Nat) : Heap :=
  let n := h.size
  { h with size := n + 1, fields := h.fields ++ [(n, o)], ups := upd h.ups n (h.ups o)
           under := h.under ++ [(n, o)] }

/-- finally.hpp 34-39 `lift`: a callback disposable is given to the observer, which is returned as it is. -/
def Heap.final (h : Heap) (o : Nat) : Heap :=
  let d := h.size
  { h with size := d + 1, entries := h.entries ++ h.given o d true }

/-- merge.hpp 25-110: `merge_state` holds the observer and a composite; the composite is given to the observer as a strong reference. -/
def Heap.merge (h : Heap) (o : Nat) : Heap :=
  let st := h.size
  let d := h.size + 1
  let n := h.size + 2
  { h with size := h.size + 3
           fields := h.fields ++ [(st, o), (st, d), (n, st)]
           entries := h.entries ++ h.given o d true
           ups := upd h.ups n [n, d], role := upd h.role n (.merge st d o)
           under := h.under ++ [(n, o)] }

/-- with_latest_from.hpp 25-117, 151-168: the same with an observer which has no container of its own. -/
def Heap.latest (h : Heap) (o : Nat) : Heap :=
  let st := h.size
  let d := h.size + 1
  let n := h.size + 2
  { h with size := h.size + 3
           fields := h.fields ++ [(st, o), (st, d), (n, st)]
           entries := h.entries ++ h.given o d true
           ups := upd h.ups n [d], role := upd h.role n (.latest st d o)
           under := h.under ++ [(n, o)] }

/-- combining_strategy.hpp 103-115 `subscribe_impl` (zip, combine_latest): the state is a disposable and holds the observer; the observer gets a weak reference to it. `set_upstream` goes to the observer in the state (54-57). -/
def Heap.combine (h : Heap) (o : Nat) : Heap :=
  let st := h.size
  let n := h.size + 1
  { h with size := h.size + 2
           fields := h.fields ++ [(st, o), (n, st)]
           entries := h.entries ++ h.given o st false
           ups := upd h.ups n (n :: h.ups o), role := upd h.role n (.fwd st o true)
           under := h.under ++ [(n, o)] }

/-- take_until.hpp 109-116, on_error_resume_next.hpp 54-58: a shared state holding the observer, nothing is given to the observer. -/
def Heap.until (h : Heap) (o : Nat) : Heap :=
  let st := h.size
  let n := h.size + 1
  { h with size := h.size + 2
           fields := h.fields ++ [(st, o), (n, st)]
           ups := upd h.ups n (h.ups o), role := upd h.role n (.fwd st o false)
           under := h.under ++ [(n, o)] }

/-- debounce.hpp 161-171 `lift`: the state is a disposable and holds the observer; the observer gets a weak reference to it (169). -/
def Heap.debounce (h : Heap) (o : Nat) : Heap :=
  let st := h.size
  let n := h.size + 1
  { h with size := h.size + 2
           fields := h.fields ++ [(st, o), (n, st)]
           entries := h.entries ++ h.given o st false
           ups := upd h.ups n (h.ups o)
           under := h.under ++ [(n, o)] }

/-- delay.hpp 33-81, 180-187 (and observe_on): a shared state holding the observer; the observer made has a container of its own. -/
def Heap.delay (h : Heap) (o : Nat) : Heap :=
  let st := h.size
  let n := h.size + 1
  { h with size := h.size + 2
           fields := h.fields ++ [(st, o), (n, st)]
           ups := upd h.ups n (n :: h.ups o)
           under := h.under ++ [(n, o)] }

/-- timeout.hpp 121-160: the composite holds the observer and the fallback observable (`kept`: what that owns); the observer gets a weak reference to the composite (131). Upstreams are added to the composite (71-74). -/
def Heap.timeout (h : Heap) (o : Nat) (kept : List Nat) : Heap :=
  let st := h.size
  let n := h.size + 1
  { h with size := h.size + 2
           fields := h.fields ++ [(st, o), (n, st)] ++ kept.map (fun c => (st, c))
           entries := h.entries ++ h.given o st false
           ups := upd h.ups n [st]
           under := h.under ++ [(n, o)] }

/-- retry.hpp 20-39, 122-126, retry_when.hpp 22-43, 140-144, sources/concat.hpp 25-46 (also repeat): the state holds the observer, a composite given to the observer as a strong reference, and the observable (`kept`: what that owns). -/
def Heap.retry (h : Heap) (o : Nat) (kept : List Nat) : Heap :=
  let st := h.size
  let d := h.size + 1
  let n := h.size + 2
  { h with size := h.size + 3
           fields := h.fields ++ [(st, o), (st, d), (n, st)] ++ kept.map (fun c => (st, c))
           entries := h.entries ++ h.given o d true
           ups := upd h.ups n [d], role := upd h.role n (.again st d o)
           under := h.under ++ [(n, o)] }

/-- switch_on_next.hpp 21-41, 85-134: the state is a refcount_disposable holding the observer, which gets a weak reference to it (126). `m_this_refcount` is made by `add_ref()` with the default mode (refcount_disposable.hpp 110-111): it holds the state, the state sees it weakly. -/
def Heap.switch (h : Heap) (o : Nat) : Heap :=
  let st := h.size
  let i := h.size + 1
  let n := h.size + 2
  { h with size := h.size + 3
           fields := h.fields ++ [(st, o), (i, st), (n, st), (n, i)]
           entries := h.entries ++ h.given o st false ++ [(st, i, false)]
           ups := upd h.ups n [i], role := upd h.role n (.switch st o)
           under := h.under ++ [(n, o)] }

/-- concat.hpp 38-46, 112-124, 167-172: the refcount_disposable is held by the state and given to the observer as a strong reference; the observer's own reference is made by `add_ref(StrongRefRefSource)`, so the refcount_disposable holds it (refcount_disposable.hpp 110-111). -/
def Heap.concat (h : Heap) (o : Nat) : Heap :=
  let st := h.size
  let d := h.size + 1
  let i := h.size + 2
  let n := h.size + 3
  { h with size := h.size + 4
           fields := h.fields ++ [(st, o), (st, d), (n, st), (n, i)]
           entries := h.entries ++ h.given o d true ++ [(d, i, true)]
           ups := upd h.ups n [i], role := upd h.role n (.concat st d o)
           under := h.under ++ [(n, o)] }

/-- group_by.hpp 67-89, window.hpp 41-46, 78: the observer is held by value beside the refcount_disposable; it gets a reference made by `add_ref()`, which holds the refcount_disposable. Upstreams are added to the refcount_disposable. `strong`: window's observables hold the refcount_disposable (forwarding_subject.hpp 58), those of group_by do not (group_by.hpp 145). -/
def Heap.split (h : Heap) (o : Nat) (strong : Bool) : Heap :=
  let d := h.size
  let i := h.size + 1
  let n := h.size + 2
  { h with size := h.size + 3
           fields := h.fields ++ [(i, d), (n, o), (n, d)]
           entries := h.entries ++ h.given o i true ++ [(d, i, false)]
           ups := upd h.ups n [d], role := upd h.role n (.split d strong) }

/-- window_toggle.hpp 30-66, 142-160: the state holds the observer. The openings are subscribed with a composite of their own (154, `e`), which the refcount_disposable holds; their observer (`m`) holds the refcount_disposable and the state. -/
def Heap.toggle (h : Heap) (o : Nat) : Heap :=
  let st := h.size
  let d := h.size + 1
  let i := h.size + 2
  let e := h.size + 3
  let m := h.size + 4
  let n := h.size + 5
  { h with size := h.size + 6
           fields := h.fields ++ [(st, o), (i, d), (m, d), (m, st), (m, e), (n, d), (n, st)]
           entries := h.entries ++ h.given o i true ++ [(d, i, false), (d, e, true)]
           ups := upd (upd h.ups m [e]) n [d], role := upd h.role m (.toggle st d) }

/-- A further observer of an operator with a state: an inner observable (merge.hpp 119-124, concat.hpp 174-182, switch_on_next.hpp 97-104), one of the other observables (combining_strategy.hpp 117-121, with_latest_from.hpp 163-168, take_until.hpp 113), the fallback (on_error_resume_next.hpp 72-75) or the next attempt (retry.hpp 99, retry_when.hpp 119, sources/concat.hpp 102, concat.hpp 86). `concat` makes a reference for it (179), `switch_on_next` one with the default mode (102), which the outer observer keeps in `m_last_refcount`. -/
def Heap.inner (h : Heap) (k : Nat) : Heap :=
  let n := h.size
  match h.role k with
  | .merge st d o | .latest st d o =>
      { h with size := n + 1, fields := h.fields ++ [(n, st)], ups := upd h.ups n [n, d]
               under := h.under ++ [(n, o)] }
  | .fwd st o l =>
      { h with size := n + 1, fields := h.fields ++ [(n, st)], ups := upd h.ups n (if l then n :: h.ups o else h.ups o)
               under := h.under ++ [(n, o)] }
  | .again st d o =>
      { h with size := n + 1, fields := h.fields ++ [(n, st)], ups := upd h.ups n [d], role := upd h.role n (.again st d o)
               under := h.under ++ [(n, o)] }
  | .concat st d o =>
      let i := h.size + 1
      { h with size := n + 2, fields := h.fields ++ [(n, st), (n, i)], entries := h.entries ++ [(d, i, true)]
               ups := upd h.ups n [n, i], role := upd h.role n (.queued st i o), under := h.under ++ [(n, o)] }
  | .queued st i o =>
      { h with size := n + 1, fields := h.fields ++ [(n, st), (n, i)], ups := upd h.ups n [n, i]
               role := upd h.role n (.queued st i o), under := h.under ++ [(n, o)] }
  | .switch st o =>
      let i := h.size + 1
      { h with size := n + 2, fields := h.fields ++ [(n, st), (n, i), (i, st), (k, i)], entries := h.entries ++ [(st, i, false)]
               ups := upd h.ups n [i], under := h.under ++ [(n, o)] }
  | _ => h

/-- A new group or window: a subject, held by the operator's observer (group_by.hpp 134-141, window.hpp 54-59) or by window_toggle's state (window_toggle.hpp 53-60, 117-124), seen weakly by the refcount_disposable. The observable sent downstream (`g`): a group's holds the subject's state (group_by.hpp 144-145), a window's holds the refcount_disposable and sees the subject weakly (forwarding_subject.hpp 57-58). For window_toggle the observer of the closing (`c`) holds the refcount_disposable and the state, and upstreams go to the subject's state (window_toggle.hpp 76-107, 124). -/
def Heap.part (h : Heap) (k : Nat) : Heap :=
  let s := h.size
  let g := h.size + 1
  let c := h.size + 2
  match h.role k with
  | .split d strong =>
      { h with size := h.size + 2
               fields := h.fields ++ [(k, s), (g, if strong then d else s)]
               entries := h.entries ++ [(d, s, false)]
               role := upd h.role g (.part s d (!strong)) }
  | .toggle st d =>
      { h with size := h.size + 3
               fields := h.fields ++ [(st, s), (g, d), (c, d), (c, st)]
               entries := h.entries ++ [(d, s, false)]
               ups := upd h.ups c [s], role := upd h.role g (.part s d false) }
  | _ => h

/-- A publish_subject, behavior_subject or replay_subject: its state (publish_subject.hpp 43-61). A copy of the subject and the observable got from it hold the state, so they own node `size`. -/
def Heap.subject (h : Heap) : Heap := { h with size := h.size + 1, role := upd h.role h.size .subj }

/-- publish_subject.hpp 45-48, 23-40 `get_observer`: holds the state and adds upstreams to it. -/
def Heap.entry (h : Heap) (s : Nat) : Heap :=
  let n := h.size
  { h with size := n + 1, fields := h.fields ++ [(n, s)], ups := upd h.ups n [s] }

/-- subject_state.hpp 82-109 `on_subscribe`: the state holds the observer inside a disposable (`b`, 42-67) which sees the state weakly; the observer gets a weak reference to that disposable (100). -/
def Heap.listen (h : Heap) (s w : Nat) : Heap :=
  let b := h.size
  { h with size := b + 1
           fields := h.fields ++ [(s, b), (b, w)]
           entries := h.entries ++ h.given w b false }

/-- refcount_disposable.hpp 99-114 `add_ref()` with the default mode, given to the observer `w`. -/
def Heap.addRef (h : Heap) (d w : Nat) : Heap :=
  let i := h.size
  { h with size := i + 1
           fields := h.fields ++ [(i, d)]
           entries := h.entries ++ h.given w i true ++ [(d, i, false)] }

/-- group_by.hpp 24-46, 147-158: the observer is wrapped into one which also holds the reference and adds upstreams to it. -/
def Heap.wrap (h : Heap) (w i : Nat) : Heap :=
  let n := h.size
  { h with size := n + 1, fields := h.fields ++ [(n, w), (n, i)], ups := upd h.ups n [i] }

/-- Subscribing `w` to a group (group_by.hpp 147-158) or a window (forwarding_subject.hpp 56-67), or to `publish() | ref_count()` (connectable_observable.hpp 41-50). -/
def Heap.attach (h : Heap) (g w : Nat) : Heap :=
  match h.role g with
  | .part s d true => (((h.addRef d w).wrap w h.size).listen s (h.size + 1))
  | .part s d false => (h.addRef d w).listen s w
  | .shared s d => (h.addRef d w).listen s w
  | _ => h

/-- connectable_observable.hpp 41-67, 95-110: a new refcount_disposable, kept by the state of `ref_count` (`c`), and the observer given to the source (`n`), which holds it and the subject's state and adds upstreams to both. -/
def Heap.share (h : Heap) (s : Nat) : Heap :=
  let d := h.size
  let c := h.size + 1
  let n := h.size + 2
  { h with size := h.size + 3
           fields := h.fields ++ [(c, d), (n, s), (n, d)]
           ups := upd h.ups n [d, s], role := upd h.role c (.shared s d) }

/-- A source gives its observer a disposable which owns `kept` (for example what a callback of `make_callback_disposable` captures). (disposables/callback_disposable.hpp 27-46) -/
def Heap.source (h : Heap) (o : Nat) (kept : List Nat) : Heap :=
  let d := h.size
  { h with size := d + 1
           fields := h.fields ++ kept.map (fun c => (d, c))
           entries := h.entries ++ h.given o d true }

/-- An object takes hold of another one: a value stored by a subscriber, an observable in concat's queue (concat.hpp 181). -/
def Heap.store (h : Heap) (a b : Nat) : Heap := { h with fields := h.fields ++ [(a, b)] }

/-- The state an observer of `switch_on_next` holds in `m_state`, which nothing assigns to (switch_on_next.hpp 131). -/
def Role.sw : Role → List Nat
  | .switch st _ => [st]
  | _ => []

/-- A reference is dropped; not `m_state` of an observer of `switch_on_next`, which goes only with the observer. -/
def Heap.cut (h : Heap) (a b : Nat) : Heap :=
  if (h.role a).sw.contains b then h else
  { h with fields := h.fields.filter (fun p => p ≠ (a, b))
           entries := h.entries.filter (fun p => ¬ (p.1 = a ∧ p.2.1 = b)) }

/-- The calls that create, connect or drop objects; each is carried out by the function of `Heap` named in `Heap.apply`, which cites its lines. -/
inductive Op where
  | sink | sinkWith | pass (o : Nat) | final (o : Nat) | merge (o : Nat) | latest (o : Nat) | combine (o : Nat)
  | until (o : Nat) | debounce (o : Nat) | delay (o : Nat) | timeout (o : Nat) (kept : List Nat)
  | retry (o : Nat) (kept : List Nat) | switch (o : Nat) | concat (o : Nat) | split (o : Nat) (strong : Bool)
  | toggle (o : Nat) | inner (k : Nat) | part (k : Nat) | subject | entry (s : Nat) | listen (s w : Nat)
  | attach (g w : Nat) | share (s : Nat) | source (o : Nat) (kept : List Nat) | store (a b : Nat) | cut (a b : Nat)
  deriving DecidableEq, Repr

/-- The objects an operation is applied to. -/
def Op.args : Op → List Nat
  | .sink | .sinkWith | .subject => []
  | .pass o | .final o | .merge o | .latest o | .combine o | .until o | .debounce o | .delay o
  | .switch o | .concat o | .split o _ | .toggle o | .inner o | .part o | .entry o | .share o => [o]
  | .timeout o l | .retry o l | .source o l => o :: l
  | .listen a b | .attach a b | .store a b | .cut a b => [a, b]

/-- Carry out one call; the lines modelled are cited at the functions called. -/
def Heap.apply (h : Heap) : Op → Heap
  | .sink => h.sink
  | .sinkWith => h.sinkWith
  | .pass o => h.pass o
  | .final o => h.final o
  | .merge o => h.merge o
  | .latest o => h.latest o
  | .combine o => h.combine o
  | .until o => h.until o
  | .debounce o => h.debounce o
  | .delay o => h.delay o
  | .timeout o l => h.timeout o l
  | .retry o l => h.retry o l
  | .switch o => h.switch o
  | .concat o => h.concat o
  | .split o b => h.split o b
  | .toggle o => h.toggle o
  | .inner k => h.inner k
  | .part k => h.part k
  | .subject => h.subject
  | .entry s => h.entry s
  | .listen s w => h.listen s w
  | .attach g w => h.attach g w
  | .share s => h.share s
  | .source o l => h.source o l
  | .store a b => h.store a b
  | .cut a b => h.cut a b

/-- The arguments which have to be states of subjects. -/
def Op.subjects : Op → List Nat
  | .entry s | .share s | .listen s _ => [s]
  | _ => []

/-- The arguments which have to be observers. -/
def Op.observers : Op → List Nat
  | .pass o | .final o | .merge o | .latest o | .combine o | .until o | .debounce o | .delay o
  | .switch o | .concat o | .split o _ | .toggle o | .timeout o _ | .retry o _ | .source o _ | .listen _ o | .attach _ o => [o]
  | _ => []

/-- The operation makes sense: what it is applied to exists and is of the right sort. -/
def Op.ok (h : Heap) (op : Op) : Prop :=
  (∀ x ∈ op.args, x < h.size) ∧ (∀ s ∈ op.subjects, h.role s = .subj) ∧ (∀ o ∈ op.observers, h.ups o ≠ [])

instance (h : Heap) (op : Op) : Decidable (op.ok h) := by unfold Op.ok; infer_instance

/-- One call, if it makes sense; no counterpart in /repo. -/
def step (h : Heap) (op : Op) : Heap := if op.ok h then h.apply op else h

/-- The objects after a sequence of calls; no counterpart in /repo. -/
def exec (ops : List Op) : Heap := ops.foldl step {}

/-! ## Destruction -/

/-- Node `a` keeps node `b` alive. (members of type std::shared_ptr, observers held by value) -/
def Heap.owns (h : Heap) (a b : Nat) : Bool := h.fields.contains (a, b) || h.entries.contains (a, b, true)

/-- One round of destruction: of the nodes still there, those stay which somebody outside holds or which another node still there keeps alive. (destruction by reference counting of std::shared_ptr) -/
def Heap.sweep (h : Heap) (held alive : List Nat) : List Nat :=
  alive.filter (fun x => held.contains x || alive.any (fun y => h.owns y x))

/-- `n` rounds of destruction: reference counting of std::shared_ptr; no counterpart in /repo. -/
def Heap.sweeps (h : Heap) (held : List Nat) : Nat → List Nat → List Nat
  | 0, alive => alive
  | k + 1, alive => h.sweeps held k (h.sweep held alive)

/-- What is still there when `held` are the only objects held from outside (by the program, a source or a scheduler's queue). -/
def Heap.alive (h : Heap) (held : List Nat) : List Nat := h.sweeps held h.size (List.range h.size)

end Rpp.Graph
