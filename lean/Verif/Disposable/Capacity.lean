import Verif.Disposable.Container

/-!
# Compile-time capacity of the final observer's disposable container (C54)

Two functions of the pipeline: the container type computed at compile time (`Sel`), and the disposables that
are handed to the subscriber through `set_upstream` during one subscription (`Calls`). Which operator hands
what downstream is read off the operator headers, cited per constructor.
-/

namespace Rpp.Capacity

/-- observables/details/disposable_strategy.hpp: `dynamic_disposable_strategy_selector` and
`default_disposable_strategy_selector` (27-47) are `dyn`; `fixed_disposable_strategy_selector<n>` (49-70) is
`fixed n` (`fixed 0` is the bool strategy over `none_disposables_container`, which throws on every push). -/
inductive Sel where
  | dyn
  | fixed (n : Nat)
deriving DecidableEq, Repr

/-- `add<k>`, lines 31, 44, 53, 63. -/
def Sel.add (k : Nat) : Sel → Sel
  | .dyn => .dyn
  | .fixed n => .fixed (n + k)

/-- Operators with `updated_disposable_strategy = Prev` whose observer forwards every `set_upstream`
downstream and adds none of its own (lines of the forwarding `set_upstream`). `delayOp` covers delay and
observe_on (delay.hpp 73-76), `subscribeOn` hands over the observer unchanged (subscribe_on.hpp 47-52). -/
inductive Fwd where
  | map | filter | take | skip | takeWhile | takeLast | first | last | elementAt | distinct
  | distinctUntilChanged | scan | reduce | buffer | tap | throttle | delayOp | subscribeOn
deriving DecidableEq, Repr

/-- Operators with `updated_disposable_strategy = fixed<1>`: they hand exactly one disposable of their own
downstream, when they are lifted: merge.hpp 32 (merge, flat_map, merge_with), concat.hpp 45,
switch_on_next.hpp 126, group_by.hpp 79, window.hpp 45, window_toggle.hpp 153, retry.hpp 29,
retry_when.hpp 33. -/
inductive Own where
  | merge | mergeWith | concat | switchOnNext | groupBy | window | windowToggle | retry | retryWhen
deriving DecidableEq, Repr

/-- Operators with the default (dynamic) selector: with_latest_from.hpp 143, combining_strategy.hpp 93 (zip,
combine_latest), on_error_resume_next.hpp 116, take_until.hpp 106, timeout.hpp (no `updated_…`). -/
inductive Dflt where
  | withLatestFrom | zip | combineLatest | onErrorResumeNext | takeUntil | timeout
deriving DecidableEq, Repr

/-- Observables. -/
inductive Obsv where
  | from | interval | empty | never | error   -- bool selector: from.hpp 87, interval.hpp 32, empty.hpp 23, never.hpp 22, error.hpp 22
  | create                                    -- create.hpp 22: deduced from a lambda, hence default
  | dynamic                                   -- dynamic/variant/grouped observables, source::concat: default
  | subject                                   -- publish/behavior/replay and serialized subjects: subject_state.hpp 75
  | forwarding                                -- observables handed out by window: forwarding_subject.hpp 45
  | connectable                               -- connectable_observable.hpp 72: inherits from the subject's observable
  | refCount                                  -- connectable_observable.hpp 38
  | defer (o : Obsv)                          -- defer.hpp 23
  | blocking (o : Obsv)                       -- blocking_observable.hpp 51
  | fwd (op : Fwd) (o : Obsv)
  | finally (o : Obsv)                        -- finally.hpp 30
  | debounce (o : Obsv)                       -- debounce.hpp 157
  | own (op : Own) (o : Obsv)
  | dflt (op : Dflt) (o : Obsv)
deriving Repr

/-- The selector computed at compile time (chain_strategy.hpp 30, 76). -/
def Obsv.sel : Obsv → Sel
  | .from | .interval | .empty | .never | .error => .fixed 0
  | .create | .dynamic => .dyn
  | .subject | .connectable => .fixed 1
  | .forwarding => (Sel.fixed 1).add 1
  | .refCount => (Sel.fixed 1).add 1
  | .defer o => o.sel
  | .blocking o => o.sel.add 1
  | .fwd _ o => o.sel
  | .finally o => o.sel.add 1
  | .debounce o => o.sel.add 1
  | .own _ _ => .fixed 1
  | .dflt _ _ => .dyn

/-- `Calls o k`: one subscription to `o` may call `set_upstream` of the subscriber `k` times. -/
inductive Calls : Obsv → Nat → Prop where
  | from : Calls .from 0
  | interval : Calls .interval 0
  | empty : Calls .empty 0
  | never : Calls .never 0
  | error : Calls .error 0
  | create (k) : Calls .create k                                  -- user code
  | dynamic (k) : Calls .dynamic k
  | subject : Calls .subject 1                                    -- subject_state.hpp 100
  | subjectEnded : Calls .subject 0                               -- subject_state.hpp 102-109
  | forwarding {k} : Calls .subject k → Calls .forwarding (k + 1) -- forwarding_subject.hpp 62-64
  | forwardingGone {k} : Calls .subject k → Calls .forwarding k   -- the refcount expired
  | forwardingDead : Calls .forwarding 0                          -- the state expired
  | connectable {k} : Calls .subject k → Calls .connectable k
  | refCount {k} : Calls .connectable k → Calls .refCount (k + 1) -- connectable_observable.hpp 45-46
  | defer {o k} : Calls o k → Calls (.defer o) k                  -- defer.hpp 28-31
  | blocking {o k} : Calls o k → Calls (.blocking o) (k + 1)      -- blocking_observable.hpp 67-68
  | fwd {op o k} : Calls o k → Calls (.fwd op o) k
  | finally {o k} : Calls o k → Calls (.finally o) (k + 1)        -- finally.hpp 37
  | debounce {o k} : Calls o k → Calls (.debounce o) (k + 1)      -- debounce.hpp 119, 169
  | own {op o} : Calls (.own op o) 1
  | dflt {op o} (k) : Calls (.dflt op o) k

/-- `k` disposables fit into the container selected by `s`. -/
def Sel.fits (k : Nat) : Sel → Prop
  | .dyn => True
  | .fixed n => k ≤ n

theorem fits_add {s : Sel} {k : Nat} (h : s.fits k) : (s.add 1).fits (k + 1) := by
  cases s with
  | dyn => trivial
  | fixed n => simp [Sel.add, Sel.fits] at *; exact h

theorem calls_subject {k} (h : Calls .subject k) : k ≤ 1 := by cases h <;> omega
theorem calls_connectable {k} (h : Calls .connectable k) : k ≤ 1 := by cases h; exact calls_subject ‹_›

/-- C54: for every pipeline the number of disposables handed to the final observer is at most the capacity
computed at compile time. -/
theorem C54_capacity (o : Obsv) (k : Nat) (h : Calls o k) : o.sel.fits k := by
  induction h with
  | subject => simp [Obsv.sel, Sel.fits]
  | subjectEnded => simp [Obsv.sel, Sel.fits]
  | forwarding hk => have := calls_subject hk; simp [Obsv.sel, Sel.fits, Sel.add]; omega
  | forwardingGone hk => have := calls_subject hk; simp [Obsv.sel, Sel.fits, Sel.add]; omega
  | connectable hk => have := calls_subject hk; simp [Obsv.sel, Sel.fits]; omega
  | refCount hk => have := calls_connectable hk; simp [Obsv.sel, Sel.fits, Sel.add]; omega
  | defer _ ih => exact ih
  | fwd _ ih => exact ih
  | blocking _ ih => exact fits_add ih
  | «finally» _ ih => exact fits_add ih
  | debounce _ ih => exact fits_add ih
  | _ => simp [Obsv.sel, Sel.fits, Sel.add]

/-- C54: therefore subscribing never fails with `more_disposables_than_expected`: with the capacity of the
pipeline, handing over the disposables one after the other never throws (container model of C52). -/
theorem C54_never_throws (o : Obsv) (n : Nat) (ds : List Nat) (hs : o.sel = .fixed n)
    (h : Calls o ds.length) :
    ∃ s outs, Container.runS n {} (ds.map .push) = some (s, outs) ∧ Container.Out.threw ∉ outs := by
  have hk : ds.length ≤ n := by have := C54_capacity o _ h; rw [hs] at this; exact this
  have hfit : ∀ (ds : List Nat) (l : List Nat), l.length + ds.length ≤ n →
      Container.Fits n l (ds.map .push) := by
    intro ds
    induction ds with
    | nil => intro l _; trivial
    | cons d ds ih =>
      intro l hl
      simp at hl
      exact ⟨by simp [Container.stepD]; omega, ih (l ++ [d]) (by simp; omega)⟩
  obtain ⟨s, h1⟩ := Container.C52_static_like_dynamic n (ds.map .push) (hfit ds [] (by simpa using hk))
  refine ⟨s, _, h1, ?_⟩
  have : ∀ (ds l : List Nat), Container.Out.threw ∉ (Container.runD l (ds.map .push)).2 := by
    intro ds
    induction ds with
    | nil => intro l; simp [Container.runD]
    | cons d ds ih => intro l; simp [Container.runD, Container.stepD, ih]
  exact this ds []

/-! The container of `timeout`'s own state has the capacity of its source (timeout.hpp 125, 71-74; dynamic for
`fixed 0`, disposable_strategy.hpp 65) and receives exactly what the source hands out, so `C54_capacity` of the
source covers it too. -/

example : Calls (.fwd .map (.finally (.debounce (.fwd .filter .subject)))) 3 :=
  .fwd (.finally (.debounce (.fwd .subject)))
example : (Obsv.fwd .map (.finally (.debounce (.fwd .filter .subject)))).sel = .fixed 3 := rfl

end Rpp.Capacity
