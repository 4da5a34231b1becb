# Design

Formal model (Lean 4, core library; no Mathlib module is needed at the moment) of ReactivePlusPlus (`/repo/src/rpp/rpp` and `/repo/src/extensions`),
read as text; nothing from /repo is compiled or executed.  `properties.jsonl` states the properties in English,
`MANIFEST.json` maps each to its theorems, `seeded/LOG.jsonl` records the wrong programs the theorems were tried against.

## How the model is built

* Single-threaded code is a function (`Obs`, `OpStrategy`, list-of-calls semantics).  Concurrent code is a deterministic
  `step : State → Label → State`; a label says which thread moves, or what the environment does.  `exec` folds `step` over an
  arbitrary list of labels, and the theorems quantify over all such lists: every interleaving, every number of threads,
  every clock behaviour.  One step is one critical section or one atomic operation, unless the definition says otherwise.
* What users observe is a log of events; a property is stated about logs, with a small specification (list functions)
  next to it that does not use the model's helpers.
* Undefined behaviour is a distinct outcome (a flag or an event), never silently totalised.
* Where the code does not have a property, a theorem `…_refutes` proves the negation with a concrete execution, and
  `…_partial` theorems prove what is left under hypotheses naming the missing case.  See "Disagreements".
* Each theorem has `example`s beside it showing that its hypotheses are met by a non-trivial execution.

## Trusted base

* Lean 4.33.0 kernel.  Axioms: at most `propext`, `Classical.choice`, `Quot.sound` per theorem; `Verif/Audit.lean` prints them
  for every theorem of the manifest.  No project axioms, no `sorry`, no `native_decide`/`bv_decide`.
* The transcription of C++ into the model.  Each definition cites the file and lines it models and its simplifications.
* Concurrency is modelled as sequentially consistent interleaving of atomic steps (the code uses `seq_cst` or mutexes for
  what the model treats as atomic).  Data races on plain memory are outside the model, unless a definition says so.
* Mutexes and condition variables behave as in the C++ standard.  Allocation never fails.
* Object lifetime (shared_ptr/weak_ptr) is modelled only where a property depends on it.
* A user callback that throws from on_error/on_completed terminates the process (noexcept): modelled for chains of operators in `Verif/Core/Mortal.lean` (C114), outside the other models.

## Not modelled

C++ template machinery (concepts, type deduction, value category), memory layout, `variant_observable`
(pure forwarding; `dynamic_observer` and `dynamic_observable` are C118), Qt's, gRPC's and asio's own code (environment), `mock_observer`,
`utils/{tuple,function_traits,constraints}` (compile-time), real time (clocks are arbitrary monotone inputs).

## Properties

M1 `Core`, M2 `Window`, M3 `Combine`, M4 `Resub`, M5 `Time`, M6 `Subject`, M7 `Disposable`, M8 `Scheduler`, M9 `Source`, M10 `Ext`.

| property | where | what is modelled and how it is proved |
|---|---|---|
| C01, C02, C03 | Core/Model, UserProofs, Props | `observer_impl` (observer.hpp 27-149) with `lambda_observer` and the disposable strategies as a machine over next/error/completed/set_upstream/dispose; callbacks are an arbitrary function of the history (may throw, dispose). Induction over the calls; grammar is a separate predicate on logs. C03 up to container overflow. |
| C04 | Core/Lawful, Props | heterogeneous operator pipelines, induction on length; key lemma: each of the 19 operators preserves "lawful observer". |
| C05 | Core/Reentry | call trees with re-entrant callbacks; refuted for terminal callbacks, proved otherwise. |
| C06-C18, C21, C22 | Core/Model, Spec, OpProofs, Props | one strategy per operator, one list-level specification per operator; equality for all inputs and all lawful downstreams. C13 index arithmetic modulo 2^64. C22 values carry clock readings. |
| C19, C20, C71 | Window/Hub*, Window*, GroupBy* | the operator's notification is a program run instruction by instruction; subscriptions, disposals, departures interleaved anywhere; subjects and refcount. Specs: chunking, filtering by key, ownership. |
| C41 | Window/Toggle* | source, openings and every closing on their own threads, mutex, callbacks as intervals; windows' logs against "open at that moment". |
| C23-C26, C35 | Combine/Hub*, Operators, OperatorProofs, Props | one lock-level interleaving machine ("hub") instantiated by each operator; order of lock acquisition is the history, specs are list functions of it; losslessness, completion, errors, serialization. |
| C27 | Combine/Switch*; Combine/SwitchFine*: the references, the count and the flags of the shared state, atomic operation by atomic operation | switching of inner sources on the hub; `…_atomic`: an invariant of the references and the count while the observer has not ended, kept by every step. |
| C28, C29 | Combine/Concat* | compare-exchange stage machine of concat.hpp, all interleavings. |
| C69 | Combine/Reentry* | one thread, call stack, mutexes held per frame, arbitrary re-entrant user code. |
| C30-C34 | Resub/* | one machine for repeat/retry/concat/on_error_resume_next/retry_when: `is_inside_drain` hand-off at the granularity of atomics; policies per operator; counters modulo 2^64. |
| C36, C37 | Time/Delay*, ObserveOnProps | queue, `is_active`, mutex, worker tasks; arbitrary clock and scheduler. |
| C38 | Time/Debounce* | shared value/deadline, timer task, observer mutex. |
| C39, C40 | Time/Timeout* | deadline, timer, mutex, hand-over to the fallback. |
| C42-C44 | Subject/Model, Proofs, Props | subject_state with strategies, single-threaded histories, arbitrary observers. |
| C45-C47 | Subject/Concurrent*, SerializedProofs | interleavings of emission, subscription, disposal; snapshot over a deque with iterator invalidation. |
| C48 | Subject/RefCount* | publish + ref_count + connect, all interleavings. |
| C49, C50, C53 | Disposable/Base, Composite* | N threads over the atomic state of composite_disposable, re-entrant children. |
| C51 | Disposable/Refcount* | reference counter, add_ref/release interleavings. |
| C52, C54 | Disposable/Container, Capacity | static containers on raw slots; capacity calculus of `updated_disposable_strategy`. |
| C55 | Scheduler/Queue | schedulables_queue refines a stable priority queue. |
| C56, C57, C64, C65 | Scheduler/CurrentThread* | trampoline with explicit stack; arbitrary task bodies. |
| C58, C64, C65 | Scheduler/Immediate | loop with sleeping. |
| C59, C64, C65 | Scheduler/TestScheduler | manual clock, nested advances. |
| C60, C64, C65 | Scheduler/RunLoop | dispatching threads, condition variable. |
| C61-C65 | Scheduler/NewThread* | worker thread loop, wait_for, fresh-data flag; thread_pool indexing. |
| C66 | Source/From* | both loops of from.hpp over any lawful observer, disposal anywhere. |
| C67 | Source/Interval* | values over any observer; times on every scheduler model. |
| C68 | Source/Blocking* | mutex, condition variable, spurious wake-ups; safety for all schedules, liveness for fair ones. |
| C70 | Source/RoundRobin | merge_with over from_iterable on the current_thread model; simulation by a FIFO of remaining lists. |
| C72 | Core/Algebra | observational equality of pipelines over the Core model; laws by list induction, congruence in any context. |
| C73-C76 | Ext/Grpc, GrpcSpec, GrpcProofs, GrpcProps | writer queue, reader and the six reactors as one machine; gRPC is the environment (assumptions listed in Ext/Grpc). Logs against gRPC's rules and the observable contract. |
| C77 | `Ext/Strand`, spec `Ext/StrandSpec` (one worker; timers, strand queue, thread-local queue, guard) | bracketing invariant over all label lists |
| C78 | same, `Ext/StrandLive` | bookkeeping invariant (one outstanding request per function); liveness by following a request from queue to timer to strand under fairness |
| C79 | same | refinement: served is a prefix of posted; negation for equal timers by a concrete execution |
| C80 | same | counting invariant for tasks of current_thread; negation for direct ones |
| C81 | same | invariant on each rescheduling in the log; negation for delay_from_this_timepoint of direct tasks |
| C82 | same (`link` models `m_next`) | reachability (`Held`) by invariant; negation by a concrete execution |
| C83-C85 | `Ext/Qt` (model and log specification), `Ext/QtProofs`, `Ext/QtProps` | bookkeeping invariant (one outstanding request per function), bracketing invariant, invariant on each rescheduling; negations by concrete executions |
| C86, C87 | `Subject/Connect`, `ConnectProofs`, `ConnectProps` | calls of connect as small machines, arbitrary source; log invariant (`Ok` of each event w.r.t. what precedes it); leak by induction on the number of rounds |
| C88 | `Disposable/Owner.lean`: wrappers (empty, strong, weak), composites as lists of wrappers, pending dispose calls, destruction when no strong reference is left | invariant over any history; reachability by strong references is an inductive predicate, the release by induction on a rank of the reference graph; `C88_cycle_refutes` for cycles |
| C89 | `Source/SubscribeOn.lean`: a subscription's way through a chain of lifts and `subscribe_on`s, tasks of arbitrary schedulers, moved-from observers | invariant per subscription over all label lists, log against `workers`, `hops`, `Checked` |
| C90 | `Disposable/Graph.lean`: the heap as shared_ptr fields and container entries (strong or weak), one function per operator, subject and source saying which references it makes | rank function kept by every safe operation, release = reachability, rings iff an unsafe operation |
| C91 | the same heap, over strong and weak container entries | invariant: each observer has key containers covering those of everything above it, over objects it holds itself; simulation with the heap in which nothing is dropped; invariant: an observer holds the containers it puts disposables into (C91_kept) |
| C92 | Resub/Stack.lean (one operator's call stack: user code, drain loops, try blocks, noexcept scopes) | invariant: what lies beneath each piece of user code (`Good`); `AllReach`, `Lives`; refuted for the concat operator |
| C93 | Resub/Stack.lean | exact shapes of the stack per operator (Resub/StackFlat.lean); attempts counted by an invariant on top of them (Resub/StackCount.lean) |
| C94 | `Core/Cross.lean` | the emitting thread as in `Core/Model.lean`, but every access to the shared state lets other threads make the steps a schedule gives them; simulation against the undisturbed pipeline, invariants over the log kept by every operator |
| C95 | `Combine/Locks.lean` | threads with call stacks run the functions of operators, subjects, timed operators and queues as lists of lock, unlock and call (those of C69 and the terminal, subscribing, disposing and scheduling ones); every call's target is given by an arbitrary network. Invariant: each function locks its mutexes in ascending order, a subject's and a queue's list mutex is a leaf, records holding a mutex are on strictly lower levels than those above them. A waiting thread's mutex is then below the one its holder waits for, and levels are bounded by the finite number of threads. take_until below a subject or scheduler: refuted by two executions |
| C96 | `Combine/Serial.lean` | the networks and threads of C95; rules by which an observer is called by one thread at a time (one thread calls it, one operator always holding the same mutex, one operator or subscriber itself called by one thread at a time). Invariants: a mutex noted as held in a record is owned by that record's thread and by no other record; each record was called by the one below it, with the mutexes its function promises held. Induction over the rules |
| C97 | Combine/Flag, FlagProps | The choice of the flag's type along the chain, and the calls of the chain as a network of C95/C96 (one object per observer, is_disposed included). The nearest operator that does not pass calls on decides: with a mutex, or a lone source, the subscriber's observer is serial (C96); under a shared source the flag is atomic, by induction over the chain; behind delay/observe_on it need not be: witness |
| C98 | Core/Moved, Combine/ZipMoved | variables hold a value or a husk; simulation of the strategies without moves, up to the first terminal call; zip: simulation of the hub for selectors that do not throw, counterexample for one that does |
| C99 | Core/Share* | N threads over nested observers (guards) shared between subscriptions, re-entrant calls, exceptions; invariant over all frames; refuted in part |
| C100 | Time/Stages*.lean: chains of Core pipelines cut by delay/observe_on machines, arbitrary schedules | refinement to the uncut pipeline: invariant linking what a piece was given to what its cut delivered, prefix monotonicity of pipelines, termination measure for the workers |
| C101 | Core/Storage*.lean: number of values in the members of the strategies of C04, of zip's queues (C24) and of replay_subject (C44) | invariant of every observer of the pipeline; exact counts for take_last, buffer, distinct; zip from the invariant of C24, and a family of runs without bound |
| C102 | Net/*.lean: trees of the machines of Combine and Time/Delay and the pipelines of Core, `flat_map` whose inner expressions are made while it runs, and observables one after the other (`concat`, `repeat`, `retry`, `on_error_resume_next` behind observables that are silent after an error, see disagreement 52); arbitrary schedules | each machine proved against a specification of its operator (`Join.Makes`, and `Join.MakesAll` at rest) from C23-C26, C35, C36; invariant of the tree: every operator has got a beginning of what its operand told; induction over the tree; liveness (`C102_can_rest`, `C102_finish`): a measure of the steps left in each operator's calls, then of the notifications on their way |
| C103 | Net/Flat.lean, Net/Tree.lean (`Net.flat`), Net/FlatSync.lean | invariant: the hub's sources are the inner observables in the order of the outer values, each has told a beginning of its sequence; from C23 for the interleaving; on one thread: symbolic execution of a whole call, induction over the inner and the outer sequence, laws of `flatten` |
| C104 | Net/Follow.lean, Net/Tree.lean (`Net.follow`), Net/FollowProps.lean | invariant: the observables before the present one have ended, with ends that lead on; what was told is their values and what the present one has notified; those not yet subscribed to are untouched; at rest equal to `concatSpec` / `retrySpec`; induction over the tree as part of C102 |
| C105 | Ext/Signal.lean: objects, signals and the two connections made by from_signal, on top of the subject model | projection of a history to the operations of one subject, then C42 |
| C106 | Core/Feed* | callbacks of the 19 single-source operators as programs suspended at each call on the observer below, call stack, arbitrary re-entrant feeding; invariant relating what was delivered and what suspended calls still owe to the sequential specification; refuted for five operators |
| C107 | Subject/Concurrent, AgreeProofs, AgreeProps | on the concurrent subject model: invariant that nobody else has delivered since the first callback of the call that holds the mutex; the order of first callbacks is a common supersequence; refutations for nested emission, replay and behavior |
| C108 | Window/FeedBack, FeedBackProofs, FeedBackProps | on_next of group_by and window as a machine with a stack of running callbacks, any nesting of feeds and returns; invariant relating map, stack and log; refutations by evaluation |
| C109 | LetGo/Model, Proofs, Props: the observers of on_error_resume_next and retry_when (no flag after an error) below an arbitrary pipeline of Core, and below merge; every call of source and replacements a label | a chain of observers is a transducer of calls even if the last one is not deaf after an error (`pipe_run`); a pipeline that fails only when its source ends makes one error call, the last one (`pipe_late`), by classes of operators; refutations by evaluation; retry_when: attempts share the observer below, by an invariant an attempt that has failed makes no further call, and the subscriber's state is that after the attempts' calls one after the other (`C109_when_partial`, `C109_when_asked_partial`, LetGo/WhenProofs, WhenProps) |
| C110 | Scheduler/RunLoopWake, RunLoopWakeProps: any number of schedule, dispatch and dispatch_if_ready calls, the mutex, the condition variable with notify_one, spurious wake-ups | invariant by induction over all step sequences: tasks in the queue ≤ notifications still to come + awake dispatches, while somebody sleeps; the claim that dispatch sleeps until a task is due is refuted (busy loop) |
| C111 | Scheduler/NewThreadEnds (machine of C61) | induction over the queue: a deserted thread that gets to go on drops all and ends; the claim that it does not sleep is refuted; the sleep ends at the time of a waiting task (invariant `dl` of C61) |
| C112 | Subject/RefCounts, RefCountsProps: the connection of a connectable observable, the counts of any number of ref_count()s, connect() by hand; calls are single steps | invariant by induction over all step sequences linking the log with the connection and the counts; a second invariant for one ref_count() alone; concrete runs for the refutations, and for all later subscribers (`C112_stuck`) |
| C113 | `Verif/Source/BlockingNested.lean`, `BlockingNestedProps.lean` | One thread: call stack of running tasks, subscriptions under way, `drain_queue` and waits; the queue of `current_thread`. Invariants by induction over the steps: the queue has one owner, everything subscribed to is ended, queued or running; `C113_exact`: hangs iff a waiting `subscribe` is made while the queue is owned. Violated by nested uses (disagreement 56). |
| C114 | `Verif/Core/Mortal.lean`, `MortalProps.lean` | Observers whose calls may end the process (`noexcept`), for every chain of the core operators and of `tap`s with three throwing functions; simulation (`Twin`) with the core model by induction over the chain; `C114_exact`. Violated by throwing error and completion handlers, the default `on_error` among them (disagreement 57). |
| C115 | Subject/Share*.lean | the connectable observable around the subject of C42-C44: invariant (references = listeners, connection = references not empty, subject = run of the history in the log); what a subscriber gets then follows from C42-C44; a lone subscriber by simulation of its observer |
| C116 | Scheduler/PoolRace*.lean | machine whose steps are the read and the write of `m_index` by any thread; invariant for calls that do not overlap; two families of interleavings that refute round-robin |
| C117 | Scheduler/PoolWait*.lean | machine of threads with queues whose tasks start and wait for tasks; the waits go up in an order (level, age of the thread), so some thread can always go on; what is left decreases with each step; a hang is a circle of waits (pigeonhole), and a circle stays; for the refutation an invariant of the one task that hangs |
| C118 | Core/Erase*.lean | the erased observer is equal to the observer as a structure of functions (lawfulness, C04); chains with `as_dynamic` anywhere by induction, with the check of `observable::subscribe` |
| C119 | Source/Endless*.lean | both implementations over containers as functions of the index, with the list of elements read; whether the source finds its observer disposed is computed from the specification of the chain (induction over the calls); then induction over the values passed on |
| C120 | Resub/Sync*.lean | both loops step by step on one thread with `is_inside_drain`, over any chain of the core development; lemmas for one round (goes on, passes on the end, enough, runs out), then induction over the rounds |
| C121 | Combine/SyncFlat*.lean | the outer loop and the three operators' `on_next` / `on_completed` step by step on one thread, over any chain of the core development; lemmas for one inner observable, then induction over them |
| C122 | Combine/SyncPair*.lean | both loops and the three operators' `on_next` / `on_completed` step by step on one thread, over any chain of the core development; the cells after any number of values are computed outright, by induction over the values |
| C123 | Time/Caller*.lean | the thread step by step through the source's loop, the operators' `on_next`, the scheduler's loop and the operators' tasks, with the mutexes and any clock, over any chain of the core development; one emission at a time, then induction over the source |
| C124 | Resub/SyncHandle*.lean | the thread step by step through `drain`, the source's loop, the operator's `on_error` and the notifier's first notification, over any chain of the core development; induction over the attempts, and over the values within one |
| C125 | Combine/SyncUntil*.lean | the thread step by step through the trigger's loop and then the main one's, over any chain of the core development; induction over the main values |
| C126 | Combine/Turns*.lean | the order in which the runs of the two sources arrive is C70's, with the runs instead of the values; the operators' `on_next` and `on_completed` of C122 and C125 folded over it, over any chain of the core development; induction over the rounds with the latest values from before |
| C127 | Combine/TurnsEndless*.lean, TurnsThrow*.lean | the queue of two tasks which go to the end after each value and are dropped once the observer is disposed, `on_next` of C122, over any chain of the core development; induction over the turns, a turn being even or odd |
| C128 | Combine/MergeEndless*.lean | the queue of the sources' tasks, each of which goes to the end after a value and is dropped once the observer is disposed, over any chain of the core development; induction over the turns: the queue is a rotation, the index of a source the number of turns it had |
| C129 | Combine/MergeMixed*.lean | as C128, with containers that may end and merge's counter of completions; induction over the sources of a round with those already served behind them in the queue, then over the rounds |
| C130 | Combine/FlatEndless*.lean | the queue with the outer source's task and one for each inner source subscribed to so far, over any chain of the core development; induction over the inner sources of a round with those already served behind the outer task, then over the rounds |

## Disagreements: properties the code does not have

Each line is a theorem with a concrete execution.  Lines refer to /repo/src/rpp/rpp.

1. `C03_overflow_refutes`: observer.hpp 57-65, set_upstream on a full fixed-capacity container throws and the disposable is lost.
2. `C05_reentrant_terminal_refutes`: observer.hpp 120-144 runs the terminal callback before marking the observer disposed, so a re-entrant emission from it gets through.
3. `C13_element_at_max_refutes`: element_at(SIZE_MAX) wraps.
4. `C28_race_refutes`, `C29_refutes`, `C29_completes_refutes`: operators/concat.hpp, between "queue is empty" and resetting the stage an inner observable is queued: lost or out of order.
5. `C37_overlap_refutes`, `C37_precedes_refutes`: observe_on delivers on_error on the source's thread while the worker's on_next runs.
6. `C38_race_refutes`: debounce.hpp, the timer has taken the value but on_completed locks the observer first: the value is lost.
7. `C40_refutes`: timeout.hpp 82-87 does not re-check under the lock: a value reaches the moved-from observer after the switch.
8. `C41_race_refutes`, `C41_late_value_refutes`, `C41_lost_value_refutes`, `C41_erase_refutes`: window_toggle.hpp 99-104 completes the window outside the mutex; a closing firing again from the completion callback erases an iterator twice.
9. `C45_gap_refutes`, `C45_behavior_gap_refutes`, `C45_twice_refutes`: behavior/replay subjects store the value and take the observers in separate critical sections.
10. `C46_late_refutes`, `C46_replay_refutes`: what a late subscriber is told is delivered without the serialized mutex.
11. `C47_iterators_refutes`: subject_state.hpp 112-131 iterates over a deque that a subscriber may extend: iterator invalidation.
12. `C48_race_refutes`: ref_count, subscriber between the last release and the following dispose is never connected.
13. `C53_clear_reentry_refutes`: composite_disposable.hpp 131-144, clear() holds the Edit state while disposing children: a child touching the composite spins for ever.
14. `C57_refutes`, `C57_burst_refutes`, `C67_current_thread_refutes`: current_thread.hpp 115-138, a lone task repeating with delay_from_this_timepoint keeps its first time point: repetitions come in a burst.
15. `C61_refutes`, `C61_late_refutes`: new_thread.hpp 90, wait_for keeps the old deadline when an earlier task arrives.
16. `C63_starved_refutes`, `C63_refutes`, `C63_from_this_refutes`: new_thread, self-rescheduling task starves queued ones.
17. `C64_current_thread_refutes`: drain_queue tests is_disposed before sleeping only.
18. `C69_operators_refutes`, `C69_refutes`: non-recursive mutexes are held during callbacks (merge, zip, combine_latest, with_latest_from, take_until, switch_on_next, concat, timeout, window_toggle, serialized subjects): a callback emitting into its own source deadlocks.
19. `C73_error_refutes`: rppgrpc base.hpp 51-63, on_error with messages still queued ends the call with OK instead of INTERNAL.
20. `C74_contract_refutes`: rppgrpc server_reactor.hpp 93-100, OnCancel's on_error overlaps a running on_next (the subject is not serialized).
21. `C75_bidi_refutes`, `C75_write_refutes`: rppgrpc server_reactor.hpp, Finish is called by OnCancel and again when the last write succeeds or fails.
22. `C76_refutes`: rppgrpc client_reactor.hpp 89-94 and base.hpp 46-49, an emission in progress at OnDone uses the deleted reactor.
23. `C77_refutes`: rppasio strand.hpp 83, a task of the strand whose thread called `io_context::run()` from inside a `current_thread` task leaves what it schedules on `current_thread` to that outer loop, outside the strand.
24. `C79_refutes`: strand.hpp 114-134, tasks taken over from `current_thread` get a timer each; equal time points may be served in any order.
25. `C80_refutes`: strand.hpp 55 and 72, exceptions of tasks scheduled directly escape `io_context::run()` instead of reaching `on_error`.
26. `C81_refutes`: strand.hpp 56 and 73, `delay_from_this_timepoint` is counted from the end of the run; periodic tasks drift.
27. `C82_refutes`: strand.hpp 118-133 with queue.hpp 239-242, a repeating task keeps the finished tasks that were queued behind it (`m_next` is not reset).
28. `C83_refutes`: rppqt main_thread.hpp 47, delays are truncated to whole milliseconds: a function may run up to 1 ms early.
29. `C84_refutes`: main_thread.hpp 63-69, `delay_from_this_timepoint` is counted from the actual start of the run; a late periodic function stays late.
30. `C85_refutes`: main_thread.hpp 47-75, exceptions of scheduled functions leave the callback into Qt's event loop instead of reaching `on_error`.
31. `C86_overlap_refutes`: connectable_observable.hpp 100-115, a connection disposed during an emission and a new one: two sources call the subject, which is not serialized, at once.
32. `C87_refutes`: publish_subject.hpp 30, the subject keeps the disposables of every source it was ever connected to until it ends: reconnecting (by hand or with ref_count) grows without bound.
33. `C88_cycle_refutes`: composite_disposable.hpp 65-96 refuses only to add a composite to itself; two composites added to each other by strong wrappers are never disposed once their users drop them.
34. `C89_lost_refutes`: subscribe_on.hpp 31 moves the observer out of the task before the source is subscribed; if that throws (create, defer) and an operator lifted in between, the scheduler reports to the moved-from observer: the subscriber is never told.
35. `C90_kept_refutes`: retry.hpp, retry_when.hpp and concat.hpp (`repeat`) keep a copy of the observable in the state their observer owns; if that observable owns the subject the observer is subscribed to (`subject.get_observable() | retry()`, `group_by(..) | flat_map(group | retry())`), subject, observer and state own each other and are never freed unless the subject ends or the subscription is disposed. A disposable that captures its observer is a ring too; `local_disposable_strategy::dispose` (disposable_strategy.hpp 70-94) does not drop its container, so that one outlives even disposal.
36. `C92_concat_refutes`: concat.hpp (the operator) subscribes a queued observable from `drain`, which runs inside the previous inner observer's noexcept `on_completed` and has no try block; if that `subscribe` throws (a `create` function, a `defer` factory), std::terminate is called. sources/concat.hpp, retry.hpp and retry_when.hpp have the try block.
37. `C94_refutes`: `observer_impl::on_next` (observer.hpp 84-113) checks `is_disposed()` and then runs the callback; a `dispose()` of another thread that falls in between returns before the callback begins. At most one callback does so (`C94_late_partial`), but a user who frees what the callback uses once `dispose()` has returned frees too early.
38. `C95_take_until_refutes`, `C95_worker_refutes`: `take_until_observer_strategy_base::is_disposed` (take_until.hpp 61) locks take_until's mutex. A subject calls `is_disposed` of its observers under its own mutex when one of them is disposed of (subject_state.hpp 54-64, 159-173), and a worker's thread does so for the first schedulable under the mutex of its queue (new_thread.hpp 80-90, delay.hpp 63). So `subject | take_until(subject | filter(f))` hangs in a single thread as soon as `f` lets a value pass (completing under take_until's mutex disposes one registration, and the subject asks the other), and `a | delay(d, pool) | take_until(b) | delay(d, pool)` with a pool of one thread may hang when `b` emits while the pool's thread looks at its queue. All other operators answer `is_disposed` without locking.
39. `C97_refutes`: delay.hpp 76-79 and 174: delay and observe_on forward `is_disposed` to the subscriber's observer from the source's thread and keep the disposable strategy of the source. After `from`, `just` or `interval` that is a plain `bool`, read by the source's thread while the worker's terminal notification sets it: a data race, for example `from(1, 2) | observe_on(new_thread) | take(1)`.
40. zip moves the front values into the selector's parameters and pops them only after the selector and the observer have returned (zip.hpp 62-66). If the selector throws, the queues keep moved-from fronts; the mutex is released by unwinding before `on_error` takes it again (observer.hpp 93-96), so that a notification of another source in between calls the selector with the moved-from values and passes the result on (`C98_zip_refutes`).
41. `subscribe(d, observer)` (observable.hpp 110-115) looks only whether `d` is disposed, not whether the given observer is: the source of a subscription with an observer that has ended (a `dynamic_observer` used before) is subscribed all the same. `| subscribe(d, observer)` (operators/subscribe.hpp) wraps first and asks both (C99_refused_refutes).
42. If `on_next` of an observer given to `subscribe(d, observer)` throws, the inner observer catches, calls `on_error` and disposes of its own strategy; the outer one, which has `d`, is not told. `d` stays undisposed although the subscription has ended, and what was added to it stays (C99_disposed_refutes).
43. zip completes only when every source has completed (combining_strategy.hpp 36-40, 68-73), even if a completed source has no queued value and nothing can be emitted any more. Until then it stays subscribed to the others and stores all their values: with an endless other source the memory grows without bound (`C101_waste_refutes`).
44. `C106_first_refutes`, `C106_element_at_refutes`: first.hpp 27-32, element_at.hpp 31-44 pass the value on before completing; a value fed by the subscriber's callback is delivered as a second one.
45. `C106_throttle_refutes`: throttle.hpp 37-41 stores the time of the emission after passing the value on; values fed by the callback are not throttled.
46. `C106_buffer_refutes`, `C106_buffer_moved_refutes`: buffer.hpp 39-50 hands out its bucket and clears it only afterwards; values fed by the callback are lost and the bucket size doubles for good, or (bucket moved out) come as buckets of one.
47. `C106_take_end_refutes`, `C106_ended_twice_refutes`: take completes only after its last value's callback returned (an error sent by the callback replaces the completion); an operator that ended but whose completion is still on its way to the subscriber ends again, and `last`, `reduce`, `take_last` behind it emit twice.
48. `C107_nested_refutes`: an observer of a publish subject that emits from its callback makes the others hear the inner value first (the order differs between observers).
49. `C107_replay_refutes`, `C107_behavior_refutes`: serialized replay and behavior subjects store a value before they take the serialized mutex, so a new observer is told another order than the old ones, and a behavior subject can keep a value that is not the one its observers were told last.
50. `C108_announced_twice_refutes`, `C108_never_ends_refutes`: group_by enters a group into its map only after announcing it; a value of the same key fed by the announcement's callback announces the key a second time and the first group is lost; a source that ends meanwhile leaves the group without end.
51. `C108_window_announced_refutes`, `C108_window_announced_ub_refutes`, `C108_window_last_refutes`, `C108_window_end_refutes`, `C108_window_finish_refutes`: window fed from the announcement, the last value or the end of a window loses windows, overfills them, or dereferences an empty std::optional; a source that ends during an announcement loses the value the window was opened for.
52. `C109_throw_refutes`, `C109_twice_refutes`, `C109_merge_refutes`, `C109_when_refutes`, `C109_when_now_refutes`: on_error_resume_next.hpp 49-91 and retry_when.hpp 88-126 neither remember that the source has failed nor dispose of it (retry.hpp 77 and sources/concat.hpp 78 do); a chain that fails while its source goes on (`map` with a throwing function, `take | … | first`, `merge_with`) is still heard, beside the replacement, can complete the subscription, and can make the selector be called again; `retry_when` does not retry then.
53. `C110_sleeps_refutes`: run_loop.hpp 69: the predicate of `wait_for` contains `!m_queue.is_empty()`, which holds whenever it is evaluated, so `dispatch()` never sleeps until the first task is due but loops over the queue, taking and releasing the mutex (`C110_spins`). The results are right, the thread is busy.
54. `C111_awake_refutes`, `C111_sleeps_refutes`: new_thread.hpp 90: disposing of a handler does not notify the worker's thread, and line 46 is run when the worker is dropped, which for interval and timer is before the subscription is disposed of. So `interval(1h, new_thread)` keeps its thread, its task and the subscriber for up to an hour after the subscription was disposed of.
55. `C112_two_refutes`, `C112_hand_refutes`: connectable_observable.hpp 24-61 and 100-115: each `ref_count()` has a count of its own, and `connect` does nothing if there is a connection already. `auto a = c.ref_count(), b = c.ref_count()`: when the last subscriber of `a`, which made the connection, leaves, the source is unsubscribed although somebody listens through `b`, and later subscribers of `b` do not connect it again until all have left (`C112_stuck`).
56. **as_blocking on a thread that owns the queue of `current_thread` never returns** (C113, observables/blocking_observable.hpp 64-73 with schedulers/current_thread.hpp 148-167). `just(1) | subscribe([](int){ just(2) | as_blocking() | subscribe(…); })` hangs: the inner source is put into the queue of the thread, and the thread waits for it. The same happens for `just(1) | as_blocking() | merge_with(just(2))`, because `merge_with` takes the queue while it subscribes, and for every `as_blocking` on a `current_thread` source inside a task of `new_thread`, whose thread owns a queue all its life (new_thread.hpp 67). Nothing in the documentation of `as_blocking` warns of it. `C113_callback_refutes`, `C113_inner_refutes`, `C113_new_thread_refutes`.
57. **Throwing handlers of errors and completions end the process** (C114, observers/observer.hpp 120-144, tap.hpp 41-51, observers/fwd.hpp 125). `on_error` and `on_completed` of every observer are `noexcept` and call the user's functions without a `try`. An exception from the second or third function of `tap` is `std::terminate`, although the subscriber downstream has an `on_error` that could be told (as it is when the first function throws); and the default `on_error` of a subscriber rethrows inside a `noexcept` function, so that an error nobody handles ends the process and cannot be caught around `subscribe`. `C114_tap_refutes`, `C114_default`.
58. C116: `thread_pool::state::get` increments a plain `size_t` without synchronisation (thread_pool.hpp 83), although `create_worker() const` may be called from any thread, and all users of `computational` share one pool. Overlapping calls are a data race; even if each access is atomic, all of them may get the same thread (`C116_same_refutes`) and an interrupted call sets the counter back (`C116_back_refutes`).
59. C117: `as_blocking` in a task of a `thread_pool` (or of `computational`) waits for a source that `subscribe_on` may queue on the very thread that waits. With round-robin this is certain: on a pool of `n` threads used by nobody else, the `n`-th such wait of a task never ends (`C117_wait_refutes`). Nothing detects it.
60. C119: `from_iterable` on the immediate scheduler reads one element more than the subscriber wants, as the range-for dereferences the iterator before the body looks at `is_disposed()`: `from_iterable(lines_of_a_socket, immediate) | take(1)` returns only when the second line has come. On any other scheduler it does not (`C119_one_more_refutes`, `C119_scheduled`).
61. C123: `debounce` calls `schedule` while it holds `m_mutex` (debounce.hpp 50, 56), and its task locks that mutex (88). On a scheduler that runs the task inside `schedule`, that is `immediate`, and `current_thread` on a thread without a queue (e.g. `subject.get_observable() | debounce(d, current_thread{})` and then `subject.get_observer().on_next(1)`), the first value hangs the thread for ever (`C123_debounce_refutes`).
62. C123: `timeout` schedules its timer before it subscribes to the source (timeout.hpp 135). On `immediate` that sleeps for the whole period and then switches to the fallback, so no source is ever fast enough (`C123_timeout_refutes`).

Further observations without a property of their own: a window that completed cannot be subscribed any more (C19_late); group_by
drops values with a new key once the main observer left (C20_group_gets_alone); take(0) completes only with the first value
or the source; switch_on_next can pass a stale value of the old inner source (C27_unserialized_stale); thread_pool's
`m_index++` is not atomic; timeout measures the gap from the end of the last callback.
