{
 "C01": {
  "note": "Serial calls only; nested calls are C05, concurrent calls are the subject of later properties."
 },
 "C03": {
  "note": "Full statement holds unless a fixed-capacity container overflows; C03_overflow_refutes is the counterexample (observer.hpp 57-65)."
 },
 "C04": {
  "note": "All 19 single-input operators, any pipeline; element_at index below 2^64-1 and a lawful equality for distinct."
 },
 "C05": {
  "note": "False when a terminal callback re-enters (flag is set after the callback, observer.hpp 120-144); proved otherwise."
 },
 "C13": {
  "note": "False for index 2^64-1 (wraps); proved for all others."
 },
 "C21": {
  "note": "Throwing on_error/on_completed tap callbacks terminate the process and are not modelled."
 },
 "C22": {
  "note": "The clock reading of each value is part of the input."
 },
 "C49": {
  "note": "Any capacity, any number of threads, children and the dispose hook may re-enter the composite; C49_added_child_disposed is stated on calls only (dynamic container)."
 },
 "C50": {
  "note": "Both base_disposable (callback_disposable) and composite_disposable."
 },
 "C51": {
  "note": "add/remove of the underlying composite are atomic steps here (justified by C49); fewer than 2^64-1 references."
 },
 "C52": {
  "note": "The static container is modelled on raw slots; undefined behaviour is a distinct outcome and proved absent."
 },
 "C53": {
  "note": "False: clear() disposes children while holding the Edit state (composite_disposable.hpp 131-144), a child touching the composite spins forever. Proved for children that do not, and for dispose()."
 },
 "C54": {
  "note": "Selector computation and set_upstream counts per operator, all 39 operators and sources."
 },
 "C55": {
  "note": "Unbounded integer time points; operations atomic."
 },
 "C56": {
  "note": "One thread, virtual clock; any user program as a function of task number and invocation count."
 },
 "C57": {
  "note": "False: in drain_queue (current_thread.hpp 115-138) a lone repeating task keeps its first time point, so repetitions come in a burst. Proved while other tasks wait, and for a task started on an unowned queue."
 },
 "C58": {
  "note": "Nested calls on the immediate scheduler appear as part of the body (time passing, disposal)."
 },
 "C64": {
  "note": "Proved for immediate, test_scheduler, run_loop and new_thread; for current_thread false when another thread disposes during the sleep before the call (drain_queue checks before sleeping only)."
 },
 "C65": {
  "note": "All five schedulers."
 },
 "C59": {
  "note": "One thread; nested schedule/time_advance inside tasks via an explicit call stack; time moved by other test schedulers included."
 },
 "C60": {
  "note": "Any number of threads, critical sections atomic, nesting of calls over-approximated; the loop's disposal is modelled as callable at any time."
 },
 "C61": {
  "note": "False: wait_for keeps the deadline of the old top (new_thread.hpp 90), so a task scheduled later but due earlier starts at the old deadline. Proved: never early, in order, and a characterisation of the only way to be late."
 },
 "C62": {
  "note": "Serialised create_worker calls, up to 2^64 of them."
 },
 "C63": {
  "note": "False for tasks queued through current_thread on the worker thread (has_fresh_data is not set) and for delay_from_this_timepoint repetitions (old time keeps priority). Proved for the rest."
 },
 "C42": {
  "note": "Single-threaded histories of subscribe/dispose/next/error/completed/disposeSubject with arbitrary observer reactions (throwing callbacks, dispose from a callback). Re-entrant and concurrent use of the subject itself: C46, C47."
 },
 "C43": {
  "note": "Single-threaded histories, arbitrary reactions of observers."
 },
 "C44": {
  "note": "Single-threaded histories with a monotone clock (steady_clock); bound by count and by time window."
 },
 "C45": {
  "note": "False of the code: storing a value and taking the observer snapshot are two critical sections, so a subscriber can miss a value (C45_gap_refutes, C45_behavior_gap_refutes) or get it twice (C45_twice_refutes). C45_no_loss_partial: nothing is lost unless a subscription falls into that gap; C45_replay_reads, C45_behavior_reads, C45_replayed: what a subscriber is given at subscription."
 },
 "C46": {
  "note": "Emission callbacks never overlap and nothing follows a terminal (C46_no_overlap_partial, C46_nothing_after_terminal). Missing, because false: the terminal given to a late subscriber and replayed values are delivered without the serialized mutex (C46_late_refutes, C46_replay_refutes)."
 },
 "C47": {
  "note": "An emission reaches exactly the observers registered when it started, in order, up to the iterator invalidation of C47_iterators_refutes: subscribing while an emission iterates over the deque is undefined behaviour, modelled as a distinct outcome. C47_cleanup_partial: removing an observer makes a new deque, so subscriptions are harmless until the next emission."
 },
 "C48": {
  "note": "Connects exactly on the first subscriber, disconnects exactly when the last leaves, never two connections, no reconnect after the source ended, for every interleaving. Missing, because false: a subscriber that arrives between the last release and the dispose() following it gets an empty reference and is never connected (C48_race_refutes); C48_nobody_left_out_partial shows this is the only way to be left out."
 },
 "C23": {
  "note": "All interleavings of inner notifications (each source sequential), callback exceptions and disposal; the mutex, the early/late processing and the completion count are modelled."
 },
 "C24": {
  "note": "All interleavings. The k-th result is the selector of the k-th values; count equals the shortest source. Moved-from values after a throwing selector are not modelled."
 },
 "C25": {
  "note": "All interleavings, against a list specification over the order in which values were taken."
 },
 "C26": {
  "note": "All interleavings, against a list specification over the order in which values were taken."
 },
 "C35": {
  "note": "All interleavings of source and notifier, callback exceptions and disposal."
 },
 "C27": {
  "note": "Serialized notifications as the property says (Serial: no notification under way when an inner arrives). Losslessness of the current inner, completion and errors hold for every interleaving; C27_unserialized_stale shows what goes wrong otherwise. There, disposing a reference and testing the shared state is one step; the theorems ending in _atomic are about a second machine in which every access to an atomic variable is a step."
 },
 "C28": {
  "note": "For every interleaving at atomic-operation granularity: one inner at a time, output = concatenation of the subscribed inners, completion exactly after outer and subscribed inners, errors, serialization, the code's assert. Arrival order only when the outer source does not race with the thread that found the queue empty (NoRace): C28_race_refutes shows the order swapped otherwise."
 },
 "C29": {
  "note": "False of the code: C29_refutes (an inner source queued after drain saw the queue empty is never subscribed) and C29_completes_refutes (the operator then completes without it). Proved outside that race."
 },
 "C30": {
  "note": "All interleavings of the subscribing and the notifying threads; start_with(os..., o) is source::concat(os..., o). Sources obey the Rx contract; a container whose begin throws is not modelled."
 },
 "C31": {
  "note": "For every argument of size_t including the greatest (the counter wraps twice). An exception of subscribe itself is passed on without retrying, as in the code."
 },
 "C32": {
  "note": "One machine for all resubscribing operators; exact hand-off through is_inside_drain at the granularity of single atomic operations."
 },
 "C33": {
  "note": "A source that goes on emitting after its error is excluded (Rx contract): the code has no flag against it, and operators of the library do go on, see C109."
 },
 "C34": {
  "note": "A notifier that emits and then throws from its subscribe is excluded. So is an attempt that goes on emitting after its error, see C109."
 },
 "C36": {
  "note": "delay: any number of source threads and an arbitrary scheduler for the worker (early, late, never); order, at most once, terminal last, serial, lossless at quiescence, never early. The on-time theorem states delivery never happens before arrival + delay."
 },
 "C37": {
  "note": "Refuted as stated: observe_on delivers on_error from the source's thread while the worker's on_next callback may be running (C37_overlap_refutes), and values already queued are dropped (C37_precedes_refutes shows a callback after it). Partial: values in source order, nothing after the terminal callback has returned, serial and terminal-last when no error arrives during a callback, cancellation."
 },
 "C39": {
  "note": "timeout: prefix, mirror, never early for any scheduler; exact switching time under a prompt scheduler (Prompt). The gap is measured from the end of the last value's callback, as the code stamps after on_next returns. After the switch the subscriber hears the fallback and nothing else, up to its terminal event (C39_heard, C39_fallback_passed)."
 },
 "C40": {
  "note": "Refuted as stated: a value accepted before the deadline but delivered after the switch reaches the moved-from observer (C40_refutes). Partial: nothing new is accepted after the switch, at most the calls in flight, at most one, serial."
 },
 "C38": {
  "note": "debounce: order, at most once, the timer only takes the newest value after d of quiet, for any scheduler; with a prompt scheduler (tasks run when due) exactly d after arrival and never forgotten. The worker runs its tasks one at a time (assumed). Completion flushes, error drops. Refuted: a value taken by the timer but not yet delivered is lost when the completion locks the observer first (C38_race_refutes); C38_flush_partial excludes that."
 },
 "C19": {
  "note": "window as a program of instructions with arbitrary subscriptions and disposals in between; source serial. The reads of the observer list during a notification are a snapshot (its real representation: C47). An observer who joins a window after its last value is told nothing at all, since the window only lives in the operator (C19_late)."
 },
 "C71": {
  "note": "The reference counter is modelled as the set of holders (its own correctness: C51)."
 },
 "C20": {
  "note": "Single source thread; subscriptions, disposals of observers and of the main observer are interleaved between any two steps. Comparator: every strict weak order (std::map's requirement). Selectors may throw; observers' callbacks do not. If the main observer left, values with a new key are dropped (C20_group_gets_alone)."
 },
 "C41": {
  "note": "Source, openings and one closing per window run on their own threads, any interleaving; a window has at most one observer; callbacks do not throw. Each call under the mutex reaches exactly the open windows (C41_call, C41_terminates); openings, closings, main observer, value order and at most one terminal hold in every schedule. A closing completes its window outside the mutex: its callback can overlap a value's, a value can come after the completion or be lost (C41_race_refutes, C41_late_value_refutes, C41_lost_value_refutes), and a re-fired closing erases twice (C41_erase_refutes); C41_observer_partial and C41_erase_partial exclude that."
 },
 "C66": {
  "note": "Both implementations of from.hpp as step machines over any lawful observer (operator chains included), elements that throw when read, disposal between any two steps. Scheduled version: dropping of disposed tasks by the scheduler is C64."
 },
 "C67": {
  "note": "Values over any observer and operators; size_t overflow as modulus M. Times proved on new_thread, run_loop, test scheduler, immediate. False on current_thread when the queue is already owned (C67_current_thread_refutes, consequence of C57); two partial theorems there."
 },
 "C68": {
  "note": "One waiting thread, any number of disposing threads (terminal notification or disposal), every interleaving, spurious wake-ups. Mutex and condition variable as in the standard, sequentially consistent. Liveness needs the threads to keep getting turns and finitely many spurious wake-ups. A source that neither ends nor is disposed keeps it waiting, by design."
 },
 "C70": {
  "note": "from_iterable sources over containers on current_thread, subscribed with the queue not yet owned; any number and lengths, any duration of the callbacks. Nobody disposes meanwhile and the callbacks schedule nothing themselves."
 },
 "C69": {
  "note": "Model of one thread: call stack, mutexes held by each operator body, arbitrary re-entrant user code (Combine/Reentry). Proved: no emission pattern deadlocks when what callbacks emit into needs no mutex held at a downstream call (all operators without mutex, ordinary subjects, the other sources of with_latest_from). Refuted for merge, zip, combine_latest, with_latest_from's main source, take_until, switch_on_next, concat, timeout, window_toggle and serialized subjects: the mutex is not recursive and is held during the callback. Values are not modelled, only control flow and locks."
 },
 "C72": {
  "note": "`Same p q`: no subscriber, whatever its callbacks do, sees a difference for any source. Congruence plus 24 laws; C72_map_take_zero, C72_map_skip_throwing, C72_skip_take_zero and C72_filter_take show that the side conditions are needed. Only what the subscriber is shown is compared, not when user functions are called or upstream is unsubscribed."
 },
 "C73": {
  "note": "Order, one write at a time, closing exactly once and the status after on_completed are proved for all executions; for a single emitting thread also that exactly the messages before the end are taken. The status after on_error is INTERNAL only if nothing was waiting to be written (C73_error_partial); otherwise it is OK (C73_error_refutes)."
 },
 "C74": {
  "note": "Order, completeness, one read at a time, exactly one end with the right outcome: all executions. The observable's contract holds for clients, and for servers unless OnCancel comes during on_next (C74_contract_refutes)."
 },
 "C75": {
  "note": "Proved without cancellation, or with cancellation before the user ended the stream and without failed writes; unconditionally for the reading server. Otherwise Finish is called twice (C75_bidi_refutes, C75_write_refutes)."
 },
 "C76": {
  "note": "Proved if no emission is in progress at OnDone; refuted otherwise (C76_refutes)."
 },
 "C77": {
  "note": "Proved for all executions; that what is scheduled on current_thread stays on the strand needs io_context::run() not to be called from inside a current_thread task (C77_refutes)."
 },
 "C78": {
  "note": "Safety for all executions; liveness for all fair ones (the clock goes on, asio serves timers and handlers, functions return)."
 },
 "C79": {
  "note": "Zero-delay requests: order proved. Tasks taken over from current_thread that are due at the same time can be reordered (C79_refutes)."
 },
 "C80": {
  "note": "Proved for tasks taken over from current_thread; tasks scheduled directly let the exception escape io_context::run() (C80_refutes)."
 },
 "C81": {
  "note": "Proved but for delay_from_this_timepoint of tasks scheduled directly, which drift (C81_refutes)."
 },
 "C82": {
  "note": "Proved for tasks scheduled directly; one taken over from current_thread is kept by m_next of the one before it (C82_refutes)."
 },
 "C83": {
  "note": "Proved for all executions except earliness: delays are truncated to whole milliseconds, so a run may start up to 1 ms early (C83_refutes); exact for whole milliseconds."
 },
 "C84": {
  "note": "delay_from_now and delay_to exact; delay_from_this_timepoint counts from the actual start (C84_refutes), never more than 1 ms before the right time point."
 },
 "C85": {
  "note": "Never again: proved. The exception escapes into Qt's event loop (C85_refutes)."
 },
 "C86": {
  "note": "All executions; serial emissions need that no connection is disposed while its source is emitting (C86_overlap_refutes)."
 },
 "C87": {
  "note": "Disposed: proved. Released: the subject keeps one entry per connection ever made until it ends (C87_refutes, for every number)."
 },
 "C88": {
  "note": "All histories; the release of what cannot be reached needs that no composites contain each other (C88_cycle_refutes)."
 },
 "C89": {
  "note": "All executions; exceptions are lost when there is an operator between subscribe_on and the source (C89_lost_refutes, C89_never_told)."
 },
 "C90": {
  "note": "All programs: no ring (C90_no_ring), released exactly what no handle reaches (C90_released), ring iff an unsafe operation (C90_exact), operators alone are always safe (C90_operators). Not for all uses: subject | retry kept by its own subject, group_by | flat_map(group | retry) and a disposable capturing its observer leak when dropped without being disposed (C90_kept_refutes)."
 },
 "C91": {
  "note": "All compositions of the modelled operators, whatever else is done and dropped meanwhile, as long as nothing the observer itself holds is dropped; weak references on the way are shown not to expire while the source holds its observer. group_by, window, window_toggle and ref_count are reference counted instead (C48, C51) and stop the path on purpose. C91_leaves covers the subscription to those: it takes the subscriber off the subject; C91_takes: every observer made by an operator can be given a disposable. C91_kept: the containers it goes to are held by the observer."
 },
 "C92": {
  "note": "Model Resub/Stack.lean: one thread, the call stack explicit, every label sequence. The full statement fails for the concat operator (C92_concat_refutes, disagreement 36); C92_concat_partial says what holds there. Downstream callbacks do not throw (that is C02) and other threads are not modelled here."
 },
 "C93": {
  "note": "Frames counted are the ones of Frame in Resub/Stack.lean (user code run by subscribe, loops, try blocks, on_next, on_error/on_completed); what else the compiler puts between them is constant per frame. merge and switch_on_next nest only if the user's code nests. C93_attempts shows runs with any number of attempts."
 },
 "C94": {
  "note": "Partial: a callback of the subscriber may begin after dispose() has returned in another thread (C94_refutes; at most one, C94_late_partial). Everything else is proved in full: C94_prefix, C94_exact, C94_own, C94_stop, C94_once, C94_release. The children of the composite_disposable are disposed of in one step of the disposing thread; composite_disposable in detail, with the states Edit and Disposed seen by concurrent add() calls, is C49."
 },
 "C95": {
  "note": "Partial: take_until's is_disposed locks take_until's mutex, and is called by a subject and by a worker while they hold theirs (C95_take_until_refutes: one thread, C95_worker_refutes: two threads). Proved for all networks without take_until below a subject or a scheduler: C95_progress_partial, C95_circle_partial, C95_alive_partial; C95_able says what being able to go on means. Values are not modelled; std::scoped_lock of with_latest_from is taken as locking in ascending order; condition variables are not modelled (waiting for work is not waiting for a mutex)."
 },
 "C96": {
  "note": "Serial (Combine/Serial.lean) gives the rules; C96_serial proves them sound, C96_operators and C96_subjects say which functions notify under a mutex. The fallback of timeout and the error path of observe_on do not obey the rules (they call the observer from elsewhere: C40, C37)."
 },
 "C97": {
  "note": "C97_partial: for every chain (Rpp.Capacity.Obsv) whose nearest operator above the subscriber that does not just pass calls on is not delay/observe_on, or whose flag is atomic, every network of calls that fits the chain (Wired) and every schedule: no race. Full statement fails, C97_refutes: from(1,2) | observe_on(new_thread) | take(1); the source's thread reads the plain bool through delay's is_disposed while the worker's on_completed sets it. Sequential consistency per step; set_upstream during subscription is not modelled."
 },
 "C98": {
  "note": "Proved for all chains of single-source operators (C98_pipeline, C98_no_husk) and for zip with selectors that do not throw (C98_zip_partial). zip with a throwing selector violates it (C98_zip_refutes, disagreement 40). Multi-source operators other than zip pass values on or copy them and are not modelled with moves."
 },
 "C99": {
  "note": "Proved: C99_silent, C99_together, C99_thrown, C99_released, C99_delivered, C99_unhandled. subscribe(d, observer) does not ask the observer (C99_refused_refutes, disagreement 41) and leaves d undisposed when on_next throws (C99_disposed_refutes, disagreement 42). add of an upstream to a composite disposable is one step here (its interleavings are C49)."
 },
 "C100": {
  "note": "Product of the Core pipelines (C04) and the delay/observe_on machines (C36/C37), refined to the pipeline without cuts; the end can always be reached (C100_can_finish). Assumes that no error reached an observe_on (shown necessary by an example; not needed when all cuts are delays), and no throttle (it reads the clock). One call of a piece is one step; every cut has its own clock, which allows more behaviours than one clock. C100_turns: no cut calls the piece behind it while that is busy."
 },
 "C101": {
  "note": "The last clause is refuted (C101_waste_refutes): zip completes only when all sources have; until then it stores every value of the others. The parts about queues of zip assume a selector that does not throw (one_empty) or an undisturbed state (held)."
 },
 "C102": {
  "note": "Product of the Core pipelines (C04), the combining machines (C23-C26, C35) and the delay machine (C36), one per node of an arbitrary tree. Specification: Join.Makes/MakesAll per operator, Net.Can/CanAll up the tree. The operands of one operator have one value type; a notification may be under way between two operators for any time (the synchronous call of the code is one of these schedules); observe_on, concat and switch are not nodes of the tree. on_error_resume_next is modelled only behind observables that make no call after an error (C109)."
 },
 "C103": {
  "note": "the inner expressions are arbitrary trees of Verif.Net; the laws are for the machine of merge driven by one thread, the sequence of each inner observable being given"
 },
 "C104": {
  "note": "operands are arbitrary trees of Verif.Net; a notification and the subscription it leads to are one step here (the loop `drain` with its flag is the subject of C30-C33), selectors and subscriptions do not throw, repeat(0) and concat of nothing are left out, the counter of retry does not wrap; on_error_resume_next only behind an observable that is silent after an error (Net.Silent): the code goes on listening to others, see C109"
 },
 "C105": {
  "note": "Built on the subject model (C42): histories on one thread, without re-entrant calls. Qt is the environment: it calls what is connected in order, a destroyed object emits nothing."
 },
 "C106": {
  "note": "Proved for pipelines of all operators that touch nothing after passing a value on (map, filter, skip, take_while, take_last, last, distinct, distinct_until_changed, scan, reduce, tap, finally), with stages behind take_while only forwarding the completion; for take: values exact. Refuted for first, element_at, throttle, buffer, the end of take, and last behind take_while."
 },
 "C107": {
  "note": "Proved for serialized subjects: the callbacks of two emissions never interleave, so there is one order of which every observer hears a sublist; for any subject when the first on_next has returned before the other emission begins. Refuted for plain subjects emitting from a callback, and for the values a serialized replay or behavior subject repeats to a new observer, because they are stored before the mutex is taken."
 },
 "C108": {
  "note": "Proved when nothing of the same key is fed (and the source does not end) during the announcement of a group, and when nothing is fed during the announcement, the end and the last value's callback of a window. Refuted otherwise: the key is announced twice and values are swapped, a group never ends, windows are lost, and an empty std::optional is read (undefined behavior)."
 },
 "C109": {
  "note": "Proved for on_error_resume_next and retry_when and all pipelines that fail only when their source ends: no function throws, and after take, take_while, first, element_at there is no first, last, element_at. Refuted otherwise (a throwing map, take | skip | first, merge_with): values and the completion of the failed source reach the subscriber, the selector is called again. Refuted for retry_when likewise."
 },
 "C110": {
  "note": "No wake-up is lost and a dispatch() over an empty queue sleeps (proved). While the first task waits for its time dispatch() does not sleep: the predicate of wait_for (run_loop.hpp 69) contains !m_queue.is_empty(), which is true, so the call loops over the queue until the task is due (C110_sleeps_refutes, C110_spins). Critical sections and notify_one are single steps; the loop is not destroyed meanwhile."
 },
 "C111": {
  "note": "Proved: whenever the thread gets to go on, it drops all cancelled tasks and ends. Refuted: nobody notifies the thread when a handler is disposed of, so it sleeps until the time of the task it waits for (new_thread.hpp 90). At that time, at the latest, it wakes. Same machine as C61; critical sections are single steps."
 },
 "C112": {
  "note": "The last claim is violated: the connection belongs to whoever made it. With two ref_count()s, or a connection made by hand, it is disposed of while others listen, and neither they nor those who join them get a new one (C112_two_refutes, C112_hand_refutes, C112_stuck); it holds for one ref_count() alone (C112_fed_partial). Subscriptions, disposals and connect() are single steps; their races are C48 and C86."
 },
 "C113": {
  "note": "Machine of one thread, its current_thread queue, its call stack and the waits of as_blocking (Verif/Source/BlockingNested.lean). C113_exact says exactly when the thread hangs, for arbitrary callbacks. Partial because the code violates the claim: as_blocking in a callback of a current_thread source, a source under as_blocking inside merge_with and the like, and as_blocking in a task of new_thread wait for a task in the queue of the waiting thread (the three _refutes). Not modelled: sources on other threads (C68), early disposal, delays, exceptions."
 },
 "C114": {
  "note": "Verif/Core/Mortal.lean adds to the observers of Verif.Core.Model the death of the process in noexcept functions. C114_exact says exactly when it happens, C114_default(_spec) for a subscriber without on_error, C114_same that nothing else changes. Partial because the code violates the claim for handlers of errors and completions that throw (C114_tap_refutes, C114_default). Not modelled: exceptions of copy constructors, bad_alloc, calls made by callbacks (C05, C106), multi-source operators, schedulers (C65)."
 },
 "C115": {
  "note": "One thread, one ref_count() or connect() by hand (C112 mixes them, C48 and C86 have threads). The subject is the model of C42-C44, which the proofs use; new are the connection, the reference count and sources that emit while being subscribed."
 },
 "C116": {
  "note": "The counter is a plain size_t, so overlapping calls are a data race (undefined behavior); the model takes a read and a write as single steps in some order. Even so round-robin fails (C116_same_refutes, C116_back_refutes); it holds while calls do not overlap, and the index is always in range."
 },
 "C117": {
  "note": "Proved if tasks of a pool wait only for pools of a higher level or threads of their own, in particular for new_thread alone and for tasks that never wait; refuted without that: on a pool of n threads, a task that waits n times in turn for empty sources of the pool never ends (C117_wait_refutes). get() of a pool is one step here, its race is C116; a wait of a current_thread queue's owner is C113. Without any condition a hang is exactly a circle of running tasks, each waiting for a task queued on the next one's thread, with a pool's thread in it (C117_cycle, C117_cycle_hangs)."
 },
 "C118": {
  "note": "Chains of the single-source operators of C04 (without ownership, which is C90). The container of fixed size and the one of any size agree as long as the former has room (C54): C118_capacity."
 },
 "C119": {
  "note": "Proved up to one element: the loop of the immediate source reads the next element before it looks whether anybody wants it (C119_one_more_refutes); the scheduled source does not. Advancing and comparing iterators is taken to make no element and not to throw."
 },
 "C120": {
  "note": "On one thread; observables do not throw out of subscribe (see C92), the counter does not wrap (see C31), and the operator's disposable is disposed exactly if the observer is (C03)."
 },
 "C121": {
  "note": "On one thread, with an outer source that does not fail; observables do not throw out of subscribe (see C92), and the operators' disposables are disposed exactly if the observer is (C03)."
 },
 "C122": {
  "note": "On one thread, with one other observable; observables do not throw out of subscribe (see C92), the operators' disposables are disposed exactly if the observer is (C03), and nothing is disposed from another thread. That zip goes on after one side has run out is disagreement 43."
 },
 "C123": {
  "note": "On one thread, sources and fallbacks do not throw out of subscribe, callbacks do not emit into the source. Proved for delay and observe_on; false for debounce, which waits for its own mutex (disagreement 61), and for timeout, which always gives up (disagreement 62)."
 },
 "C124": {
  "note": "On one thread; subscribe does not throw, callbacks do not emit into the source, at most one disposable reaches the observer. What happens across threads is C30-C34, what happens to disposables C109."
 },
 "C125": {
  "note": "On one thread; subscribe does not throw, callbacks do not emit into either observable, at most one disposable reaches the observer. Across threads: C35; locks: C69, C95."
 },
 "C126": {
  "note": "Two sources on one thread, nobody disposes from outside; the scheduler is that of C56 and C70. What the operators do if the sources run on the immediate scheduler is C122 and C125."
 },
 "C127": {
  "note": "One thread, nobody disposes from outside; all time points are due, so that tasks run first come, first served (C70). On the immediate scheduler the first endless source never lets go (C122)."
 },
 "C128": {
  "note": "One thread, nobody disposes from outside; all time points are due, so that tasks run first come, first served (C70, which covers finite containers)."
 },
 "C129": {
  "note": "One thread, nobody disposes from outside; all time points are due, so that tasks run first come, first served (C70). How many values are taken from each source when the subscriber stops within a round is shown for endless sources in C128."
 },
 "C130": {
  "note": "One thread, nobody disposes from outside; all time points are due, so that tasks run first come, first served (C70). The function given to flat_map does not throw. What happens on the immediate scheduler is C121."
 }
}