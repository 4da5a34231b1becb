{"id": "C01", "title": "Observer grammar", "statement": "For any serial sequence of notifications a source pushes into a subscribed observer, the callbacks the subscriber sees are zero or more on_next followed by at most one of on_error/on_completed, and nothing after that or after the subscription was disposed.", "quantifier": "every finite sequence of on_next/on_error/on_completed/set_upstream/dispose calls and every behaviour of the user's callbacks (returning, throwing from on_next, disposing the subscription)", "why_tests_cant": "tests run a handful of call sequences; the claim is about all of them, including sources that keep calling after termination", "anchors": ["src/rpp/rpp/observers/observer.hpp:observer_impl", "src/rpp/rpp/observers/details/disposable_strategy.hpp:local_disposable_strategy", "src/rpp/rpp/observers/lambda_observer.hpp:lambda_strategy"]}
{"id": "C02", "title": "Exception in on_next becomes on_error", "statement": "If the on_next callback throws, the very same observer receives that exception through on_error exactly once, right after the failing value, and receives nothing else.", "quantifier": "every call sequence, every position at which the callback throws, every exception value", "why_tests_cant": "the position of the throw and what the source does afterwards are unbounded", "anchors": ["src/rpp/rpp/observers/observer.hpp:observer_impl::on_next", "src/rpp/rpp/observers/observer.hpp:observer_impl::on_error"]}
{"id": "C03", "title": "Upstream resources are released", "statement": "Every disposable passed to an observer by set_upstream is disposed once the observer has terminated (or was disposed), whether it was passed before or after that moment.", "quantifier": "every sequence of notifications and set_upstream calls, any number of upstream disposables", "why_tests_cant": "the number and timing of set_upstream calls relative to termination is unbounded", "anchors": ["src/rpp/rpp/observers/observer.hpp:observer_impl::set_upstream", "src/rpp/rpp/observers/details/disposable_strategy.hpp:local_disposable_strategy::dispose", "src/rpp/rpp/disposables/details/container.hpp:dynamic_disposables_container_base"]}
{"id": "C04", "title": "Operator chains compose", "statement": "The subscriber of source | op1 | ... | opN sees exactly the composition of the operators' individual meanings applied to the source's sequence, and that sequence obeys the observer grammar.", "quantifier": "every pipeline length, every choice of operators and user functions (including throwing ones), every sequence of source calls", "why_tests_cant": "the set of pipelines is infinite; tests pick a few", "anchors": ["src/rpp/rpp/observables/details/chain_strategy.hpp:chain::subscribe", "src/rpp/rpp/operators/details/strategy.hpp:lift_operator", "src/rpp/rpp/observers/observer.hpp:observer_impl"]}
{"id": "C05", "title": "Grammar under re-entrant emission", "statement": "The observer grammar also holds when a callback re-enters the observer (for example the on_completed callback causes the same source to emit again).", "quantifier": "every re-entrant call tree", "why_tests_cant": "the set of re-entrant call trees is infinite and tests only use non re-entrant callbacks", "anchors": ["src/rpp/rpp/observers/observer.hpp:observer_impl::on_completed", "src/rpp/rpp/observers/observer.hpp:observer_impl::on_error"]}
{"id": "C06", "title": "map", "statement": "map(f) emits f(v) for every source value, in order, forwards the terminal event, and turns an exception of f into on_error at that position.", "quantifier": "every value sequence, every (possibly throwing) f", "why_tests_cant": "all functions and sequences", "anchors": ["src/rpp/rpp/operators/map.hpp:map_observer_strategy"]}
{"id": "C07", "title": "filter", "statement": "filter(p) emits exactly the source values satisfying p, in order, with the source's terminal event; a throwing p yields on_error.", "quantifier": "every value sequence and predicate", "why_tests_cant": "all predicates and sequences", "anchors": ["src/rpp/rpp/operators/filter.hpp:filter_observer_strategy"]}
{"id": "C08", "title": "take", "statement": "take(n) emits the first n values and completes together with the n-th one; a shorter source is mirrored unchanged; take(0) emits nothing.", "quantifier": "every n and every source sequence", "why_tests_cant": "n and sequences are unbounded", "anchors": ["src/rpp/rpp/operators/take.hpp:take_observer_strategy"]}
{"id": "C09", "title": "skip", "statement": "skip(n) drops exactly the first n values and mirrors everything else.", "quantifier": "every n and source sequence", "why_tests_cant": "unbounded", "anchors": ["src/rpp/rpp/operators/skip.hpp:skip_observer_strategy"]}
{"id": "C10", "title": "take_while", "statement": "take_while(p) mirrors the longest prefix of values satisfying p and completes at the first value that does not.", "quantifier": "every predicate and source sequence", "why_tests_cant": "unbounded", "anchors": ["src/rpp/rpp/operators/take_while.hpp:take_while_observer_strategy"]}
{"id": "C11", "title": "take_last", "statement": "take_last(n) emits, at completion, exactly the last min(n, length) values in source order, and nothing on error.", "quantifier": "every n (including 0) and source sequence", "why_tests_cant": "ring-buffer wrap-around positions are unbounded", "anchors": ["src/rpp/rpp/operators/take_last.hpp:take_last_observer_strategy"]}
{"id": "C12", "title": "first and last", "statement": "first() emits the first value and completes, or errors with not_enough_emissions when the source completes empty; last() emits the last value at completion or errors when empty.", "quantifier": "every source sequence", "why_tests_cant": "unbounded", "anchors": ["src/rpp/rpp/operators/first.hpp:first_observer_strategy", "src/rpp/rpp/operators/last.hpp:last_observer_strategy"]}
{"id": "C13", "title": "element_at", "statement": "element_at(i) emits exactly the value with zero-based index i and completes; if the source completes earlier it errors with out_of_range.", "quantifier": "every size_t index i and source sequence", "why_tests_cant": "the index range is the whole of size_t", "anchors": ["src/rpp/rpp/operators/element_at.hpp:element_at", "src/rpp/rpp/operators/element_at.hpp:element_at_observer_strategy"]}
{"id": "C14", "title": "distinct", "statement": "distinct() emits each value the first time it appears and never again.", "quantifier": "every sequence over every hashable type", "why_tests_cant": "unbounded history", "anchors": ["src/rpp/rpp/operators/distinct.hpp:distinct_observer_strategy"]}
{"id": "C15", "title": "distinct_until_changed", "statement": "distinct_until_changed(eq) drops a value iff it is eq-equal to the previously EMITTED value; for an equivalence this is the run-collapsed sequence, so no two neighbours in the output are eq-equal.", "quantifier": "every sequence and every comparator", "why_tests_cant": "unbounded", "anchors": ["src/rpp/rpp/operators/distinct_until_changed.hpp:distinct_until_changed_observer_strategy"]}
{"id": "C16", "title": "scan", "statement": "scan(seed,f) emits seed at subscription and then each running accumulation; scan(f) emits the first value and then each running accumulation.", "quantifier": "every seed, function (possibly throwing) and sequence", "why_tests_cant": "unbounded", "anchors": ["src/rpp/rpp/operators/scan.hpp:scan_observer_strategy"]}
{"id": "C17", "title": "reduce", "statement": "reduce(seed,f) emits exactly the left fold at completion; reduce(f) does so for non-empty sources and emits nothing for empty ones; nothing but the error is emitted when the source fails.", "quantifier": "every seed, function and sequence", "why_tests_cant": "unbounded", "anchors": ["src/rpp/rpp/operators/reduce.hpp:reduce_observer_strategy"]}
{"id": "C18", "title": "buffer", "statement": "buffer(n) emits consecutive chunks of exactly max(1,n) values and, at completion only, the non-empty remainder; concatenating the chunks gives back the source.", "quantifier": "every n and sequence", "why_tests_cant": "unbounded", "anchors": ["src/rpp/rpp/operators/buffer.hpp:buffer_observer_strategy"]}
{"id": "C19", "title": "window", "statement": "window(n) opens a new window exactly when a value arrives and the previous window is full, delivers each value to exactly one window, completes a window with its max(1,n)-th value and terminates the open window with the source.", "quantifier": "every n and sequence", "why_tests_cant": "unbounded", "anchors": ["src/rpp/rpp/operators/window.hpp:window_observer_strategy"]}
{"id": "C20", "title": "group_by", "statement": "group_by(key) emits one group per distinct key in order of first appearance, and every value is delivered to exactly the group of its key in source order; all groups receive the source's terminal event.", "quantifier": "every key function, comparator and sequence", "why_tests_cant": "unbounded", "anchors": ["src/rpp/rpp/operators/group_by.hpp:group_by_observer_strategy"]}
{"id": "C21", "title": "tap and finally", "statement": "tap does not change the sequence and its callbacks see each event just before the subscriber does; finally's callback runs exactly once, after the terminal event or on disposal, whichever comes first.", "quantifier": "every sequence and disposal point", "why_tests_cant": "unbounded", "anchors": ["src/rpp/rpp/operators/tap.hpp:tap_observer_strategy", "src/rpp/rpp/operators/finally.hpp:finally_t", "src/rpp/rpp/disposables/callback_disposable.hpp:callback_disposable"]}
{"id": "C22", "title": "throttle", "statement": "throttle(d) emits the first value and afterwards exactly the values arriving at least d after the last emitted one, so emitted values are at least d apart.", "quantifier": "every duration and every timed sequence", "why_tests_cant": "unbounded timings", "anchors": ["src/rpp/rpp/operators/throttle.hpp:throttle_observer_strategy"]}
{"id": "C23", "title": "merge is complete and lossless", "statement": "merge delivers every value of every inner observable exactly once, in each inner's own order, and completes exactly once after the outer and all inners completed; the first error ends it.", "quantifier": "any number of inner observables, every interleaving of their (concurrent) notifications", "why_tests_cant": "interleavings and the number of inners are unbounded", "anchors": ["src/rpp/rpp/operators/merge.hpp:merge_state", "src/rpp/rpp/operators/merge.hpp:merge_observer_base_strategy"]}
{"id": "C24", "title": "zip pairs by index", "statement": "The k-th emission of zip combines the k-th value of every source; after any interleaving exactly min(lengths) tuples were emitted; it completes when all sources have completed.", "quantifier": "any number of sources, every interleaving", "why_tests_cant": "unbounded", "anchors": ["src/rpp/rpp/operators/zip.hpp:zip_observer_strategy", "src/rpp/rpp/operators/details/combining_strategy.hpp:combining_state"]}
{"id": "C25", "title": "combine_latest", "statement": "combine_latest emits, for each arriving value once every source has emitted, the tuple of the most recent values; it completes when all sources have completed.", "quantifier": "any number of sources, every interleaving", "why_tests_cant": "unbounded", "anchors": ["src/rpp/rpp/operators/combine_latest.hpp:combine_latest_observer_strategy", "src/rpp/rpp/operators/details/combining_strategy.hpp:combining_state"]}
{"id": "C26", "title": "with_latest_from", "statement": "with_latest_from emits once per main value for which every other source has emitted, pairing it with their most recent values; only the main source's completion completes it; any error ends it.", "quantifier": "every interleaving of main and other sources", "why_tests_cant": "unbounded", "anchors": ["src/rpp/rpp/operators/with_latest_from.hpp:with_latest_from_observer_strategy"]}
{"id": "C27", "title": "switch_on_next", "statement": "switch_on_next forwards only values of the most recent inner observable and completes when the outer and the current inner are complete.", "quantifier": "any number of inners, every interleaving of (serialized) notifications", "why_tests_cant": "unbounded", "anchors": ["src/rpp/rpp/operators/switch_on_next.hpp:switch_on_next_observer_strategy"]}
{"id": "C28", "title": "concat keeps order", "statement": "concat (operator) subscribes the inner observables one at a time in arrival order; its output is the concatenation of the inner sequences and it completes after the outer and all inners completed.", "quantifier": "any number of inner observables, arriving at any time relative to the running inner, synchronous or asynchronous inner completion", "why_tests_cant": "unbounded arrival/completion patterns", "anchors": ["src/rpp/rpp/operators/concat.hpp:concat_state_t"]}
{"id": "C29", "title": "concat loses no inner observable under concurrency", "statement": "Even when the outer observable emits from a different thread than the one on which the running inner completes, every inner observable is eventually subscribed.", "quantifier": "every interleaving of outer on_next with the completion of the running inner", "why_tests_cant": "thread interleavings at atomic-operation granularity cannot be forced by tests", "anchors": ["src/rpp/rpp/operators/concat.hpp:drain", "src/rpp/rpp/operators/concat.hpp:concat_observer_strategy::on_next"]}
{"id": "C30", "title": "source::concat, repeat and start_with", "statement": "source::concat emits the concatenation of its sources up to and including the first error, subscribing each source only after the previous completed; repeat(n) is n copies; start_with prepends.", "quantifier": "any list of sources, any count, synchronous and asynchronous completion", "why_tests_cant": "unbounded", "anchors": ["src/rpp/rpp/sources/concat.hpp:drain", "src/rpp/rpp/operators/repeat.hpp:repeat_t", "src/rpp/rpp/operators/start_with.hpp:start_with_t", "src/rpp/rpp/utils/utils.hpp:repeated_container"]}
{"id": "C31", "title": "retry bounds the number of attempts", "statement": "retry(n) subscribes at most n+1 times, emits the concatenation of the attempts' values, ends with the first completion or with the error of attempt n+1; retry() never gives up.", "quantifier": "every n in size_t (including the maximum), every sequence of attempt outcomes", "why_tests_cant": "unbounded attempts; the counter wraps at 2^64", "anchors": ["src/rpp/rpp/operators/retry.hpp:drain", "src/rpp/rpp/operators/retry.hpp:retry_observer_strategy"]}
{"id": "C32", "title": "resubscription hand-off is exact", "statement": "When an attempt ends on another thread while subscribe is still returning, exactly one of the two threads starts the next attempt: never zero and never two (retry, repeat/source::concat, retry_when).", "quantifier": "every interleaving of the subscribing thread and the terminating thread, any number of attempts", "why_tests_cant": "race windows of a few instructions", "anchors": ["src/rpp/rpp/operators/retry.hpp:is_inside_drain", "src/rpp/rpp/sources/concat.hpp:is_inside_drain", "src/rpp/rpp/operators/retry_when.hpp:is_inside_drain"]}
{"id": "C33", "title": "on_error_resume_next", "statement": "on_error_resume_next mirrors the source and, on error e, continues with the observable selector(e); a throwing selector yields on_error.", "quantifier": "every source sequence, selector, and fallback sequence", "why_tests_cant": "unbounded", "anchors": ["src/rpp/rpp/operators/on_error_resume_next.hpp:on_error_resume_next_observer_strategy"]}
{"id": "C34", "title": "retry_when", "statement": "retry_when resubscribes once per notifier value, forwards the notifier's error/completion, and forwards values of all attempts in order.", "quantifier": "every sequence of attempt outcomes and notifier outcomes", "why_tests_cant": "unbounded", "anchors": ["src/rpp/rpp/operators/retry_when.hpp:retry_when_t"]}
{"id": "C35", "title": "take_until", "statement": "take_until mirrors the source until the notifier emits, errors or completes, then terminates exactly once and emits nothing more.", "quantifier": "every interleaving of source and notifier notifications, including concurrent ones", "why_tests_cant": "thread interleavings", "anchors": ["src/rpp/rpp/operators/take_until.hpp:take_until_observer_strategy"]}
{"id": "C36", "title": "delay", "statement": "delay(d) emits every value in source order, each not earlier than d after it arrived, and the terminal event last; nothing is lost or duplicated.", "quantifier": "every arrival pattern and every interleaving of arrivals with the draining task", "why_tests_cant": "unbounded schedules", "anchors": ["src/rpp/rpp/operators/delay.hpp:emplace_safe", "src/rpp/rpp/operators/delay.hpp:drain_queue"]}
{"id": "C37", "title": "observe_on never overlaps callbacks", "statement": "The observer behind observe_on is always called serially: an error from the source thread never overlaps with, or precedes, an on_next being delivered on the scheduler thread.", "quantifier": "every interleaving of the source thread's on_error with the draining task", "why_tests_cant": "two-thread interleavings", "anchors": ["src/rpp/rpp/operators/delay.hpp:emplace_safe", "src/rpp/rpp/operators/observe_on.hpp:observe_on"]}
{"id": "C38", "title": "debounce", "statement": "debounce(d) emits a value iff no newer value arrives within d after it (or the source completes first, which flushes the pending value); emitted values keep source order; on error the pending value is dropped.", "quantifier": "every timed arrival sequence", "why_tests_cant": "unbounded timings", "anchors": ["src/rpp/rpp/operators/debounce.hpp:debounce_state"]}
{"id": "C39", "title": "timeout", "statement": "timeout(d) mirrors the source while consecutive events are less than d apart and switches to the fallback at the first gap of at least d (measured from subscription or the last value).", "quantifier": "every timed arrival sequence", "why_tests_cant": "unbounded timings", "anchors": ["src/rpp/rpp/operators/timeout.hpp:timeout_observer_strategy"]}
{"id": "C40", "title": "timeout hands over atomically", "statement": "After timeout switched to the fallback no value of the original source reaches the subscriber, whatever the interleaving of the source thread with the timer thread.", "quantifier": "every interleaving of on_next with the timer task", "why_tests_cant": "two-thread interleavings", "anchors": ["src/rpp/rpp/operators/timeout.hpp:timeout_observer_strategy::on_next", "src/rpp/rpp/operators/timeout.hpp:lift_with_disposable_strategy"]}
{"id": "C41", "title": "window_toggle", "statement": "window_toggle delivers each source value to exactly the windows open at that moment; a window opens with the openings observable and closes with its own closing observable; termination reaches all open windows.", "quantifier": "every interleaving of source, openings and closings", "why_tests_cant": "unbounded", "anchors": ["src/rpp/rpp/operators/window_toggle.hpp:window_toggle_observer_strategy"]}
{"id": "C42", "title": "publish_subject multicast", "statement": "Each observer of a publish_subject receives exactly the values emitted after its subscription and before its disposal, in emission order, then the terminal event; late subscribers get only the terminal event.", "quantifier": "every history of subscribe / dispose / emit / terminate operations with any number of observers", "why_tests_cant": "unbounded histories", "anchors": ["src/rpp/rpp/subjects/publish_subject.hpp:publish_subject", "src/rpp/rpp/subjects/details/subject_state.hpp:subject_state"]}
{"id": "C43", "title": "behavior_subject", "statement": "A new observer of a behavior_subject first receives the most recent value (initially the constructor's) and then behaves as with a publish_subject.", "quantifier": "every history of operations", "why_tests_cant": "unbounded histories", "anchors": ["src/rpp/rpp/subjects/behavior_subject.hpp:behavior_subject"]}
{"id": "C44", "title": "replay_subject bound", "statement": "A new observer of replay_subject(n, window) first receives the most recent values: at most max(1,n) of them, only values not older than the window, in emission order, and no younger eligible value is missing.", "quantifier": "every history and every timing, every bound and window", "why_tests_cant": "unbounded histories and timings", "anchors": ["src/rpp/rpp/subjects/replay_subject.hpp:replay_subject"]}
{"id": "C45", "title": "No value is missed between replay and subscription", "statement": "Values emitted while an observer is being subscribed to a behavior_subject or replay_subject are not lost.", "quantifier": "every interleaving (or re-entrant emission) of subscribe and on_next", "why_tests_cant": "interleavings", "anchors": ["src/rpp/rpp/subjects/behavior_subject.hpp:subscribe", "src/rpp/rpp/subjects/replay_subject.hpp:subscribe"]}
{"id": "C46", "title": "Serialized subjects serialize", "statement": "Callbacks of the observers of a serialized subject never overlap, whatever threads emit, and nothing follows the terminal event.", "quantifier": "any number of emitting threads, every interleaving", "why_tests_cant": "interleavings", "anchors": ["src/rpp/rpp/subjects/details/subject_state.hpp:m_serialized_mutex"]}
{"id": "C47", "title": "Subscribing or disposing during an emission", "statement": "A value being emitted reaches exactly the observers subscribed when the emission began and not disposed before their turn; observers added by a callback see only later values.", "quantifier": "every callback behaviour (subscribing, disposing self or others) during an emission", "why_tests_cant": "unbounded re-entrancy patterns", "anchors": ["src/rpp/rpp/subjects/details/subject_state.hpp:on_next", "src/rpp/rpp/subjects/details/subject_state.hpp:cleanup_observers"]}
{"id": "C48", "title": "ref_count connects once and disconnects last", "statement": "ref_count subscribes to the source exactly when the number of subscribers goes from 0 to 1 and disconnects exactly when it returns to 0, and can reconnect afterwards unless the source terminated.", "quantifier": "every history of subscriptions and disposals", "why_tests_cant": "unbounded histories", "anchors": ["src/rpp/rpp/observables/connectable_observable.hpp:connectable_observable"]}
{"id": "C49", "title": "composite_disposable leaks nothing", "statement": "Whatever threads concurrently add to, clear and dispose a composite_disposable, once it is disposed and all calls returned every added (and not removed) child has been disposed, and a child added after disposal is disposed by add itself. With a fixed capacity n it never holds more than n children, and add throws exactly if n are there.", "quantifier": "any number of threads, any number of operations each, every interleaving at atomic-step granularity", "why_tests_cant": "interleavings are unbounded", "anchors": ["src/rpp/rpp/disposables/composite_disposable.hpp:add", "src/rpp/rpp/disposables/composite_disposable.hpp:dispose_impl"]}
{"id": "C50", "title": "Dispose action runs exactly once", "statement": "However many threads call dispose() on a disposable, its action (callback) runs exactly once.", "quantifier": "any number of threads, every interleaving", "why_tests_cant": "interleavings", "anchors": ["src/rpp/rpp/disposables/details/base_disposable.hpp:base_disposable_impl", "src/rpp/rpp/disposables/callback_disposable.hpp:callback_disposable", "src/rpp/rpp/disposables/composite_disposable.hpp:dispose_impl"]}
{"id": "C51", "title": "refcount_disposable", "statement": "The underlying resource of a refcount_disposable is disposed exactly when the last outstanding reference is disposed (or it is disposed directly), never earlier, and disposing a reference twice releases only once.", "quantifier": "any number of references, threads and interleavings", "why_tests_cant": "interleavings", "anchors": ["src/rpp/rpp/disposables/refcount_disposable.hpp:refcount_disposable"]}
{"id": "C52", "title": "Static and dynamic containers agree", "statement": "The fixed-capacity disposable container behaves like the dynamic one for every operation sequence that never exceeds its capacity, and throws (changing nothing) exactly when it would be exceeded.", "quantifier": "every operation sequence and capacity", "why_tests_cant": "unbounded sequences", "anchors": ["src/rpp/rpp/disposables/details/container.hpp:static_disposables_container"]}
{"id": "C53", "title": "clear() tolerates children that touch the composite", "statement": "Calling clear() on a composite_disposable returns even if disposing a child calls add/remove/dispose/clear on the same composite.", "quantifier": "every child behaviour", "why_tests_cant": "unbounded re-entrancy", "anchors": ["src/rpp/rpp/disposables/composite_disposable.hpp:clear"]}
{"id": "C54", "title": "Static disposable capacity is never exceeded", "statement": "For every pipeline of operators the number of upstream disposables handed to the final observer never exceeds the compile-time capacity computed for it, so subscription never fails with more_disposables_than_expected.", "quantifier": "every pipeline", "why_tests_cant": "infinitely many pipelines", "anchors": ["src/rpp/rpp/observables/details/disposable_strategy.hpp:fixed_disposable_strategy_selector", "src/rpp/rpp/observables/details/disposable_strategy.hpp:dynamic_disposable_strategy_selector", "src/rpp/rpp/operators/map.hpp:updated_disposable_strategy", "src/rpp/rpp/operators/take_until.hpp:updated_disposable_strategy", "src/rpp/rpp/operators/delay.hpp:updated_disposable_strategy", "src/rpp/rpp/operators/merge.hpp:updated_disposable_strategy"]}
{"id": "C55", "title": "Schedulable queue is a stable priority queue", "statement": "The scheduler queue hands tasks out in non-decreasing time order and, among equal times, in insertion order; nothing is lost or duplicated.", "quantifier": "every sequence of emplace and pop operations", "why_tests_cant": "unbounded sequences", "anchors": ["src/rpp/rpp/schedulers/details/queue.hpp:schedulables_queue::emplace_impl"]}
{"id": "C56", "title": "current_thread is a trampoline", "statement": "Tasks scheduled on current_thread from inside a running task do not run nested: they run after it, ordered by time and then by scheduling order.", "quantifier": "every (finite) tree of tasks scheduling tasks, all delays", "why_tests_cant": "unbounded task trees", "anchors": ["src/rpp/rpp/schedulers/current_thread.hpp:drain_queue", "src/rpp/rpp/schedulers/current_thread.hpp:defer_for"]}
{"id": "C57", "title": "Periodic tasks on current_thread keep their period", "statement": "A task that reschedules itself with delay_from_this_timepoint(d) on current_thread runs at t0, t0+d, t0+2d, ... (not earlier).", "quantifier": "every number of repetitions, every queue content", "why_tests_cant": "unbounded repetitions", "anchors": ["src/rpp/rpp/schedulers/current_thread.hpp:drain_queue", "src/rpp/rpp/sources/interval.hpp:interval"]}
{"id": "C58", "title": "immediate scheduler", "statement": "On the immediate scheduler the task runs before schedule() returns, repetitions run back to back not before their due time, and a disposed handler stops it before the next run.", "quantifier": "every repetition pattern and disposal point", "why_tests_cant": "unbounded", "anchors": ["src/rpp/rpp/schedulers/immediate.hpp:immediate", "src/rpp/rpp/schedulers/details/utils.hpp:immediate_scheduling_while_condition"]}
{"id": "C59", "title": "test_scheduler determinism", "statement": "time_advance runs exactly the due tasks in (time, insertion) order at the advanced time; no task runs before its time.", "quantifier": "every sequence of schedule and time_advance operations", "why_tests_cant": "unbounded", "anchors": ["src/rpp/rpp/schedulers/test_scheduler.hpp:test_scheduler"]}
{"id": "C60", "title": "run_loop dispatches one ready task", "statement": "dispatch_if_ready runs at most one task, the earliest, only if due, reschedules it if asked, and after disposal nothing runs.", "quantifier": "every history of schedule/dispatch/dispose", "why_tests_cant": "unbounded", "anchors": ["src/rpp/rpp/schedulers/run_loop.hpp:run_loop"]}
{"id": "C61", "title": "new_thread runs tasks on time", "statement": "A task scheduled on new_thread runs as soon as its time comes (given an idle worker), also when it was scheduled after, but is due before, the task currently waited for; it never runs before its time.", "quantifier": "every order of scheduling calls relative to the worker's waits", "why_tests_cant": "timing interleavings", "anchors": ["src/rpp/rpp/schedulers/new_thread.hpp:data_thread"]}
{"id": "C62", "title": "thread_pool distributes round-robin", "statement": "With n threads the i-th created worker uses thread i mod max(1,n), so loads differ by at most one.", "quantifier": "every n and number of workers", "why_tests_cant": "unbounded", "anchors": ["src/rpp/rpp/schedulers/thread_pool.hpp:thread_pool"]}
{"id": "C63", "title": "No starvation of queued tasks on new_thread", "statement": "A task that keeps rescheduling itself with zero delay on new_thread does not starve other tasks that are already due on the same thread.", "quantifier": "every combination of scheduling order", "why_tests_cant": "unbounded", "anchors": ["src/rpp/rpp/schedulers/new_thread.hpp:has_fresh_data"]}
{"id": "C64", "title": "Disposed tasks do not run", "statement": "A task whose handler was disposed before it starts does not run.", "quantifier": "every disposal time relative to waiting", "why_tests_cant": "timing interleavings", "anchors": ["src/rpp/rpp/schedulers/current_thread.hpp:drain_queue", "src/rpp/rpp/schedulers/new_thread.hpp:data_thread", "src/rpp/rpp/schedulers/run_loop.hpp:run_loop", "src/rpp/rpp/schedulers/test_scheduler.hpp:test_scheduler"]}
{"id": "C65", "title": "Throwing tasks report and stop", "statement": "If a scheduled task throws, the exception is delivered to its handler's on_error exactly once and the task is not rescheduled.", "quantifier": "every repetition index at which it throws", "why_tests_cant": "unbounded", "anchors": ["src/rpp/rpp/schedulers/details/queue.hpp:make_advanced_call", "src/rpp/rpp/schedulers/details/utils.hpp:immediate_scheduling_while_condition"]}
{"id": "C66", "title": "from_iterable / just", "statement": "from_iterable emits all elements in order and then completes, stopping as soon as the observer is disposed; both the immediate and the scheduled implementation emit the same sequence.", "quantifier": "every container and disposal point", "why_tests_cant": "unbounded", "anchors": ["src/rpp/rpp/sources/from.hpp:from_iterable_strategy"]}
{"id": "C67", "title": "interval and timer", "statement": "interval(t0,p) emits 0,1,2,... and timer emits exactly one 0 and completes; the k-th value is not emitted before t0+k*p.", "quantifier": "every number of emissions and period", "why_tests_cant": "unbounded", "anchors": ["src/rpp/rpp/sources/interval.hpp:interval", "src/rpp/rpp/sources/timer.hpp:timer"]}
{"id": "C68", "title": "as_blocking waits for termination", "statement": "Subscribing to a blocking observable returns only after the observer terminated or was disposed, and always returns in that case (no lost wake-up).", "quantifier": "every interleaving of the waiting thread and the terminating thread", "why_tests_cant": "interleavings", "anchors": ["src/rpp/rpp/observables/blocking_observable.hpp:blocking_observable"]}
{"id": "C69", "title": "No self-deadlock on re-entrant emission", "statement": "Emitting into a source of a combining operator from inside the subscriber's on_next callback does not deadlock.", "quantifier": "every combining operator and every re-entrant pattern", "why_tests_cant": "unbounded re-entrancy", "anchors": ["src/rpp/rpp/utils/utils.hpp:value_with_mutex", "src/rpp/rpp/operators/merge.hpp:merge_observer_strategy", "src/rpp/rpp/operators/zip.hpp:zip_observer_strategy", "src/rpp/rpp/operators/take_until.hpp:take_until_observer_strategy"]}
{"id": "C70", "title": "merge_with interleaves trampolined sources fairly", "statement": "Sources scheduled on current_thread and merged by merge_with are interleaved value by value in round-robin order.", "quantifier": "any number and length of sources", "why_tests_cant": "unbounded", "anchors": ["src/rpp/rpp/operators/merge.hpp:merge_with_t", "src/rpp/rpp/schedulers/current_thread.hpp:current_thread"]}
{"id": "C71", "title": "windows and groups keep the source subscribed exactly while somebody listens", "statement": "A source behind window or group_by stays subscribed exactly as long as the main observer or any observer of a window or group is listening: its subscription is disposed when the last of them has unsubscribed or been terminated, and not before.", "quantifier": "every sequence of notifications, subscriptions and disposals, at any point between the operator's steps", "why_tests_cant": "any number of inner observers coming and going in any order", "anchors": ["src/rpp/rpp/operators/window.hpp:window_observer_strategy", "src/rpp/rpp/operators/group_by.hpp:group_by_observer_strategy", "src/rpp/rpp/disposables/refcount_disposable.hpp:refcount_disposable"]}
{"id": "C72", "title": "Laws of operators", "statement": "Pipelines that the usual laws call equal show every subscriber the same notifications: fusion (map|map, filter|filter, take|take, skip|skip, take_while|take_while, take_last|take_last, distinct twice), exchange (map with filter, take, skip; skip with take), definability (element_at, first, last, reduce, buffer(1)) and identities (map(id), filter(true), skip(0), tap, finally), also inside any larger pipeline.", "quantifier": "all functions (throwing where stated), all parameters, all sources, all subscribers, all surrounding pipelines", "why_tests_cant": "equality of two pipelines on all inputs", "anchors": ["src/rpp/rpp/operators/map.hpp:map_observer_strategy", "src/rpp/rpp/operators/filter.hpp:filter_observer_strategy", "src/rpp/rpp/operators/take.hpp:take_observer_strategy", "src/rpp/rpp/operators/skip.hpp:skip_observer_strategy", "src/rpp/rpp/operators/take_while.hpp:take_while_observer_strategy", "src/rpp/rpp/operators/take_last.hpp:take_last_observer_strategy", "src/rpp/rpp/operators/reduce.hpp:reduce_observer_strategy", "src/rpp/rpp/operators/scan.hpp:scan_observer_strategy", "src/rpp/rpp/operators/element_at.hpp:element_at_observer_strategy", "src/rpp/rpp/operators/buffer.hpp:buffer_observer_strategy"]}
{"id": "C73", "title": "gRPC reactors write messages in order, one at a time", "statement": "Messages emitted into a reactor's observer are handed to gRPC in the order in which they reached the reactor, each exactly once and one at a time; the stream is closed exactly once, after the user ended it and all messages were written, with a status that reflects on_completed or on_error.", "quantifier": "any number of emitting threads, any timing of gRPC's reactions, all six reactors", "why_tests_cant": "interleavings of emissions and reactions", "anchors": ["src/extensions/rppgrpc/rppgrpc/details/base.hpp:base_writer", "src/extensions/rppgrpc/rppgrpc/client_reactor.hpp:client_bidi_reactor", "src/extensions/rppgrpc/rppgrpc/server_reactor.hpp:server_bidi_reactor"]}
{"id": "C74", "title": "gRPC reactors show what was read", "statement": "Subscribers of a reactor's observable are shown the messages read from the stream in order, one read at a time, followed by exactly one terminal event that reflects the outcome of the call, never overlapping.", "quantifier": "any timing of gRPC's reactions including cancellation", "why_tests_cant": "interleavings of reactions", "anchors": ["src/extensions/rppgrpc/rppgrpc/details/base.hpp:base_reader", "src/extensions/rppgrpc/rppgrpc/client_reactor.hpp:client_bidi_reactor", "src/extensions/rppgrpc/rppgrpc/server_reactor.hpp:server_bidi_reactor"]}
{"id": "C75", "title": "A server reactor finishes its call exactly once", "statement": "A server reactor calls Finish at most once, and does call it once the user has ended the stream and all messages are written (reading reactor: once the client has no more messages).", "quantifier": "any timing of emissions, write results and cancellation", "why_tests_cant": "interleavings of reactions", "anchors": ["src/extensions/rppgrpc/rppgrpc/server_reactor.hpp:OnCancel", "src/extensions/rppgrpc/rppgrpc/server_reactor.hpp:OnWriteDone"]}
{"id": "C76", "title": "A deleted reactor is not used", "statement": "After OnDone deleted the reactor, emissions into its observer do not touch it.", "quantifier": "any number of emitting threads", "why_tests_cant": "a race between an emission and OnDone", "anchors": ["src/extensions/rppgrpc/rppgrpc/client_reactor.hpp:OnDone", "src/extensions/rppgrpc/rppgrpc/details/base.hpp:observer_strategy"]}
{"id": "C77", "title": "asio strand: one schedulable at a time", "statement": "Schedulables of one strand worker, and those they schedule on current_thread while running, never run concurrently or nested, whichever threads run the io_context.", "quantifier": "any number of threads and schedulables, any scheduling from inside schedulables", "why_tests_cant": "unbounded interleavings", "anchors": ["src/extensions/rppasio/rppasio/schedulers/strand.hpp:current_thread_queue_guard"]}
{"id": "C78", "title": "asio strand: on request, not early, not when disposed, and in the end", "statement": "A schedulable runs once per request, not before the time requested, not if its handler was disposed of before, and otherwise every request is eventually served.", "quantifier": "any history of scheduling, disposal, timer expiry; endless executions", "why_tests_cant": "timing, liveness", "anchors": ["src/extensions/rppasio/rppasio/schedulers/strand.hpp:defer", "src/extensions/rppasio/rppasio/schedulers/strand.hpp:defer_with_time"]}
{"id": "C79", "title": "asio strand: order", "statement": "Schedulables due at the same time run in the order in which they were scheduled.", "quantifier": "any history", "why_tests_cant": "unbounded histories, order of timers depends on heap layout", "anchors": ["src/extensions/rppasio/rppasio/schedulers/strand.hpp:process_queue", "src/extensions/rppasio/rppasio/schedulers/strand.hpp:defer"]}
{"id": "C80", "title": "asio strand: throwing schedulables report and stop", "statement": "If a schedulable throws, the exception is delivered to its handler's on_error exactly once and it is not rescheduled (as on the other schedulers, C65).", "quantifier": "any history, any repetition at which it throws", "why_tests_cant": "unbounded", "anchors": ["src/extensions/rppasio/rppasio/schedulers/strand.hpp:defer", "src/extensions/rppasio/rppasio/schedulers/strand.hpp:defer_with_time"]}
{"id": "C81", "title": "asio strand: repetition times", "statement": "A schedulable that asks to be repeated is due again at now+d, at its own time point+d, or at the given time point, according to the kind of delay it returned.", "quantifier": "any number of repetitions, any running time", "why_tests_cant": "drift shows only over many periods", "anchors": ["src/extensions/rppasio/rppasio/schedulers/strand.hpp:defer_with_time", "src/rpp/rpp/schedulers/fwd.hpp:delay_from_this_timepoint"]}
{"id": "C82", "title": "asio strand: finished schedulables are released", "statement": "When a schedulable has ended for good the scheduler keeps no reference to it, its handler or what it captured.", "quantifier": "any history", "why_tests_cant": "a leak depends on who was queued next to whom", "anchors": ["src/extensions/rppasio/rppasio/schedulers/strand.hpp:process_queue", "src/rpp/rpp/schedulers/details/queue.hpp:pop"]}
{"id": "C83", "title": "Qt main thread: one at a time, on request, not early, not when disposed", "statement": "Functions scheduled on the Qt main thread scheduler run one at a time, once per request, not before the time requested, not if the handler was disposed of before; without an application the handler gets an error and the function never runs; when the application ends, pending functions never run.", "quantifier": "any history of scheduling, disposal, timer expiry in any order, applications ending and starting", "why_tests_cant": "timing, sub-millisecond delays, order of events unbounded", "anchors": ["src/extensions/rppqt/rppqt/schedulers/main_thread.hpp:defer_for", "src/extensions/rppqt/rppqt/schedulers/main_thread.hpp:invoke"]}
{"id": "C84", "title": "Qt main thread: repetition times", "statement": "A function that asks to be repeated is due again at now+d, at its own time point+d, or at the given time point, according to the kind of delay it returned.", "quantifier": "any number of repetitions, any running time", "why_tests_cant": "drift shows only over many periods", "anchors": ["src/extensions/rppqt/rppqt/schedulers/main_thread.hpp:invoke", "src/rpp/rpp/schedulers/fwd.hpp:delay_from_this_timepoint"]}
{"id": "C85", "title": "Qt main thread: throwing functions report and stop", "statement": "A function that throws, or returns without asking for a repetition, never runs again; if it throws the exception is delivered to its handler's on_error (as on the other schedulers, C65).", "quantifier": "any history, any repetition at which it throws", "why_tests_cant": "unbounded", "anchors": ["src/extensions/rppqt/rppqt/schedulers/main_thread.hpp:invoke"]}
{"id": "C86", "title": "connect(): one connection at a time", "statement": "connect() subscribes the source only if there is no connection that is not disposed and the subject has not ended; otherwise it returns the existing connection's disposable or an empty one and changes nothing. A disposed connection can be followed by a new one, an ended subject by none. Emissions reach the subscribers only from a connection that is not disposed, and one at a time.", "quantifier": "any number of connect calls from any threads with any disposables, any source behaviour, disposal and termination at any time", "why_tests_cant": "unbounded interleavings", "anchors": ["src/rpp/rpp/observables/connectable_observable.hpp:connect", "src/rpp/rpp/operators/multicast.hpp:multicast"]}
{"id": "C87", "title": "connect(): a disposed connection is released", "statement": "What a source attached to its observer is disposed and released when its connection is disposed or the subject ends.", "quantifier": "any number of connections made and disposed", "why_tests_cant": "a leak that grows with the number of reconnections", "anchors": ["src/rpp/rpp/observables/connectable_observable.hpp:connect", "src/rpp/rpp/subjects/publish_subject.hpp:set_upstream"]}
{"id": "C88", "title": "Ownership of disposables", "statement": "A disposable is disposed at most once, and only when dispose() is called on it, a composite holding it is disposed or cleared, or its last strong reference goes; one of these happening always gets it disposed. A disposable that can be reached from a wrapper through strong references is never destroyed; one that cannot is disposed and destroyed, weak wrappers notwithstanding. What is added to a composite that is disposed or gone is disposed. A composite stores neither itself nor what is disposed already, and nothing once it is disposed.", "quantifier": "any number of disposables and wrappers, any sequence of make, copy, as_weak, conversion, assignment, add, remove, clear, dispose and destruction, pending disposals carried out in any order", "why_tests_cant": "unbounded reference graphs and histories", "anchors": ["src/rpp/rpp/disposables/disposable_wrapper.hpp:disposable_wrapper_impl", "src/rpp/rpp/disposables/disposable_wrapper.hpp:auto_dispose_wrapper", "src/rpp/rpp/disposables/composite_disposable.hpp:composite_disposable_impl"]}
{"id": "C89", "title": "subscribe_on: where the source is subscribed, and what becomes of its exceptions", "statement": "For each subscription the source is subscribed at most once, on the worker of the subscribe_on nearest to it after passing all other subscribe_on workers in order (on the subscriber's thread if there is none), not at all if the subscriber is disposed when a worker takes it up, and in the end unless disposed. An exception thrown while the source is being subscribed reaches the subscriber: by on_error if on a worker, out of subscribe() otherwise.", "quantifier": "chains of any length with any operators and workers, any number of concurrent subscriptions, tasks taken at any time in any order, disposal at any time, a source that throws or not", "why_tests_cant": "unbounded chains and interleavings; tests for exceptions put subscribe_on directly on the source", "anchors": ["src/rpp/rpp/operators/subscribe_on.hpp:subscribe_on_schedulable", "src/rpp/rpp/observables/details/chain_strategy.hpp:chain::subscribe", "src/rpp/rpp/sources/create.hpp:create", "src/rpp/rpp/sources/defer.hpp:defer_strategy"]}
{"id": "C90", "title": "No leaks: dropped pipelines are released", "statement": "However operators, subjects, observers and disposables are put together, the objects they own never form a ring of shared ownership, so whatever the user no longer reaches is freed as soon as the last handle is dropped; a ring arises exactly when the user stores a handle into an object it is reachable from, or when a retry-like operator keeps an observable that owns the subject its own observer is subscribed to.", "quantifier": "any number and order of subscriptions, operators, inner observables, groups and subject subscriptions; any set of handles kept", "why_tests_cant": "the ownership graph is unbounded, and tests only look at a few copy/move counters and weak pointers", "anchors": ["src/rpp/rpp/observers/observer.hpp:set_upstream", "src/rpp/rpp/disposables/refcount_disposable.hpp:refcount_disposable::add_ref", "src/rpp/rpp/disposables/disposable_wrapper.hpp:as_weak", "src/rpp/rpp/operators/merge.hpp:merge_state", "src/rpp/rpp/operators/retry.hpp:retry_state_t", "src/rpp/rpp/subjects/details/subject_state.hpp:subject_state"]}
{"id": "C91", "title": "Disposing a subscription reaches every source under it", "statement": "Whatever a source gives to an observer standing on top of a subscriber - through any number of operators, as the main source, as an inner observable or as a further attempt - is disposed when the subscriber's disposable is disposed. Disposing the subscription to a subject, a group, a window or a ref_count takes the subscriber off it. The disposables an observer puts its source's disposable into exist as long as the observer does.", "quantifier": "operator chains of any length and shape, any number of inner observables and attempts, anything else going on before or after", "why_tests_cant": "compositions are unbounded; tests check one operator with one source at a time", "anchors": ["src/rpp/rpp/observers/observer.hpp:set_upstream", "src/rpp/rpp/disposables/composite_disposable.hpp:add", "src/rpp/rpp/operators/switch_on_next.hpp:switch_on_next_state_t", "src/rpp/rpp/operators/concat.hpp:concat_state_t", "src/rpp/rpp/operators/timeout.hpp:timeout_disposable"]}
{"id": "C92", "title": "Exceptions thrown by subscribing reach the subscriber", "statement": "When the code run by subscribing to an observable throws (create's function, defer's factory, a notifier or selector, whatever a chain calls directly), the exception reaches the subscriber of the operator that subscribed it: as its single on_error, unless it has ended or been disposed before, or out of the subscriber's own subscribe() where that called the code directly. It never ends the process. Holds for concat/repeat/start_with as sources, retry, retry_when, on_error_resume_next, merge and switch_on_next; concat as an operator calls std::terminate when a queued observable throws.", "quantifier": "all sequences of notifications, returns and exceptions at any nesting of calls, any number of attempts or inner observables, disposal at any moment", "why_tests_cant": "which frame catches depends on the whole call stack at the moment of the exception; a test shows one stack, and a failure is the end of the test process", "anchors": ["src/rpp/rpp/sources/concat.hpp:drain", "src/rpp/rpp/operators/retry.hpp:drain", "src/rpp/rpp/operators/retry_when.hpp:retry_when_impl_strategy::on_error", "src/rpp/rpp/operators/on_error_resume_next.hpp:on_error", "src/rpp/rpp/operators/concat.hpp:concat_state_t::drain", "src/rpp/rpp/observers/observer.hpp:on_next"]}
{"id": "C93", "title": "Resubscribing does not grow the stack", "statement": "However often concat, repeat, start_with, retry, retry_when, on_error_resume_next or the concat operator subscribe to a next observable, and whether the observables end inside subscribe() or later, the call stack has a bounded number of the operator's frames, at most one drain loop and at most one attempt being subscribed at a time. (retry_when: if sources and notifiers, while being subscribed, only notify their own observers.) The number of attempts is exact: concat/repeat never subscribe to more observables than there are and complete only after all of them; retry(n) makes at most n + 1 attempts and passes an error on only after that many (or if an attempt's code threw it); an attempt that ends later is followed by the next one at once.", "quantifier": "all sequences of notifications, returns, exceptions and disposals; any number of attempts", "why_tests_cant": "a stack overflow needs very many attempts in one particular mixture of synchronous and asynchronous ends", "anchors": ["src/rpp/rpp/sources/concat.hpp:drain", "src/rpp/rpp/operators/retry.hpp:drain", "src/rpp/rpp/operators/retry_when.hpp:drain", "src/rpp/rpp/operators/concat.hpp:concat_state_t::drain"]}
{"id": "C94", "title": "Disposing a subscription from other threads", "statement": "While a source emits in one thread through any pipeline of single-source operators, other threads may call dispose() of the subscription at any moment, and so may the subscriber's own callbacks. The subscriber is shown a beginning of what it would have been shown without interference, and all of it if no other thread has called dispose(). Once a dispose() has returned, calls the source makes afterwards run neither the subscriber's callbacks nor the functions given to operators; once a dispose() called in a callback has returned, no callback begins. No disposable is released twice, and when no dispose() is still running, every disposable handed over before or after, and every finally callback, has been released exactly once. (That no callback begins after dispose() returned in another thread is false: at most one does.)", "quantifier": "all pipelines of single-source operators, all sources (also ones breaking the protocol), all subscribers (throwing, disposing), any number of disposing threads, all interleavings of their steps with the emitting thread's accesses to the shared state", "why_tests_cant": "the outcome depends on where between two instructions of the emitting thread another thread's dispose() falls; a stress test hits a few of the interleavings and cannot show that none of the others loses a disposable or a value", "anchors": ["src/rpp/rpp/observers/observer.hpp:observer_impl", "src/rpp/rpp/disposables/composite_disposable.hpp:dispose_impl", "src/rpp/rpp/disposables/composite_disposable.hpp:add", "src/rpp/rpp/operators/details/strategy.hpp:lift_operator"]}
{"id": "C95", "title": "Threads do not deadlock on the library's mutexes", "statement": "Any number of threads may emit values, complete, fail, subscribe, connect, dispose subscriptions and schedule work in a network of operators, subjects and schedulers at the same time. If no cycle of calls contains one that an operator makes while holding a mutex (plain chains and trees of operators have no cycle at all), then a thread waiting for one of the library's mutexes waits, possibly through others, for a thread that can go on; in particular no thread waits for itself and no two for each other. (Disposing and scheduling may be called from anywhere.)", "quantifier": "all networks, any number of threads, all programs of the threads and callbacks, all interleavings", "why_tests_cant": "a deadlock needs two threads to be between two particular locks at the same time, or an unusual wiring of the same subject into two places; a test that passes shows only that this did not happen", "anchors": ["src/rpp/rpp/operators/take_until.hpp:is_disposed", "src/rpp/rpp/subjects/details/subject_state.hpp:base_dispose_impl", "src/rpp/rpp/subjects/details/subject_state.hpp:cleanup_observers", "src/rpp/rpp/schedulers/new_thread.hpp:data_thread", "src/rpp/rpp/operators/merge.hpp:get_observer_under_lock", "src/rpp/rpp/utils/utils.hpp:value_with_mutex", "src/rpp/rpp/operators/debounce.hpp:debounce_state"]}
{"id": "C96", "title": "A subscriber's callbacks do not overlap", "statement": "The sources of a network of operators and subjects may run in any threads. No observer is run by two threads at the same time if the values reach it through an operator with several sources (merge, zip, combine_latest, with_latest_from, take_until, switch_on_next, concat, timeout, window_toggle, debounce) or a serialized subject followed by any chain of operators, each having one upstream; or if everything that reaches it comes from one thread.", "quantifier": "all networks, any number of threads, all programs of threads and callbacks, all interleavings", "why_tests_cant": "whether two callbacks overlap depends on the interleaving; a stress test that sees no overlap has tried a few", "anchors": ["src/rpp/rpp/utils/utils.hpp:value_with_mutex", "src/rpp/rpp/operators/merge.hpp:get_observer_under_lock", "src/rpp/rpp/operators/details/combining_strategy.hpp:combining_observer_strategy", "src/rpp/rpp/subjects/details/subject_state.hpp:on_next", "src/rpp/rpp/operators/take_until.hpp:get_observer"]}
{"id": "C97", "title": "No data race on the disposed flag of a subscriber", "statement": "The observer made for a subscriber by subscribe(lambda) has a flag 'disposed', a plain bool or an atomic one depending on the chain of operators it is subscribed to. Two threads never access a plain flag at the same time with one of them setting it, whichever threads the sources and schedulers of the chain use.", "quantifier": "for every chain of operators, every number of threads and sources, every network of calls that fits the chain, and every interleaving", "why_tests_cant": "The flag's type is computed at compile time from the chain; the race needs two threads in a window of a few instructions, and a plain bool usually behaves as expected on the machine a test runs on.", "anchors": ["src/rpp/rpp/observers/details/disposable_strategy.hpp:atomic_bool", "src/rpp/rpp/observers/details/disposable_strategy.hpp:non_atomic_bool", "src/rpp/rpp/observers/details/disposable_strategy.hpp:local_disposable_strategy", "src/rpp/rpp/observables/details/disposable_strategy.hpp:fixed_disposable_strategy_selector", "src/rpp/rpp/observables/details/disposable_strategy.hpp:default_disposable_strategy_selector", "src/rpp/rpp/operators/delay.hpp:delay_observer_strategy::is_disposed", "src/rpp/rpp/operators/delay.hpp:delay_t::updated_disposable_strategy", "src/rpp/rpp/subjects/details/subject_state.hpp:expected_disposable_strategy"]}
{"id": "C98", "title": "Nobody is handed a value that was moved from", "statement": "The operators move values instead of copying them. Nevertheless no user function (map's, filter's, scan's, zip's selector ...) and no subscriber is ever handed a variable that has already been moved from: through any chain of single-source operators the subscriber is shown exactly what the operators mean, also when functions throw, when take_last or buffer give their storage away, and when notifications keep coming after the end. zip hands moved-from values to its selector if the selector has thrown and another source's thread notifies before the error is delivered.", "quantifier": "all pipelines of single-source operators, all sequences of calls of the source, all functions (throwing or not), all reactions of the subscriber; for zip all interleavings of any number of sources with a selector that does not throw", "why_tests_cant": "a moved-from int or small string keeps its value, so tests with such types cannot see the error; and the bad case needs an exception at a particular moment between two threads", "anchors": ["src/rpp/rpp/operators/scan.hpp:on_next", "src/rpp/rpp/operators/reduce.hpp:on_completed", "src/rpp/rpp/operators/take_last.hpp:on_completed", "src/rpp/rpp/operators/buffer.hpp:on_next", "src/rpp/rpp/operators/last.hpp:on_completed", "src/rpp/rpp/operators/zip.hpp:zip_observer_strategy::apply_impl"]}
{"id": "C99", "title": "Subscriptions that share a disposable or an observer end together", "statement": "Several subscriptions can be made with one composite_disposable, or with copies of one dynamic_observer. Once the disposable is disposed of, or any one of these subscriptions has had its on_error or on_completed, no callback of any of them is entered in a call that begins later; every upstream any of them was given, before or after, is disposed of; nothing is subscribed with it any more; and subscriptions which do not share it go on. An error for a subscription without an error callback terminates the program. subscribe(d, observer) violates this in two ways: it subscribes the source although the observer has ended, and if on_next of the observer throws, d is never disposed of.", "quantifier": "any number of subscriptions, any sharing of disposables and observers, any number of threads and calls (also nested in callbacks), every interleaving", "why_tests_cant": "which subscriptions share what, and how calls of different threads interleave with the end of one of them, is unbounded", "anchors": ["src/rpp/rpp/observables/observable.hpp:subscribe", "src/rpp/rpp/operators/subscribe.hpp:subscribe_t", "src/rpp/rpp/observers/observer.hpp:observer_impl", "src/rpp/rpp/observers/dynamic_observer.hpp:dynamic_observer", "src/rpp/rpp/utils/functors.hpp:rethrow_error_t"]}
{"id": "C100", "title": "delay and observe_on change when and where notifications are seen, not which ones", "statement": "Take any pipeline and insert any number of delay and observe_on anywhere in it. Whatever the schedulers do, what the subscriber has seen at any moment is a beginning of what it would have seen from the same pipeline without them; once nothing is left to do it has seen all of it, and that point can always be reached by the workers alone. An operator that finishes early (take) may close the pipeline in front of it without costing the subscriber anything. (Exception: an error that passes an observe_on overtakes the values waiting there.). Once the subscription is made, every piece gets one call at a time, although the pieces run on different threads.", "quantifier": "for all pipelines of the modelled clock-free operators, all numbers and places of delay/observe_on with all durations, all sources, all subscriber callbacks (throwing, disposing), all interleavings of source, workers, clocks and disposals", "why_tests_cant": "Tests put one delay or observe_on behind one source and run one interleaving with a test scheduler; the claim is about every combination of stages and every order in which several workers, clocks and disposals interleave.", "anchors": ["src/rpp/rpp/operators/delay.hpp:delay_observer_strategy", "src/rpp/rpp/operators/delay.hpp:drain_queue", "src/rpp/rpp/observables/details/chain_strategy.hpp:chain", "src/rpp/rpp/observers/observer.hpp:observer_impl", "src/rpp/rpp/operators/observe_on.hpp:observe_on"]}
{"id": "C101", "title": "Operators keep no more values than they need", "statement": "Between two notifications a pipeline holds at most n values for each take_last(n), n-1 for each buffer(n), one for each last, scan, reduce and distinct_until_changed, and none for the other operators (distinct holds each different value once); a replay_subject(n) holds at most max(1, n). zip holds of each source exactly what it has sent beyond the rows made, so of one source nothing, and stops storing values when a source has completed and nothing more can be emitted.", "quantifier": "for all pipelines, all sources and observers; all subjects' histories; all numbers of sources of zip and all interleavings", "why_tests_cant": "Tests look at what is emitted, not at what is kept, and only for a few short inputs; a slow leak shows up only in unbounded runs.", "anchors": ["src/rpp/rpp/operators/take_last.hpp:take_last_observer_strategy", "src/rpp/rpp/operators/buffer.hpp:buffer_observer_strategy", "src/rpp/rpp/operators/zip.hpp:zip_observer_strategy", "src/rpp/rpp/operators/details/combining_strategy.hpp:combining_state::decrement_on_completed", "src/rpp/rpp/subjects/replay_subject.hpp:replay_state::add_value"]}
{"id": "C102", "title": "Nested expressions of combining operators mean what their parts mean", "statement": "Take any expression built from sources, pipelines of single-source operators, merge_with, zip, combine_latest, with_latest_from, take_until, delay, flat_map, concat, start_with, repeat, retry, and on_error_resume_next (behind an observable that makes no call after an error, see C109), nested in any way, and let any number of threads drive the sources and the operators in any order. At every moment the subscriber has seen a grammatical sequence that the meanings of the operators allow for the sequences of the sources: an interleaving for merge, position by position for zip, and so on up the tree. What it has seen is never taken back. When nothing is left to do and nobody disposed of anything other than because a sequence had ended, nothing is missing: every operator has used the whole sequence of each of its operands. And nothing gets stuck (repeat and retry being given a number): from every point of every execution without disposals, the operators and the subscriber alone, without any further notification from a source, can come to a point where nothing is left to do and the subscriber has seen a complete result.", "quantifier": "for all expression trees of any depth and width over the modelled operators, all selectors and callbacks (throwing, disposing), all sources, all interleavings of all threads, all disposals", "why_tests_cant": "Tests combine two or three operators and play one interleaving of one thread or two; the claim is about every tree of operators and every schedule of all the threads inside it.", "anchors": ["src/rpp/rpp/operators/merge.hpp:merge_with_t", "src/rpp/rpp/operators/merge.hpp:merge_observer_inner_strategy", "src/rpp/rpp/operators/zip.hpp:zip_observer_strategy", "src/rpp/rpp/operators/combine_latest.hpp:combine_latest_observer_strategy", "src/rpp/rpp/operators/with_latest_from.hpp:with_latest_from_observer_strategy", "src/rpp/rpp/operators/take_until.hpp:take_until_observer_strategy", "src/rpp/rpp/operators/delay.hpp:delay_observer_strategy", "src/rpp/rpp/observables/details/chain_strategy.hpp:chain", "src/rpp/rpp/operators/flat_map.hpp:flat_map"]}
{"id": "C103", "title": "flat_map interleaves its inner observables, and on one thread it is a monad", "statement": "q | flat_map(f) subscribes to f(x) for each value x of q, in their order. At every moment, whatever threads drive q, the inner observables and the operator, the observer was told an interleaving of beginnings of the inner sequences; it is told of completion only when q and all inner observables have completed and after all their values, and of an error only if q or an inner observable has failed with it. When nothing is left to do and nobody has disposed, nothing is missing. If everything happens on one thread and each inner observable says all it has to say while it is subscribed to, the observer is told the inner sequences one after the other up to the first error; then just(x) | flat_map(f) is f(x), q | flat_map(just) is q, and q | flat_map(f) | flat_map(g) is q | flat_map(x -> f(x) | flat_map(g)).", "quantifier": "for all expressions q and f(x) (which may contain flat_map again), all values, all schedules of any number of threads; for the laws: all sequences of q and of the inner observables", "why_tests_cant": "The number of inner observables and their interleavings are unbounded, and the inner expressions are arbitrary; tests fix a few sources and one order.", "anchors": ["src/rpp/rpp/operators/flat_map.hpp:flat_map", "src/rpp/rpp/operators/merge.hpp:merge_observer_strategy", "src/rpp/rpp/operators/merge.hpp:merge_observer_inner_strategy", "src/rpp/rpp/operators/merge.hpp:merge_observer_base_strategy", "src/rpp/rpp/operators/merge.hpp:merge_state"]}
{"id": "C104", "title": "concat, start_with, repeat, retry and on_error_resume_next put observables one after the other", "statement": "source::concat(k0, ..., kn) (and start_with, and repeat(n + 1)) subscribes to one observable at a time: to the next one only after the one before has completed, and the later ones are untouched until then. At every moment, whatever threads drive the observables, the observer was told all values of those that have completed, in their order, and a beginning of the present one's sequence; it is told of completion only after the last one has completed, and an error of one of them ends everything. repeat() never completes. retry(n) subscribes again after an error, n + 1 times at most; its observer is told the values of all attempts one after the other and an error only if attempt n + 1 has failed; retry() never tells of an error. q | on_error_resume_next(f), for a q that makes no call after an error (see C109), tells a beginning of q's sequence, and once q has failed with e, all values of q and then a beginning of the sequence of f(e), whose error is final. When nothing is left to do and nobody has disposed, nothing is missing. All this for observables that are arbitrary expressions, in which these operators may occur again.", "quantifier": "for all expressions as operands (with any nesting of the modelled operators), all numbers of operands and attempts, all sequences, all schedules of any number of threads", "why_tests_cant": "The operands are arbitrary expressions driven by arbitrary threads, and the number of subscriptions is unbounded; tests use a few fixed sources.", "anchors": ["src/rpp/rpp/sources/concat.hpp:concat_source_observer_strategy", "src/rpp/rpp/sources/concat.hpp:drain", "src/rpp/rpp/operators/start_with.hpp:start_with_t", "src/rpp/rpp/operators/repeat.hpp:repeat_t", "src/rpp/rpp/operators/retry.hpp:retry_observer_strategy", "src/rpp/rpp/operators/retry.hpp:drain", "src/rpp/rpp/operators/on_error_resume_next.hpp:on_error_resume_next_observer_strategy"]}
{"id": "C105", "title": "from_signal turns a Qt signal into a hot observable", "statement": "from_signal(object, signal) returns an observable whose observers are told exactly the emissions of that signal that come after their subscription, in order, until they leave; when the object is destroyed they are told of completion, and an observer that subscribes afterwards is told of completion at once. Emissions before the subscription, of other signals or of other objects, other observers coming, leaving or throwing, and other observables made from the same signal are of no consequence.", "quantifier": "for all histories of calls of from_signal, emissions, destructions, subscriptions and disposals, all callbacks", "why_tests_cant": "Unit tests use one object, one signal and one observer; the claim is about every interleaving of emissions, subscriptions and destruction over any number of them.", "anchors": ["src/extensions/rppqt/rppqt/sources/from_signal.hpp:from_signal", "src/extensions/rppqt/rppqt/sources/from_signal.hpp:from_signal_on_event", "src/rpp/rpp/subjects/publish_subject.hpp:publish_subject"]}
{"id": "C106", "title": "Operators fed by their own subscriber", "statement": "A subscriber whose callbacks push further values (or the end) into the very source it is subscribed to (a feedback loop through a subject) sees of a chain of single-source operators exactly what it would see if the same values had arrived one after the other in the order in which they entered the chain: take(n) delivers n values and completes, first and element_at deliver one value, throttle keeps its distance, buffer makes buckets of the size asked for and loses nothing.", "quantifier": "every pipeline of single-source operators, every re-entrant history (nested feeding to any depth, disposing and throwing callbacks)", "why_tests_cant": "The nesting depth, the points at which callbacks feed the source and the combinations of operators are unbounded; tests of operators feed them from outside only.", "anchors": ["src/rpp/rpp/operators/take.hpp:take_observer_strategy", "src/rpp/rpp/operators/first.hpp:first_observer_strategy", "src/rpp/rpp/operators/element_at.hpp:element_at_observer_strategy", "src/rpp/rpp/operators/throttle.hpp:throttle_observer_strategy", "src/rpp/rpp/operators/buffer.hpp:buffer_observer_strategy", "src/rpp/rpp/operators/scan.hpp:scan_observer_strategy", "src/rpp/rpp/operators/distinct.hpp:distinct_observer_strategy", "src/rpp/rpp/observers/observer.hpp:observer", "src/rpp/rpp/subjects/details/subject_state.hpp:subject_state"]}
{"id": "C107", "title": "All observers of a subject see the same order", "statement": "Two observers of a subject that are both told two emissions are told them in the same order; what a behavior_subject or replay_subject repeats to a new observer is in the order the others were told.", "quantifier": "any number of observers and of concurrently or recursively emitting callers, every interleaving, observers coming and going", "why_tests_cant": "the disagreement needs two emissions that overlap at a particular instruction; a test sees a handful of interleavings", "anchors": ["src/rpp/rpp/subjects/details/subject_state.hpp:on_next", "src/rpp/rpp/subjects/details/subject_state.hpp:on_error", "src/rpp/rpp/subjects/details/subject_state.hpp:on_completed", "src/rpp/rpp/subjects/details/subject_state.hpp:m_serialized_mutex", "src/rpp/rpp/subjects/behavior_subject.hpp:observer_strategy::on_next", "src/rpp/rpp/subjects/replay_subject.hpp:observer_strategy::on_next", "src/rpp/rpp/subjects/replay_subject.hpp:get_observable"]}
{"id": "C108", "title": "group_by and window fed by their own subscribers", "statement": "A subscriber that pushes values into the source, or ends it, from inside a callback of group_by or window (an announcement, a value or the end of a group or window) still gets one group per key with all values of the key in order, and windows of the given size with all values in order, each ended once.", "quantifier": "every sequence of values, every nesting of pushes and returns, every key selector and window size", "why_tests_cant": "the state is inconsistent only between particular statements of on_next; which nesting exposes it depends on key, size and depth", "anchors": ["src/rpp/rpp/operators/group_by.hpp:on_next", "src/rpp/rpp/operators/group_by.hpp:on_completed", "src/rpp/rpp/operators/group_by.hpp:deduce_observer", "src/rpp/rpp/operators/window.hpp:on_next", "src/rpp/rpp/operators/window.hpp:on_completed"]}
{"id": "C109", "title": "An observable that has failed is let go", "statement": "source | p | on_error_resume_next(sel): once the chain has failed with e, sel(e) is called, once, and from then on the subscriber hears the observable it returned and nothing else, whatever the source and the other operators above do and whenever the replacement emits. source | p | retry_when(notif): once an attempt has failed, nothing of it is heard any more, and the subscriber hears again when the notifier has asked for another attempt.", "quantifier": "every pipeline of single-source operators with throwing or non-throwing functions, every source that obeys the contract, every selector (throwing or not), every interleaving of the source's and the replacements' calls", "why_tests_cant": "the tests use sources that fail by themselves and replacements that finish at once; it takes an operator that fails while its source goes on (a throwing function, take followed by first, merge with another operand) and a replacement that is not finished yet", "anchors": ["src/rpp/rpp/operators/on_error_resume_next.hpp:on_error_resume_next_observer_strategy::on_error", "src/rpp/rpp/operators/on_error_resume_next.hpp:is_disposed", "src/rpp/rpp/operators/retry_when.hpp:retry_when_impl_strategy::on_error", "src/rpp/rpp/operators/retry_when.hpp:is_disposed", "src/rpp/rpp/observers/observer.hpp:observer_impl::on_error", "src/rpp/rpp/observers/observer.hpp:on_next"]}
{"id": "C110", "title": "run_loop's dispatch() sleeps while there is nothing to do and is woken when there is", "statement": "A thread inside run_loop::dispatch() sleeps as long as no task is due or cancelled, and no wake-up is lost: whenever a dispatch() sleeps, every task in the queue is looked after by another dispatch() that is awake or by a schedule() that has yet to notify; so when all schedule() calls have returned and everybody inside dispatch() sleeps, the queue is empty.", "quantifier": "for any number of threads calling schedule(), dispatch() and dispatch_if_ready(), all time points, all interleavings of their critical sections and notifications, all choices of which sleeper a notification wakes, all spurious wake-ups and all disposals of handlers", "why_tests_cant": "A lost wake-up needs a particular interleaving of a critical section and a notification after it; a busy loop is invisible in the results of a test, which only sees the task run in time.", "anchors": ["src/rpp/rpp/schedulers/run_loop.hpp:run_loop::state_t::emplace_and_notify", "src/rpp/rpp/schedulers/run_loop.hpp:run_loop::state_t::pop", "src/rpp/rpp/schedulers/run_loop.hpp:run_loop::dispatch"]}
{"id": "C111", "title": "A cancelled task lets its new_thread thread go", "statement": "When the worker objects of a new_thread worker are gone, no task is running and the handler of every task that still waits is disposed of, the thread ends and the tasks, with everything they have captured (the observer of the subscription among it), are released, without time having to pass: disposing of interval(1h, new_thread) does not keep a thread and the subscriber for an hour.", "quantifier": "for all tasks and times, all orders of scheduling, dropping the worker, disposing of handlers and waking up, all interleavings", "why_tests_cant": "Tests look at what the observer sees; a thread that sleeps on for a task that will never run is not seen, and depends on whether the handler is disposed of before or after the thread has fallen asleep.", "anchors": ["src/rpp/rpp/schedulers/new_thread.hpp:new_thread::state_t::data_thread", "src/rpp/rpp/schedulers/new_thread.hpp:new_thread::state_t::~state_t", "src/rpp/rpp/sources/interval.hpp:interval_strategy::subscribe"]}
{"id": "C112", "title": "Several ref_count()s and connect() by hand on one connectable observable", "statement": "When ref_count() is called more than once on a connectable observable, or connect() is called by hand as well, the source is still subscribed at most once at a time, everybody who listens gets every value emitted while it is, a connection made by hand is not taken down by subscribers, and while somebody listens through a ref_count() the source, as long as it has not ended, is subscribed.", "quantifier": "for any number of ref_count()s, subscriptions and connect() calls, in any order, with any disposals of what connect() was given or returned, and any emissions", "why_tests_cant": "The tests use one ref_count() and either connect() or ref_count(); the combinations and orders are unbounded.", "anchors": ["src/rpp/rpp/observables/connectable_observable.hpp:ref_count_on_subscribe_t", "src/rpp/rpp/observables/connectable_observable.hpp:connectable_observable::connect", "src/rpp/rpp/observables/connectable_observable.hpp:connectable_observable::ref_count"]}
{"id": "C113", "title": "Waiting with as_blocking does not stop the thread that has to deliver", "statement": "A subscription through as_blocking() returns as soon as what it waits for has ended; a thread never waits for a source which only this very thread can run. Precisely: for code which subscribes to sources on current_thread, under as_blocking() or not, from the thread's own code and from callbacks, the thread hangs if and only if it comes to a subscribe which waits while the thread owns the queue of current_thread. A thread owning no queue whose callbacks use no as_blocking(), and which puts as_blocking() only at the end of chains containing merge and the like, never hangs, and when it is done every source it subscribed to has ended.", "quantifier": "for all codes of all callbacks (any number of sources, each with any number of turns, each turn with any subscriptions), for threads with and without an owned queue at the start, and for all numbers of steps", "why_tests_cant": "Whether a wait returns depends on where in the call stack it is made; a test covers one nesting and a hanging test shows nothing but a timeout, and that no other nesting hangs cannot be tested at all.", "anchors": ["src/rpp/rpp/observables/blocking_observable.hpp:blocking_strategy::subscribe", "src/rpp/rpp/operators/as_blocking.hpp:as_blocking", "src/rpp/rpp/schedulers/current_thread.hpp:worker_strategy::defer_for", "src/rpp/rpp/schedulers/current_thread.hpp:own_queue_guard", "src/rpp/rpp/observables/details/chain_strategy.hpp:own_current_thread_if_needed", "src/rpp/rpp/schedulers/new_thread.hpp:data_thread"]}
{"id": "C114", "title": "Which exceptions of user code end the process", "statement": "An exception thrown by a function the user hands to a chain of operators - the function of map, filter, scan and so on, the functions of tap, the callbacks of the subscriber - does not end the process. Precisely: it ends the process if and only if it is thrown by the second or third function of a tap (called upon an error, a completion) or by the subscriber's on_error or on_completed; exceptions from all other functions become on_error. A subscriber without an on_error of its own ends the process exactly when what the chain delivers ends with an error. As long as the process lives, handlers that could throw change nothing.", "quantifier": "for all chains of the modelled operators and of taps, for all functions in them, all callbacks of the subscriber (which may depend on everything seen so far, throw and dispose), all capacities of the disposable container and all calls of the source", "why_tests_cant": "std::terminate ends the test process; a test shows one chain with one throwing function, not that no other place in any chain ends the process.", "anchors": ["src/rpp/rpp/observers/observer.hpp:observer_impl::on_error", "src/rpp/rpp/observers/observer.hpp:observer_impl::on_completed", "src/rpp/rpp/observers/observer.hpp:observer_impl::on_next", "src/rpp/rpp/operators/tap.hpp:tap_observer_strategy", "src/rpp/rpp/observers/fwd.hpp:make_lambda_observer", "src/rpp/rpp/operators/subscribe.hpp:subscribe"]}
{"id": "C115", "title": "What the subscribers of a shared source get", "statement": "Through source | publish() | ref_count(), or multicast(subject) with ref_count() or connect(), a subscriber gets first what the subject remembers (nothing, the latest value, the most recent values; of earlier connections, too) and then everything the source calls while it is connected, including what it calls while it is being subscribed, until the subscriber leaves or the source ends. With ref_count() the source is subscribed exactly while somebody listens. Somebody who subscribes to publish() | ref_count() when nobody else listens gets what subscribing to the source itself gives; somebody who comes after the source has ended gets the end only.", "quantifier": "for all subjects of the three kinds, all sources, cold or hot, different at each subscription, all subscribers whose callbacks leave or throw at any value, and all sequences of subscriptions, departures, connections and emissions", "why_tests_cant": "The emissions of a cold source happen inside connect(), inside subscribe() of ref_count(), where the departure of a subscriber from its callback disposes of the connection being made; tests try a few orders of these.", "anchors": ["src/rpp/rpp/observables/connectable_observable.hpp:ref_count_on_subscribe_t", "src/rpp/rpp/observables/connectable_observable.hpp:connect", "src/rpp/rpp/operators/multicast.hpp:multicast", "src/rpp/rpp/operators/publish.hpp:publish", "src/rpp/rpp/operators/ref_count.hpp:ref_count"]}
{"id": "C116", "title": "Workers of a thread pool created by several threads", "statement": "create_worker() of one thread_pool (or of computational, which is one thread_pool for the whole process) may be called from several threads: each call gives a worker of the pool, and the workers are distributed round-robin, so that the loads of the threads differ by at most one.", "quantifier": "for all pool sizes, all numbers of calling threads and all interleavings of the reads and writes of their calls", "why_tests_cant": "Calls must overlap between the read and the write of a counter, a few instructions.", "anchors": ["src/rpp/rpp/schedulers/thread_pool.hpp:state::get", "src/rpp/rpp/schedulers/thread_pool.hpp:create_worker", "src/rpp/rpp/schedulers/computational.hpp:create_worker"]}
{"id": "C117", "title": "Tasks of thread pools that wait for other tasks do not hang", "statement": "Subscribing to source | subscribe_on(scheduler) | as_blocking() from within a task returns when the source has ended, so programs made of tasks that start sources on new_thread, thread_pool or computational, and wait for some of them, run to their end.", "quantifier": "for all programs (nested to any depth), all numbers and sizes of pools and all interleavings of the threads", "why_tests_cant": "Whether a source is queued behind the task that waits for it depends on the number of threads, on the number of workers created before and on the interleaving; a test that passes with eight threads hangs with four.", "anchors": ["src/rpp/rpp/observables/blocking_observable.hpp:subscribe", "src/rpp/rpp/schedulers/thread_pool.hpp:state::get", "src/rpp/rpp/schedulers/new_thread.hpp:data_thread", "src/rpp/rpp/operators/subscribe_on.hpp:subscribe"]}
{"id": "C118", "title": "as_dynamic changes nothing a subscriber can see", "statement": "Erasing the type of an observable or of an observer with as_dynamic(), at any places of a chain of operators, changes nothing about the notifications the subscriber gets, whatever its callbacks do; nothing about what is disposed of and when, either, except that a source whose subscriber has left before (at the seed of scan) is subscribed without as_dynamic and is not subscribed with it.", "quantifier": "for all chains of operators, all places and numbers of as_dynamic, all sources and all callbacks", "why_tests_cant": "Tests compare a few chains; the erased observer checks is_disposed once more, disposes of upstreams itself and keeps disposables in a container of another kind.", "anchors": ["src/rpp/rpp/observers/dynamic_observer.hpp:dynamic_strategy", "src/rpp/rpp/observables/dynamic_observable.hpp:dynamic_strategy", "src/rpp/rpp/observables/observable.hpp:subscribe", "src/rpp/rpp/observables/details/chain_strategy.hpp:subscribe"]}
{"id": "C119", "title": "Sources without an end stop with their subscriber", "statement": "from_iterable of a container that has no end (or whose elements are made one by one when they are read) comes to an end as soon as the subscriber has had enough: as soon as the chain of operators has told it the end, or it disposed of the subscription or threw. It goes on for ever only if no number of first values is enough. No element is made that the subscriber does not need.", "quantifier": "for all containers, finite or not, all chains of operators, all callbacks, the immediate and every queueing scheduler, and disposal from outside at any moment", "why_tests_cant": "A test can only use a few chains, and cannot wait for ever; which element is read last is not visible with the vectors tests use.", "anchors": ["src/rpp/rpp/sources/from.hpp:from_iterable_strategy::subscribe", "src/rpp/rpp/sources/from.hpp:from_iterable_schedulable", "src/rpp/rpp/utils/utils.hpp:infinite_repeated_container"]}
{"id": "C120", "title": "concat, repeat and retry end with their subscriber", "statement": "If all observables hand over their values inside subscribe, the loop of source::concat, repeat and retry returns as soon as the subscriber has had enough (the chain behind has ended or it disposed or threw): the observables after the one that handed over the last needed value are never subscribed to. repeat() and retry() without a limit return if and only if the values of finitely many subscriptions are enough; so repeat() | take(n) returns if every subscription hands over a value, and never returns if none does. Otherwise the loop returns after the first observable whose end is passed on, or concat completes after its last one. Disposing from outside lets at most one more subscription happen.", "quantifier": "for all sequences of observables, limits, chains of operators and callbacks; disposal from outside at any moment", "why_tests_cant": "A test cannot wait for ever, nor try all chains and sequences of observables.", "anchors": ["src/rpp/rpp/sources/concat.hpp:drain", "src/rpp/rpp/sources/concat.hpp:concat_source_observer_strategy", "src/rpp/rpp/operators/retry.hpp:drain", "src/rpp/rpp/operators/repeat.hpp:infinite_repeat_t"]}
{"id": "C121", "title": "merge, concat and switch_on_next on one thread are one list after the other, and end with their subscriber", "statement": "If an outer source hands over observables one after the other on one thread and each of them hands over all its values inside subscribe, merge, concat and switch_on_next (and flat_map) show the values of the inner observables one after the other up to the first error. The subscriber is told of completion if and only if all of them have completed (for switch_on_next: the last one). As soon as the subscriber has had enough no further inner observable is subscribed to and the outer loop ends; with an outer source without an end it ends if and only if the values of finitely many inner observables are enough. The three operators differ only if an inner observable does not end: merge and switch_on_next go on, concat keeps the further ones in its queue, without a bound.", "quantifier": "for all sequences of inner observables, finite or not, all chains of operators and callbacks behind; disposal from outside at any moment", "why_tests_cant": "A test cannot wait for ever, nor try all chains and sequences of observables.", "anchors": ["src/rpp/rpp/operators/merge.hpp:merge_observer_strategy", "src/rpp/rpp/operators/concat.hpp:concat_observer_strategy", "src/rpp/rpp/operators/switch_on_next.hpp:switch_on_next_observer_strategy", "src/rpp/rpp/operators/flat_map.hpp:flat_map_t", "src/rpp/rpp/sources/from.hpp:from_iterable_strategy::subscribe"]}
{"id": "C122", "title": "zip, combine_latest and with_latest_from on one thread: what is shown, and when subscribe returns", "statement": "If the main observable and the other one both hand over all their values inside subscribe, on one thread, the other one is taken to its end before the main one starts. So zip shows the pairs position by position, combine_latest and with_latest_from show every main value with the other's last value, up to an exception of the selector. with_latest_from ends as the main one does; zip and combine_latest complete if and only if both completed; an error of the other one ends everything and no main value is taken. As soon as the subscriber has had enough no further main value is taken and subscribe returns; with a main observable without an end it returns if and only if finitely many main values are enough. An other observable without an end is never left, and zip stores its values for ever; zip with an endless main observable goes on, and stores every value, after the other one has run out.", "quantifier": "for all pairs of observables, finite or not, all selectors, chains of operators and callbacks behind", "why_tests_cant": "A test cannot wait for ever, nor try all chains, selectors and pairs of observables.", "anchors": ["src/rpp/rpp/operators/zip.hpp:zip_observer_strategy", "src/rpp/rpp/operators/combine_latest.hpp:combine_latest_observer_strategy", "src/rpp/rpp/operators/with_latest_from.hpp:with_latest_from_observer_strategy", "src/rpp/rpp/operators/details/combining_strategy.hpp:combining_operator_t::subscribe_impl", "src/rpp/rpp/sources/from.hpp:from_iterable_strategy::subscribe"]}
{"id": "C123", "title": "delay, observe_on, debounce and timeout on a scheduler that runs tasks in the caller", "statement": "Also on the immediate scheduler (and on current_thread where nothing runs yet), whose schedule() runs the task before it returns, subscribing to a source that hands over everything inside subscribe returns, and the subscriber of delay, observe_on, debounce and timeout sees what these operators promise: delay and observe_on everything, not before the period is over; debounce the last value; timeout the source, as long as it is fast enough.", "quantifier": "for all sources, periods, chains of operators and callbacks behind, and all ways the clock may go", "why_tests_cant": "A test that hangs says little, and one with a fast clock may pass; whether the whole of a source is lost depends on where the thread sleeps, for every source and period.", "anchors": ["src/rpp/rpp/operators/delay.hpp:delay_observer_strategy", "src/rpp/rpp/operators/observe_on.hpp:observe_on", "src/rpp/rpp/operators/debounce.hpp:debounce_state::emplace_safe", "src/rpp/rpp/operators/timeout.hpp:timeout_t::lift_with_disposable_strategy", "src/rpp/rpp/schedulers/immediate.hpp:worker_strategy::defer_for", "src/rpp/rpp/schedulers/details/utils.hpp:immediate_scheduling_while_condition"]}
{"id": "C124", "title": "retry_when and on_error_resume_next return and show every attempt in order", "statement": "If the source and the observables made by the notifier or the selector hand over everything inside subscribe, subscribing to retry_when returns as soon as the subscriber has had enough, an attempt does not fail, or the notifier does not ask for another attempt; the subscriber sees the values of all attempts one after another and then the source's completion or the notifier's end or exception. If the notifier always asks again, subscribe returns if and only if finitely many attempts are all the subscriber needs. on_error_resume_next always returns, asks its selector at most once, and goes on with the selected observable, whose own error is passed on.", "quantifier": "for all sources, also ones that differ from attempt to attempt, all notifiers and selectors, also ones that throw, all chains of operators and callbacks behind, and any number of attempts", "why_tests_cant": "A test makes a few attempts; that the loop neither stops early nor asks once too often is a statement about every sequence of attempts, and that it never returns cannot be observed.", "anchors": ["src/rpp/rpp/operators/retry_when.hpp:drain", "src/rpp/rpp/operators/retry_when.hpp:retry_when_impl_strategy::on_error", "src/rpp/rpp/operators/retry_when.hpp:retry_when_impl_inner_strategy::on_next", "src/rpp/rpp/operators/on_error_resume_next.hpp:on_error_resume_next_observer_strategy::on_error"]}
{"id": "C125", "title": "take_until with a trigger that speaks at once takes nothing; with a silent one, everything", "statement": "take_until subscribes to its trigger first. If the trigger hands over a value or ends inside subscribe, subscribing returns, no value of the main observable and at most one of the trigger is taken, even if both are endless, and the subscriber sees a completion or the trigger's error. If the trigger says nothing, the subscriber sees the main observable as if take_until were not there; if that is endless, subscribe returns if and only if finitely many values are all the subscriber needs.", "quantifier": "for all triggers and main observables, finite or endless, with any end or none, all chains of operators and callbacks behind", "why_tests_cant": "That an endless trigger is left after one value, and that subscribing to an endless main observable does not return, cannot be observed by a finite test; a test has one chain behind.", "anchors": ["src/rpp/rpp/operators/take_until.hpp:take_until_t::lift", "src/rpp/rpp/operators/take_until.hpp:take_until_throttle_observer_strategy::on_next", "src/rpp/rpp/operators/take_until.hpp:take_until_observer_strategy::on_next", "src/rpp/rpp/operators/take_until.hpp:take_until_observer_strategy_base"]}
{"id": "C126", "title": "zip, combine_latest, with_latest_from and take_until of two containers take turns by default", "statement": "Two from_iterable (just) observables on current_thread, their default scheduler, combined by zip, combine_latest or with_latest_from take turns, the other observable first: zip shows the pairs by position, with_latest_from every main value with the other's latest value of the same round (or its last one), combine_latest in each round the other's new value with the previous main value and then the new main value with it; then a completion, and subscribe returns. take_until of such a trigger shows a completion only.", "quantifier": "for all containers of any lengths (also empty), any time each value takes, selectors that do not throw, and all chains of operators and callbacks behind", "why_tests_cant": "Tests try a few lengths with a fast subscriber; that the order does not depend on how long a callback takes, and is right for all pairs of lengths, needs a proof about the queue.", "anchors": ["src/rpp/rpp/operators/details/combining_strategy.hpp:combining_operator_t", "src/rpp/rpp/operators/zip.hpp:zip_observer_strategy", "src/rpp/rpp/operators/combine_latest.hpp:combine_latest_observer_strategy", "src/rpp/rpp/operators/with_latest_from.hpp:with_latest_from_t", "src/rpp/rpp/operators/take_until.hpp:take_until_t", "src/rpp/rpp/sources/from.hpp:from_iterable_schedulable", "src/rpp/rpp/schedulers/current_thread.hpp:current_thread"]}
{"id": "C127", "title": "Two endless sources combined on current_thread are let go as soon as the subscriber has enough", "statement": "Two from_iterable over containers without end on current_thread, their default scheduler, combined by zip, combine_latest or with_latest_from: subscribe returns if and only if what finitely many turns show is all the subscriber needs; then exactly that many turns are taken, half of them (rounded up) by the other observable, and the callbacks are told exactly what a subscriber to these values is told. In particular any chain starting with take(n) returns. A selector that throws in some turn ends it: if the subscriber has not got enough before, it is told of the error after what was shown, and both sources are let go.", "quantifier": "for all endless value sequences, all selectors (also those that throw), all chains of operators and callbacks behind (also those that dispose)", "why_tests_cant": "A test can run one chain until it stops; it can neither show that every chain which has enough stops without a superfluous value being taken, nor that the others never return.", "anchors": ["src/rpp/rpp/schedulers/current_thread.hpp:drain_queue", "src/rpp/rpp/sources/from.hpp:from_iterable_schedulable", "src/rpp/rpp/operators/details/combining_strategy.hpp:combining_operator_t", "src/rpp/rpp/operators/zip.hpp:zip_observer_strategy", "src/rpp/rpp/operators/combine_latest.hpp:combine_latest_observer_strategy", "src/rpp/rpp/operators/with_latest_from.hpp:with_latest_from_t", "src/rpp/rpp/operators/take.hpp:take_observer_strategy"]}
{"id": "C128", "title": "merge_with of endless sources on current_thread is fair and lets go as soon as the subscriber has enough", "statement": "Any number of from_iterable over containers without end on current_thread, their default scheduler, merged by merge_with, take turns value by value, the main one first: as long as the subscriber has not got enough, after r rounds every source has handed over exactly r values, and they were shown in this order. subscribe returns if and only if what finitely many turns show is all the subscriber needs; then exactly that many turns are taken, and every source has handed over its share only. In particular any chain starting with take(n) returns.", "quantifier": "for any number of sources, all endless value sequences, and all chains of operators and callbacks behind (also those that dispose)", "why_tests_cant": "Starvation and superfluous values show up only for some number of sources, chain and moment of stopping, and no test runs an endless source to its end.", "anchors": ["src/rpp/rpp/operators/merge.hpp:merge_with_t", "src/rpp/rpp/operators/merge.hpp:merge_observer_inner_strategy", "src/rpp/rpp/schedulers/current_thread.hpp:drain_queue", "src/rpp/rpp/sources/from.hpp:from_iterable_schedulable", "src/rpp/rpp/operators/take.hpp:take_observer_strategy"]}
{"id": "C129", "title": "merge_with of finite, empty and endless sources on current_thread goes round by round", "statement": "Any number of from_iterable on current_thread merged by merge_with, each over a finite, empty or endless container: round r shows, in the order of the sources, the value number r of every source that has one; sources that have run out are left alone, and after the last value of all there is exactly one completion. As long as the subscriber has not got enough no round is skipped, and every source which has a value left is waiting to show it; at no moment has any source handed over more than one value more than one that is waiting. subscribe returns if and only if what finitely many rounds show is all the subscriber needs, in particular if all containers are finite.", "quantifier": "for any number of sources of any lengths (also none ending), all values, and all chains of operators and callbacks behind (also those that dispose)", "why_tests_cant": "Combinations of lengths, endless sources and moments at which the subscriber stops are unbounded; a completion counted wrongly shows up only for some of them.", "anchors": ["src/rpp/rpp/operators/merge.hpp:merge_with_t", "src/rpp/rpp/operators/merge.hpp:merge_observer_base_strategy", "src/rpp/rpp/operators/merge.hpp:merge_state", "src/rpp/rpp/schedulers/current_thread.hpp:drain_queue", "src/rpp/rpp/sources/from.hpp:from_iterable_schedulable"]}
{"id": "C130", "title": "Endlessly many endless sources flattened on current_thread are shown diagonal by diagonal", "statement": "merge or flat_map of an endless from_iterable into endless from_iterables, all on current_thread, their default scheduler: the values are shown diagonal by diagonal, round k showing value k-1 of the first inner source, k-2 of the second, ..., the first value of the k-th one, so that no value of any inner source is left out as long as the subscriber has not got enough. subscribe returns if and only if what finitely many rounds show is all the subscriber needs; then only the inner sources that take part in these rounds have been subscribed to. In particular any chain starting with take(n) returns.", "quantifier": "for all values, and all chains of operators and callbacks behind (also those that dispose)", "why_tests_cant": "No test can run endlessly many endless sources; that none of them is starved by the ever growing number of others needs an invariant of the queue.", "anchors": ["src/rpp/rpp/operators/merge.hpp:merge_t", "src/rpp/rpp/operators/merge.hpp:merge_observer_strategy", "src/rpp/rpp/operators/flat_map.hpp:flat_map", "src/rpp/rpp/schedulers/current_thread.hpp:drain_queue", "src/rpp/rpp/sources/from.hpp:from_iterable_schedulable"]}
