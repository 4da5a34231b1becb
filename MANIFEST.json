{
 "claims": [
  {
   "property": "C01",
   "status": "proved",
   "theorems": [
    "Rpp.C01_grammar",
    "Rpp.C01_silent_after_dispose",
    "Rpp.C01_silent_after_terminal",
    "Rpp.C01_exact"
   ],
   "note": "Serial calls only; nested calls are C05, concurrent calls are the subject of later properties."
  },
  {
   "property": "C02",
   "status": "proved",
   "theorems": [
    "Rpp.C02_throw_becomes_error",
    "Rpp.C02_throw_after_dispose_swallowed"
   ],
   "note": ""
  },
  {
   "property": "C03",
   "status": "partial",
   "theorems": [
    "Rpp.C03_released_partial",
    "Rpp.C03_overflow_refutes"
   ],
   "note": "Full statement holds unless a fixed-capacity container overflows; C03_overflow_refutes is the counterexample (observer.hpp 57-65)."
  },
  {
   "property": "C04",
   "status": "proved",
   "theorems": [
    "Rpp.C04_pipeline",
    "Rpp.C04_pipeline_grammar",
    "Rpp.C04_pipeline_dispose",
    "Rpp.C04_seen"
   ],
   "note": "All 19 single-input operators, any pipeline; element_at index below 2^64-1 and a lawful equality for distinct."
  },
  {
   "property": "C05",
   "status": "partial",
   "theorems": [
    "Rpp.Reentry.C05_reentrant_partial",
    "Rpp.Reentry.C05_silent_afterwards",
    "Rpp.Reentry.C05_reentrant_terminal_refutes"
   ],
   "note": "False when a terminal callback re-enters (flag is set after the callback, observer.hpp 120-144); proved otherwise."
  },
  {
   "property": "C06",
   "status": "proved",
   "theorems": [
    "Rpp.C06_map",
    "Rpp.C06_map_throw"
   ],
   "note": ""
  },
  {
   "property": "C07",
   "status": "proved",
   "theorems": [
    "Rpp.C07_filter",
    "Rpp.C07_filter_throw"
   ],
   "note": ""
  },
  {
   "property": "C08",
   "status": "proved",
   "theorems": [
    "Rpp.C08_take",
    "Rpp.C08_take_zero"
   ],
   "note": ""
  },
  {
   "property": "C09",
   "status": "proved",
   "theorems": [
    "Rpp.C09_skip"
   ],
   "note": ""
  },
  {
   "property": "C10",
   "status": "proved",
   "theorems": [
    "Rpp.C10_take_while",
    "Rpp.C10_take_while_throw"
   ],
   "note": ""
  },
  {
   "property": "C11",
   "status": "proved",
   "theorems": [
    "Rpp.C11_take_last",
    "Rpp.C11_take_last_otherwise"
   ],
   "note": ""
  },
  {
   "property": "C12",
   "status": "proved",
   "theorems": [
    "Rpp.C12_first",
    "Rpp.C12_first_empty",
    "Rpp.C12_last",
    "Rpp.C12_last_otherwise"
   ],
   "note": ""
  },
  {
   "property": "C13",
   "status": "partial",
   "theorems": [
    "Rpp.C13_element_at_partial",
    "Rpp.C13_element_at_max_refutes"
   ],
   "note": "False for index 2^64-1 (wraps); proved for all others."
  },
  {
   "property": "C14",
   "status": "proved",
   "theorems": [
    "Rpp.C14_distinct"
   ],
   "note": ""
  },
  {
   "property": "C15",
   "status": "proved",
   "theorems": [
    "Rpp.C15_distinct_until_changed",
    "Rpp.C15_runs"
   ],
   "note": ""
  },
  {
   "property": "C16",
   "status": "proved",
   "theorems": [
    "Rpp.C16_scan",
    "Rpp.C16_scan_no_seed",
    "Rpp.C16_scan_throw"
   ],
   "note": ""
  },
  {
   "property": "C17",
   "status": "proved",
   "theorems": [
    "Rpp.C17_reduce",
    "Rpp.C17_reduce_otherwise",
    "Rpp.C17_reduce_no_seed",
    "Rpp.C17_reduce_no_seed_otherwise",
    "Rpp.C17_reduce_throw"
   ],
   "note": ""
  },
  {
   "property": "C18",
   "status": "proved",
   "theorems": [
    "Rpp.C18_chunk_size",
    "Rpp.C18_buffer_otherwise",
    "Rpp.C18_buffer"
   ],
   "note": ""
  },
  {
   "property": "C19",
   "status": "proved",
   "theorems": [
    "Rpp.Win.C19_actions",
    "Rpp.Win.C19_actions_prefix",
    "Rpp.Win.C19_opens",
    "Rpp.Win.C19_window_gets",
    "Rpp.Win.C19_window_prefix",
    "Rpp.Win.C19_each_value_once",
    "Rpp.Win.C19_main_end",
    "Rpp.Win.C19_observer",
    "Rpp.Win.C19_late",
    "Rpp.Win.C19_no_ub",
    "Rpp.Win.C19_finishes"
   ],
   "note": "window as a program of instructions with arbitrary subscriptions and disposals in between; source serial. The reads of the observer list during a notification are a snapshot (its real representation: C47). An observer who joins a window after its last value is told nothing at all, since the window only lives in the operator (C19_late)."
  },
  {
   "property": "C20",
   "status": "proved",
   "theorems": [
    "Rpp.Win.C20_keys",
    "Rpp.Win.C20_keys_distinct",
    "Rpp.Win.C20_actions",
    "Rpp.Win.C20_opens",
    "Rpp.Win.C20_group_gets",
    "Rpp.Win.C20_group_gets_alone",
    "Rpp.Win.C20_group_prefix",
    "Rpp.Win.C20_no_other_group",
    "Rpp.Win.C20_each_value_once",
    "Rpp.Win.C20_main_end",
    "Rpp.Win.C20_observer",
    "Rpp.Win.C20_late",
    "Rpp.Win.C20_finishes",
    "Rpp.Win.C20_late_end"
   ],
   "note": "Single source thread; subscriptions, disposals of observers and of the main observer are interleaved between any two steps. Comparator: every strict weak order (std::map's requirement). Selectors may throw; observers' callbacks do not. If the main observer left, values with a new key are dropped (C20_group_gets_alone)."
  },
  {
   "property": "C21",
   "status": "proved",
   "theorems": [
    "Rpp.C21_tap",
    "Rpp.C21_tap_transparent",
    "Rpp.C21_finally"
   ],
   "note": "Throwing on_error/on_completed tap callbacks terminate the process and are not modelled."
  },
  {
   "property": "C22",
   "status": "proved",
   "theorems": [
    "Rpp.C22_throttle",
    "Rpp.C22_throttle_spacing"
   ],
   "note": "The clock reading of each value is part of the input."
  },
  {
   "property": "C23",
   "status": "proved",
   "theorems": [
    "Rpp.Comb.C23_lossless",
    "Rpp.Comb.C23_prefix",
    "Rpp.Comb.C23_origin",
    "Rpp.Comb.C23_completes_last",
    "Rpp.Comb.C23_error_origin",
    "Rpp.Comb.C23_error_order",
    "Rpp.Comb.C23_completes",
    "Rpp.Comb.C23_error_ends",
    "Rpp.Comb.C23_heard",
    "Rpp.Comb.C23_serialized"
   ],
   "note": "All interleavings of inner notifications (each source sequential), callback exceptions and disposal; the mutex, the early/late processing and the completion count are modelled."
  },
  {
   "property": "C24",
   "status": "proved",
   "theorems": [
    "Rpp.Comb.C24_by_index",
    "Rpp.Comb.C24_count",
    "Rpp.Comb.C24_complete_count",
    "Rpp.Comb.C24_completes_last",
    "Rpp.Comb.C24_error_origin",
    "Rpp.Comb.C24_completes",
    "Rpp.Comb.C24_error_ends",
    "Rpp.Comb.C24_heard",
    "Rpp.Comb.C24_serialized"
   ],
   "note": "All interleavings. The k-th result is the selector of the k-th values; count equals the shortest source. Moved-from values after a throwing selector are not modelled."
  },
  {
   "property": "C25",
   "status": "proved",
   "theorems": [
    "Rpp.Comb.C25_prefix",
    "Rpp.Comb.C25_exact",
    "Rpp.Comb.C25_taken",
    "Rpp.Comb.C25_completes_last",
    "Rpp.Comb.C25_error_origin",
    "Rpp.Comb.C25_completes",
    "Rpp.Comb.C25_error_ends",
    "Rpp.Comb.C25_heard",
    "Rpp.Comb.C25_serialized"
   ],
   "note": "All interleavings, against a list specification over the order in which values were taken."
  },
  {
   "property": "C26",
   "status": "proved",
   "theorems": [
    "Rpp.Comb.C26_prefix",
    "Rpp.Comb.C26_exact",
    "Rpp.Comb.C26_taken",
    "Rpp.Comb.C26_completes_only",
    "Rpp.Comb.C26_complete_exact",
    "Rpp.Comb.C26_ends",
    "Rpp.Comb.C26_error_origin",
    "Rpp.Comb.C26_heard",
    "Rpp.Comb.C26_serialized"
   ],
   "note": "All interleavings, against a list specification over the order in which values were taken."
  },
  {
   "property": "C27",
   "status": "proved",
   "theorems": [
    "Rpp.Comb.C27_current",
    "Rpp.Comb.C27_prefix",
    "Rpp.Comb.C27_no_late",
    "Rpp.Comb.C27_completes_last",
    "Rpp.Comb.C27_error_origin",
    "Rpp.Comb.C27_completes",
    "Rpp.Comb.C27_error_ends",
    "Rpp.Comb.C27_serialized",
    "Rpp.Comb.C27_only_current",
    "Rpp.Comb.C27_switch",
    "Rpp.Comb.C27_unserialized_stale",
    "Rpp.SwFine.C27_completes_last_atomic",
    "Rpp.SwFine.C27_once_atomic",
    "Rpp.SwFine.C27_completes_atomic",
    "Rpp.SwFine.C27_current_atomic",
    "Rpp.SwFine.C27_values_atomic"
   ],
   "note": "Serialized notifications as the property says (Serial: no notification under way when an inner arrives). Losslessness of the current inner, completion and errors hold for every interleaving; C27_unserialized_stale shows what goes wrong otherwise. There, disposing a reference and testing the shared state is one step; the theorems ending in _atomic are about a second machine in which every access to an atomic variable is a step."
  },
  {
   "property": "C28",
   "status": "partial",
   "theorems": [
    "Rpp.Cat.C28_one_at_a_time",
    "Rpp.Cat.C28_next",
    "Rpp.Cat.C28_prefix",
    "Rpp.Cat.C28_concatenation",
    "Rpp.Cat.C28_completes_last",
    "Rpp.Cat.C28_completes",
    "Rpp.Cat.C28_error_ends",
    "Rpp.Cat.C28_error_origin",
    "Rpp.Cat.C28_serialized",
    "Rpp.Cat.C28_assertion",
    "Rpp.Cat.C28_order_partial",
    "Rpp.Cat.C28_race_refutes"
   ],
   "note": "For every interleaving at atomic-operation granularity: one inner at a time, output = concatenation of the subscribed inners, completion exactly after outer and subscribed inners, errors, serialization, the code's assert. Arrival order only when the outer source does not race with the thread that found the queue empty (NoRace): C28_race_refutes shows the order swapped otherwise."
  },
  {
   "property": "C29",
   "status": "partial",
   "theorems": [
    "Rpp.Cat.C29_partial",
    "Rpp.Cat.C29_complete_partial",
    "Rpp.Cat.C29_refutes",
    "Rpp.Cat.C29_completes_refutes"
   ],
   "note": "False of the code: C29_refutes (an inner source queued after drain saw the queue empty is never subscribed) and C29_completes_refutes (the operator then completes without it). Proved outside that race."
  },
  {
   "property": "C30",
   "status": "proved",
   "theorems": [
    "Rpp.Resub.C30_concat_order",
    "Rpp.Resub.C30_concat_items",
    "Rpp.Resub.C30_concat_prefix",
    "Rpp.Resub.C30_concat_values",
    "Rpp.Resub.C30_concat_all_values",
    "Rpp.Resub.C30_concat_completes_last",
    "Rpp.Resub.C30_concat_completes",
    "Rpp.Resub.C30_concat_error_origin",
    "Rpp.Resub.C30_concat_error_ends",
    "Rpp.Resub.C30_repeat_order",
    "Rpp.Resub.C30_repeat_completes_last",
    "Rpp.Resub.C30_repeat_completes",
    "Rpp.Resub.C30_repeat_error_origin",
    "Rpp.Resub.C30_repeat_values",
    "Rpp.Resub.C30_repeat_forever",
    "Rpp.Resub.C30_repeat_forever_order",
    "Rpp.Resub.C30_repeat_forever_on",
    "Rpp.Resub.C30_start_with"
   ],
   "note": "All interleavings of the subscribing and the notifying threads; start_with(os..., o) is source::concat(os..., o). Sources obey the Rx contract; a container whose begin throws is not modelled."
  },
  {
   "property": "C31",
   "status": "proved",
   "theorems": [
    "Rpp.Resub.C31_at_most",
    "Rpp.Resub.C31_order",
    "Rpp.Resub.C31_completes",
    "Rpp.Resub.C31_error",
    "Rpp.Resub.C31_goes_on",
    "Rpp.Resub.C31_forever",
    "Rpp.Resub.C31_prefix"
   ],
   "note": "For every argument of size_t including the greatest (the counter wraps twice). An exception of subscribe itself is passed on without retrying, as in the code."
  },
  {
   "property": "C32",
   "status": "proved",
   "theorems": [
    "Rpp.Resub.C32_never_two",
    "Rpp.Resub.C32_handed_once",
    "Rpp.Resub.C32_never_zero",
    "Rpp.Resub.C32_exactly_one",
    "Rpp.Resub.C32_last_speaks",
    "Rpp.Resub.C32_serialized"
   ],
   "note": "One machine for all resubscribing operators; exact hand-off through is_inside_drain at the granularity of single atomic operations."
  },
  {
   "property": "C33",
   "status": "proved",
   "theorems": [
    "Rpp.Resub.C33_once",
    "Rpp.Resub.C33_prefix",
    "Rpp.Resub.C33_values",
    "Rpp.Resub.C33_selector",
    "Rpp.Resub.C33_end",
    "Rpp.Resub.C33_goes_on"
   ],
   "note": "A source that goes on emitting after its error is excluded (Rx contract): the code has no flag against it, and operators of the library do go on, see C109."
  },
  {
   "property": "C34",
   "status": "proved",
   "theorems": [
    "Rpp.Resub.C34_order",
    "Rpp.Resub.C34_notifier",
    "Rpp.Resub.C34_one_value",
    "Rpp.Resub.C34_goes_on",
    "Rpp.Resub.C34_end",
    "Rpp.Resub.C34_prefix",
    "Rpp.Resub.C34_values"
   ],
   "note": "A notifier that emits and then throws from its subscribe is excluded. So is an attempt that goes on emitting after its error, see C109."
  },
  {
   "property": "C35",
   "status": "proved",
   "theorems": [
    "Rpp.Comb.C35_mirror",
    "Rpp.Comb.C35_values",
    "Rpp.Comb.C35_mirror_exact",
    "Rpp.Comb.C35_notifier_ends",
    "Rpp.Comb.C35_origin",
    "Rpp.Comb.C35_serialized"
   ],
   "note": "All interleavings of source and notifier, callback exceptions and disposal."
  },
  {
   "property": "C36",
   "status": "proved",
   "theorems": [
    "Rpp.Time.Delay.C36_order",
    "Rpp.Time.Delay.C36_terminal_last",
    "Rpp.Time.Delay.C36_serial",
    "Rpp.Time.Delay.C36_lossless",
    "Rpp.Time.Delay.C36_on_time"
   ],
   "note": "delay: any number of source threads and an arbitrary scheduler for the worker (early, late, never); order, at most once, terminal last, serial, lossless at quiescence, never early. The on-time theorem states delivery never happens before arrival + delay."
  },
  {
   "property": "C37",
   "status": "partial",
   "theorems": [
    "Rpp.Time.Delay.C37_overlap_refutes",
    "Rpp.Time.Delay.C37_precedes_refutes",
    "Rpp.Time.Delay.C37_values_partial",
    "Rpp.Time.Delay.C37_after_terminal_partial",
    "Rpp.Time.Delay.C37_serial_partial",
    "Rpp.Time.Delay.C37_terminal_last_partial",
    "Rpp.Time.Delay.C37_cancels_partial"
   ],
   "note": "Refuted as stated: observe_on delivers on_error from the source's thread while the worker's on_next callback may be running (C37_overlap_refutes), and values already queued are dropped (C37_precedes_refutes shows a callback after it). Partial: values in source order, nothing after the terminal callback has returned, serial and terminal-last when no error arrives during a callback, cancellation."
  },
  {
   "property": "C38",
   "status": "partial",
   "theorems": [
    "Rpp.Time.Debounce.C38_order",
    "Rpp.Time.Debounce.C38_quiet",
    "Rpp.Time.Debounce.C38_superseded",
    "Rpp.Time.Debounce.C38_emits",
    "Rpp.Time.Debounce.C38_emits_last",
    "Rpp.Time.Debounce.C38_timer",
    "Rpp.Time.Debounce.C38_delivered",
    "Rpp.Time.Debounce.C38_flush_partial",
    "Rpp.Time.Debounce.C38_error_drops",
    "Rpp.Time.Debounce.C38_terminal_last",
    "Rpp.Time.Debounce.C38_serial",
    "Rpp.Time.Debounce.C38_race_refutes"
   ],
   "note": "debounce: order, at most once, the timer only takes the newest value after d of quiet, for any scheduler; with a prompt scheduler (tasks run when due) exactly d after arrival and never forgotten. The worker runs its tasks one at a time (assumed). Completion flushes, error drops. Refuted: a value taken by the timer but not yet delivered is lost when the completion locks the observer first (C38_race_refutes); C38_flush_partial excludes that."
  },
  {
   "property": "C39",
   "status": "proved",
   "theorems": [
    "Rpp.Time.Timeout.C39_prefix",
    "Rpp.Time.Timeout.C39_mirror",
    "Rpp.Time.Timeout.C39_not_early",
    "Rpp.Time.Timeout.C39_timer",
    "Rpp.Time.Timeout.C39_exact",
    "Rpp.Time.Timeout.C39_switches",
    "Rpp.Time.Timeout.C39_fallback_when",
    "Rpp.Time.Timeout.C39_fallback_passed",
    "Rpp.Time.Timeout.C39_heard"
   ],
   "note": "timeout: prefix, mirror, never early for any scheduler; exact switching time under a prompt scheduler (Prompt). The gap is measured from the end of the last value's callback, as the code stamps after on_next returns. After the switch the subscriber hears the fallback and nothing else, up to its terminal event (C39_heard, C39_fallback_passed)."
  },
  {
   "property": "C40",
   "status": "partial",
   "theorems": [
    "Rpp.Time.Timeout.C40_refutes",
    "Rpp.Time.Timeout.C40_nothing_partial",
    "Rpp.Time.Timeout.C40_in_flight_partial",
    "Rpp.Time.Timeout.C40_at_most_one_partial",
    "Rpp.Time.Timeout.C40_serial_partial"
   ],
   "note": "Refuted as stated: a value accepted before the deadline but delivered after the switch reaches the moved-from observer (C40_refutes). Partial: nothing new is accepted after the switch, at most the calls in flight, at most one, serial."
  },
  {
   "property": "C41",
   "status": "partial",
   "theorems": [
    "Rpp.Win.Toggle.C41_opens",
    "Rpp.Win.Toggle.C41_fed_only",
    "Rpp.Win.Toggle.C41_call",
    "Rpp.Win.Toggle.C41_terminates",
    "Rpp.Win.Toggle.C41_closes",
    "Rpp.Win.Toggle.C41_main",
    "Rpp.Win.Toggle.C41_values",
    "Rpp.Win.Toggle.C41_observer_partial",
    "Rpp.Win.Toggle.C41_erase_partial",
    "Rpp.Win.Toggle.C41_finishes",
    "Rpp.Win.Toggle.C41_race_refutes",
    "Rpp.Win.Toggle.C41_late_value_refutes",
    "Rpp.Win.Toggle.C41_lost_value_refutes",
    "Rpp.Win.Toggle.C41_erase_refutes"
   ],
   "note": "Source, openings and one closing per window run on their own threads, any interleaving; a window has at most one observer; callbacks do not throw. Each call under the mutex reaches exactly the open windows (C41_call, C41_terminates); openings, closings, main observer, value order and at most one terminal hold in every schedule. A closing completes its window outside the mutex: its callback can overlap a value's, a value can come after the completion or be lost (C41_race_refutes, C41_late_value_refutes, C41_lost_value_refutes), and a re-fired closing erases twice (C41_erase_refutes); C41_observer_partial and C41_erase_partial exclude that."
  },
  {
   "property": "C42",
   "status": "proved",
   "theorems": [
    "Rpp.Subj.C42_publish",
    "Rpp.Subj.C42_publish_passive",
    "Rpp.Subj.C42_only_subscribers"
   ],
   "note": "Single-threaded histories of subscribe/dispose/next/error/completed/disposeSubject with arbitrary observer reactions (throwing callbacks, dispose from a callback). Re-entrant and concurrent use of the subject itself: C46, C47."
  },
  {
   "property": "C43",
   "status": "proved",
   "theorems": [
    "Rpp.Subj.C43_behavior"
   ],
   "note": "Single-threaded histories, arbitrary reactions of observers."
  },
  {
   "property": "C44",
   "status": "proved",
   "theorems": [
    "Rpp.Subj.C44_replay",
    "Rpp.Subj.C44_bound"
   ],
   "note": "Single-threaded histories with a monotone clock (steady_clock); bound by count and by time window."
  },
  {
   "property": "C45",
   "status": "partial",
   "theorems": [
    "Rpp.Subj.Conc.C45_replay_reads",
    "Rpp.Subj.Conc.C45_behavior_reads",
    "Rpp.Subj.Conc.C45_replayed",
    "Rpp.Subj.Conc.C45_no_loss_partial",
    "Rpp.Subj.Conc.C45_gap_refutes",
    "Rpp.Subj.Conc.C45_behavior_gap_refutes",
    "Rpp.Subj.Conc.C45_twice_refutes"
   ],
   "note": "False of the code: storing a value and taking the observer snapshot are two critical sections, so a subscriber can miss a value (C45_gap_refutes, C45_behavior_gap_refutes) or get it twice (C45_twice_refutes). C45_no_loss_partial: nothing is lost unless a subscription falls into that gap; C45_replay_reads, C45_behavior_reads, C45_replayed: what a subscriber is given at subscription."
  },
  {
   "property": "C46",
   "status": "partial",
   "theorems": [
    "Rpp.Subj.Conc.C46_no_overlap_partial",
    "Rpp.Subj.Conc.C46_nothing_after_terminal",
    "Rpp.Subj.Conc.C46_late_refutes",
    "Rpp.Subj.Conc.C46_replay_refutes"
   ],
   "note": "Emission callbacks never overlap and nothing follows a terminal (C46_no_overlap_partial, C46_nothing_after_terminal). Missing, because false: the terminal given to a late subscriber and replayed values are delivered without the serialized mutex (C46_late_refutes, C46_replay_refutes)."
  },
  {
   "property": "C47",
   "status": "partial",
   "theorems": [
    "Rpp.Subj.Conc.C47_only_subscribed_partial",
    "Rpp.Subj.Conc.C47_all_subscribed_partial",
    "Rpp.Subj.Conc.C47_order",
    "Rpp.Subj.Conc.C47_iterators_refutes",
    "Rpp.Subj.Conc.C47_iterators_partial",
    "Rpp.Subj.Conc.C47_cleanup_partial"
   ],
   "note": "An emission reaches exactly the observers registered when it started, in order, up to the iterator invalidation of C47_iterators_refutes: subscribing while an emission iterates over the deque is undefined behaviour, modelled as a distinct outcome. C47_cleanup_partial: removing an observer makes a new deque, so subscriptions are harmless until the next emission."
  },
  {
   "property": "C48",
   "status": "partial",
   "theorems": [
    "Rpp.RefCount.C48_connects_on_first",
    "Rpp.RefCount.C48_one_connection",
    "Rpp.RefCount.C48_disconnects_only_when_unused",
    "Rpp.RefCount.C48_disconnected_when_unused",
    "Rpp.RefCount.C48_connected_when_used",
    "Rpp.RefCount.C48_no_reconnect_after_end",
    "Rpp.RefCount.C48_race_refutes",
    "Rpp.RefCount.C48_nobody_left_out_partial"
   ],
   "note": "Connects exactly on the first subscriber, disconnects exactly when the last leaves, never two connections, no reconnect after the source ended, for every interleaving. Missing, because false: a subscriber that arrives between the last release and the dispose() following it gets an empty reference and is never connected (C48_race_refutes); C48_nobody_left_out_partial shows this is the only way to be left out."
  },
  {
   "property": "C49",
   "status": "proved",
   "theorems": [
    "Rpp.Composite.C49_no_leak",
    "Rpp.Composite.C49_container_exclusive",
    "Rpp.Composite.C49_add_after_dispose",
    "Rpp.Composite.C49_capacity",
    "Rpp.Composite.C49_added_child_disposed"
   ],
   "note": "Any capacity, any number of threads, children and the dispose hook may re-enter the composite; C49_added_child_disposed is stated on calls only (dynamic container)."
  },
  {
   "property": "C50",
   "status": "proved",
   "theorems": [
    "Rpp.Composite.C50_composite_action_once",
    "Rpp.Composite.C50_removed_spared",
    "Rpp.Base.C50_callback_once"
   ],
   "note": "Both base_disposable (callback_disposable) and composite_disposable."
  },
  {
   "property": "C51",
   "status": "proved",
   "theorems": [
    "Rpp.Refcount.C51_never_early",
    "Rpp.Refcount.C51_not_late",
    "Rpp.Refcount.C51_exactly_when_last",
    "Rpp.Refcount.C51_counter",
    "Rpp.Refcount.C51_disposes_refs",
    "Rpp.Refcount.C51_no_ref_after"
   ],
   "note": "add/remove of the underlying composite are atomic steps here (justified by C49); fewer than 2^64-1 references."
  },
  {
   "property": "C52",
   "status": "proved",
   "theorems": [
    "Rpp.Container.C52_static_like_dynamic",
    "Rpp.Container.C52_static_bounded_list",
    "Rpp.Container.C52_push_throws_iff_full"
   ],
   "note": "The static container is modelled on raw slots; undefined behaviour is a distinct outcome and proved absent."
  },
  {
   "property": "C53",
   "status": "partial",
   "theorems": [
    "Rpp.Composite.C53_clear_reentry_refutes",
    "Rpp.Composite.C53_clear_returns_partial",
    "Rpp.Composite.C53_disposed_never_spins"
   ],
   "note": "False: clear() disposes children while holding the Edit state (composite_disposable.hpp 131-144), a child touching the composite spins forever. Proved for children that do not, and for dispose()."
  },
  {
   "property": "C54",
   "status": "proved",
   "theorems": [
    "Rpp.Capacity.C54_capacity",
    "Rpp.Capacity.C54_never_throws"
   ],
   "note": "Selector computation and set_upstream counts per operator, all 39 operators and sources."
  },
  {
   "property": "C55",
   "status": "proved",
   "theorems": [
    "Rpp.Sched.C55_order",
    "Rpp.Sched.C55_lossless",
    "Rpp.Sched.C55_pop_succeeds"
   ],
   "note": "Unbounded integer time points; operations atomic."
  },
  {
   "property": "C56",
   "status": "proved",
   "theorems": [
    "Rpp.Sched.C56_order",
    "Rpp.Sched.C56_not_early",
    "Rpp.Sched.C56_after_parent",
    "Rpp.Sched.C56_not_nested",
    "Rpp.Sched.C56_all_run",
    "Rpp.Sched.C56_times"
   ],
   "note": "One thread, virtual clock; any user program as a function of task number and invocation count."
  },
  {
   "property": "C57",
   "status": "partial",
   "theorems": [
    "Rpp.Sched.C57_refutes",
    "Rpp.Sched.C57_burst_refutes",
    "Rpp.Sched.C57_busy_partial",
    "Rpp.Sched.C57_alone_partial"
   ],
   "note": "False: in drain_queue (current_thread.hpp 115-138) a lone repeating task keeps its first time point, so repetitions come in a burst. Proved while other tasks wait, and for a task started on an unowned queue."
  },
  {
   "property": "C58",
   "status": "proved",
   "theorems": [
    "Rpp.Sched.Imm.C58_synchronous",
    "Rpp.Sched.Imm.C58_not_early",
    "Rpp.Sched.Imm.C58_back_to_back",
    "Rpp.Sched.Imm.C58_disposed_stops"
   ],
   "note": "Nested calls on the immediate scheduler appear as part of the body (time passing, disposal)."
  },
  {
   "property": "C59",
   "status": "proved",
   "theorems": [
    "Rpp.Sched.Test.C59_order",
    "Rpp.Sched.Test.C59_nothing_due_left",
    "Rpp.Sched.Test.C59_idle",
    "Rpp.Sched.Test.C59_dropped_only_if_disposed",
    "Rpp.Sched.Test.C59_times",
    "Rpp.Sched.Test.C59_requests_kept",
    "Rpp.Sched.Test.C59_reports"
   ],
   "note": "One thread; nested schedule/time_advance inside tasks via an explicit call stack; time moved by other test schedulers included."
  },
  {
   "property": "C60",
   "status": "proved",
   "theorems": [
    "Rpp.Sched.RunLoop.C60_order",
    "Rpp.Sched.RunLoop.C60_not_early",
    "Rpp.Sched.RunLoop.C60_at_most_one",
    "Rpp.Sched.RunLoop.C60_nothing_only_if_none_due",
    "Rpp.Sched.RunLoop.C60_takes_ready",
    "Rpp.Sched.RunLoop.C60_rescheduled",
    "Rpp.Sched.RunLoop.C60_after_dispose"
   ],
   "note": "Any number of threads, critical sections atomic, nesting of calls over-approximated; the loop's disposal is modelled as callable at any time."
  },
  {
   "property": "C61",
   "status": "partial",
   "theorems": [
    "Rpp.Sched.NT.C61_not_early",
    "Rpp.Sched.NT.C61_order",
    "Rpp.Sched.NT.C61_requests_kept",
    "Rpp.Sched.NT.C61_exit",
    "Rpp.Sched.NT.C61_exit_last",
    "Rpp.Sched.NT.C61_refutes",
    "Rpp.Sched.NT.C61_late_refutes",
    "Rpp.Sched.NT.C61_on_time_partial",
    "Rpp.Sched.NT.C61_progress"
   ],
   "note": "False: wait_for keeps the deadline of the old top (new_thread.hpp 90), so a task scheduled later but due earlier starts at the old deadline. Proved: never early, in order, and a characterisation of the only way to be late."
  },
  {
   "property": "C62",
   "status": "proved",
   "theorems": [
    "Rpp.Sched.Pool.C62_round_robin",
    "Rpp.Sched.Pool.C62_balanced",
    "Rpp.Sched.Pool.C62_in_range"
   ],
   "note": "Serialised create_worker calls, up to 2^64 of them."
  },
  {
   "property": "C63",
   "status": "partial",
   "theorems": [
    "Rpp.Sched.NT.C63_starved_refutes",
    "Rpp.Sched.NT.C63_refutes",
    "Rpp.Sched.NT.C63_from_this_refutes",
    "Rpp.Sched.NT.C63_in_place_partial",
    "Rpp.Sched.NT.C63_queued_partial"
   ],
   "note": "False for tasks queued through current_thread on the worker thread (has_fresh_data is not set) and for delay_from_this_timepoint repetitions (old time keeps priority). Proved for the rest."
  },
  {
   "property": "C64",
   "status": "partial",
   "theorems": [
    "Rpp.Sched.C64_current_thread_partial",
    "Rpp.Sched.C64_current_thread_refutes",
    "Rpp.Sched.Imm.C64_immediate",
    "Rpp.Sched.Test.C64_test_scheduler",
    "Rpp.Sched.RunLoop.C64_run_loop",
    "Rpp.Sched.NT.C64_new_thread"
   ],
   "note": "Proved for immediate, test_scheduler, run_loop and new_thread; for current_thread false when another thread disposes during the sleep before the call (drain_queue checks before sleeping only)."
  },
  {
   "property": "C65",
   "status": "proved",
   "theorems": [
    "Rpp.Sched.C65_current_thread",
    "Rpp.Sched.C65_current_thread_only_on_throw",
    "Rpp.Sched.Imm.C65_immediate",
    "Rpp.Sched.Imm.C65_immediate_only_on_throw",
    "Rpp.Sched.Test.C65_test_scheduler",
    "Rpp.Sched.RunLoop.C65_run_loop",
    "Rpp.Sched.NT.C65_new_thread"
   ],
   "note": "All five schedulers."
  },
  {
   "property": "C66",
   "status": "proved",
   "theorems": [
    "Rpp.C66_immediate",
    "Rpp.C66_scheduled",
    "Rpp.C66_same",
    "Rpp.C66_immediate_stops",
    "Rpp.C66_scheduled_stops",
    "Rpp.C66_immediate_prefix",
    "Rpp.C66_scheduled_prefix",
    "Rpp.C66_just"
   ],
   "note": "Both implementations of from.hpp as step machines over any lawful observer (operator chains included), elements that throw when read, disposal between any two steps. Scheduled version: dropping of disposed tasks by the scheduler is C64."
  },
  {
   "property": "C67",
   "status": "partial",
   "theorems": [
    "Rpp.Interval.C67_values",
    "Rpp.Interval.C67_counts",
    "Rpp.Interval.C67_timer",
    "Rpp.Interval.C67_stops",
    "Rpp.Interval.C67_leaves_queue",
    "Rpp.Interval.C67_new_thread",
    "Rpp.Interval.C67_run_loop",
    "Rpp.Interval.C67_test_scheduler",
    "Rpp.Interval.C67_immediate",
    "Rpp.Interval.C67_current_thread_busy_partial",
    "Rpp.Interval.C67_current_thread_alone_partial",
    "Rpp.Interval.C67_current_thread_refutes"
   ],
   "note": "Values over any observer and operators; size_t overflow as modulus M. Times proved on new_thread, run_loop, test scheduler, immediate. False on current_thread when the queue is already owned (C67_current_thread_refutes, consequence of C57); two partial theorems there."
  },
  {
   "property": "C68",
   "status": "proved",
   "theorems": [
    "Rpp.Blocking.C68_disposed_on_end",
    "Rpp.Blocking.C68_returns_only_after",
    "Rpp.Blocking.C68_always_returns",
    "Rpp.Blocking.C68_two_turns"
   ],
   "note": "One waiting thread, any number of disposing threads (terminal notification or disposal), every interleaving, spurious wake-ups. Mutex and condition variable as in the standard, sequentially consistent. Liveness needs the threads to keep getting turns and finitely many spurious wake-ups. A source that neither ends nor is disposed keeps it waiting, by design."
  },
  {
   "property": "C69",
   "status": "partial",
   "theorems": [
    "Rpp.Emit.C69_partial",
    "Rpp.Emit.C69_returns_partial",
    "Rpp.Emit.C69_open_partial",
    "Rpp.Emit.C69_with_latest_from_partial",
    "Rpp.Emit.C69_refutes",
    "Rpp.Emit.C69_operators_refutes"
   ],
   "note": "Model of one thread: call stack, mutexes held by each operator body, arbitrary re-entrant user code (Combine/Reentry). Proved: no emission pattern deadlocks when what callbacks emit into needs no mutex held at a downstream call (all operators without mutex, ordinary subjects, the other sources of with_latest_from). Refuted for merge, zip, combine_latest, with_latest_from's main source, take_until, switch_on_next, concat, timeout, window_toggle and serialized subjects: the mutex is not recursive and is held during the callback. Values are not modelled, only control flow and locks."
  },
  {
   "property": "C70",
   "status": "proved",
   "theorems": [
    "Rpp.RoundRobin.C70_prefix",
    "Rpp.RoundRobin.C70_complete"
   ],
   "note": "from_iterable sources over containers on current_thread, subscribed with the queue not yet owned; any number and lengths, any duration of the callbacks. Nobody disposes meanwhile and the callbacks schedule nothing themselves."
  },
  {
   "property": "C71",
   "status": "proved",
   "theorems": [
    "Rpp.Win.C71_window",
    "Rpp.Win.C71_group_by"
   ],
   "note": "The reference counter is modelled as the set of holders (its own correctness: C51)."
  },
  {
   "property": "C72",
   "status": "proved",
   "theorems": [
    "Rpp.C72_congr",
    "Rpp.C72_map_map",
    "Rpp.C72_filter_filter",
    "Rpp.C72_takeWhile_takeWhile",
    "Rpp.C72_take_take",
    "Rpp.C72_skip_skip",
    "Rpp.C72_takeLast_takeLast",
    "Rpp.C72_distinct_distinct",
    "Rpp.C72_distinctUntilChanged_twice",
    "Rpp.C72_map_filter",
    "Rpp.C72_map_take",
    "Rpp.C72_map_skip",
    "Rpp.C72_skip_take",
    "Rpp.C72_elementAt",
    "Rpp.C72_first",
    "Rpp.C72_last",
    "Rpp.C72_reduce",
    "Rpp.C72_reduceNoSeed",
    "Rpp.C72_buffer_one",
    "Rpp.C72_map_id",
    "Rpp.C72_filter_true",
    "Rpp.C72_takeWhile_true",
    "Rpp.C72_skip_zero",
    "Rpp.C72_tap",
    "Rpp.C72_finally",
    "Rpp.C72_map_take_zero",
    "Rpp.C72_map_skip_throwing",
    "Rpp.C72_skip_take_zero",
    "Rpp.C72_filter_take"
   ],
   "note": "`Same p q`: no subscriber, whatever its callbacks do, sees a difference for any source. Congruence plus 24 laws; C72_map_take_zero, C72_map_skip_throwing, C72_skip_take_zero and C72_filter_take show that the side conditions are needed. Only what the subscriber is shown is compared, not when user functions are called or upstream is unsubscribed."
  },
  {
   "property": "C73",
   "status": "partial",
   "theorems": [
    "Rpp.Grpc.C73_order",
    "Rpp.Grpc.C73_rules",
    "Rpp.Grpc.C73_close",
    "Rpp.Grpc.C73_completed",
    "Rpp.Grpc.C73_error_partial",
    "Rpp.Grpc.C73_error_refutes",
    "Rpp.Grpc.C73_single_thread"
   ],
   "note": "Order, one write at a time, closing exactly once and the status after on_completed are proved for all executions; for a single emitting thread also that exactly the messages before the end are taken. The status after on_error is INTERNAL only if nothing was waiting to be written (C73_error_partial); otherwise it is OK (C73_error_refutes)."
  },
  {
   "property": "C74",
   "status": "partial",
   "theorems": [
    "Rpp.Grpc.C74_reads",
    "Rpp.Grpc.C74_shown",
    "Rpp.Grpc.C74_end",
    "Rpp.Grpc.C74_no_early_end",
    "Rpp.Grpc.C74_contract_partial",
    "Rpp.Grpc.C74_client_contract",
    "Rpp.Grpc.C74_contract_refutes"
   ],
   "note": "Order, completeness, one read at a time, exactly one end with the right outcome: all executions. The observable's contract holds for clients, and for servers unless OnCancel comes during on_next (C74_contract_refutes)."
  },
  {
   "property": "C75",
   "status": "partial",
   "theorems": [
    "Rpp.Grpc.C75_partial",
    "Rpp.Grpc.C75_server_read",
    "Rpp.Grpc.C75_finishes",
    "Rpp.Grpc.C75_server_read_finishes",
    "Rpp.Grpc.C75_bidi_refutes",
    "Rpp.Grpc.C75_write_refutes"
   ],
   "note": "Proved without cancellation, or with cancellation before the user ended the stream and without failed writes; unconditionally for the reading server. Otherwise Finish is called twice (C75_bidi_refutes, C75_write_refutes)."
  },
  {
   "property": "C76",
   "status": "partial",
   "theorems": [
    "Rpp.Grpc.C76_partial",
    "Rpp.Grpc.C76_refutes"
   ],
   "note": "Proved if no emission is in progress at OnDone; refuted otherwise (C76_refutes)."
  },
  {
   "property": "C77",
   "status": "partial",
   "theorems": [
    "Rpp.Strand.C77_serial",
    "Rpp.Strand.C77_stays_partial",
    "Rpp.Strand.C77_refutes"
   ],
   "note": "Proved for all executions; that what is scheduled on current_thread stays on the strand needs io_context::run() not to be called from inside a current_thread task (C77_refutes)."
  },
  {
   "property": "C78",
   "status": "proved",
   "theorems": [
    "Rpp.Strand.C78_starts",
    "Rpp.Strand.C78_once",
    "Rpp.Strand.C78_given_up",
    "Rpp.Strand.C78_served"
   ],
   "note": "Safety for all executions; liveness for all fair ones (the clock goes on, asio serves timers and handlers, functions return)."
  },
  {
   "property": "C79",
   "status": "partial",
   "theorems": [
    "Rpp.Strand.C79_partial",
    "Rpp.Strand.C79_refutes"
   ],
   "note": "Zero-delay requests: order proved. Tasks taken over from current_thread that are due at the same time can be reordered (C79_refutes)."
  },
  {
   "property": "C80",
   "status": "partial",
   "theorems": [
    "Rpp.Strand.C80_partial",
    "Rpp.Strand.C80_refutes"
   ],
   "note": "Proved for tasks taken over from current_thread; tasks scheduled directly let the exception escape io_context::run() (C80_refutes)."
  },
  {
   "property": "C81",
   "status": "partial",
   "theorems": [
    "Rpp.Strand.C81_partial",
    "Rpp.Strand.C81_refutes"
   ],
   "note": "Proved but for delay_from_this_timepoint of tasks scheduled directly, which drift (C81_refutes)."
  },
  {
   "property": "C82",
   "status": "partial",
   "theorems": [
    "Rpp.Strand.C82_partial",
    "Rpp.Strand.C82_refutes"
   ],
   "note": "Proved for tasks scheduled directly; one taken over from current_thread is kept by m_next of the one before it (C82_refutes)."
  },
  {
   "property": "C83",
   "status": "partial",
   "theorems": [
    "Rpp.Qt.C83_serial",
    "Rpp.Qt.C83_starts_partial",
    "Rpp.Qt.C83_refutes",
    "Rpp.Qt.C83_once",
    "Rpp.Qt.C83_dropped",
    "Rpp.Qt.C83_no_app",
    "Rpp.Qt.C83_no_app_after_quit",
    "Rpp.Qt.C83_app_after_launch",
    "Rpp.Qt.C83_after_quit"
   ],
   "note": "Proved for all executions except earliness: delays are truncated to whole milliseconds, so a run may start up to 1 ms early (C83_refutes); exact for whole milliseconds."
  },
  {
   "property": "C84",
   "status": "partial",
   "theorems": [
    "Rpp.Qt.C84_partial",
    "Rpp.Qt.C84_refutes"
   ],
   "note": "delay_from_now and delay_to exact; delay_from_this_timepoint counts from the actual start (C84_refutes), never more than 1 ms before the right time point."
  },
  {
   "property": "C85",
   "status": "partial",
   "theorems": [
    "Rpp.Qt.C85_partial",
    "Rpp.Qt.C85_refutes"
   ],
   "note": "Never again: proved. The exception escapes into Qt's event loop (C85_refutes)."
  },
  {
   "property": "C86",
   "status": "partial",
   "theorems": [
    "Rpp.Connect.C86_single",
    "Rpp.Connect.C86_opened",
    "Rpp.Connect.C86_joined",
    "Rpp.Connect.C86_refused",
    "Rpp.Connect.C86_no_effect",
    "Rpp.Connect.C86_connected",
    "Rpp.Connect.C86_after_end",
    "Rpp.Connect.C86_values",
    "Rpp.Connect.C86_serial_partial",
    "Rpp.Connect.C86_overlap_refutes"
   ],
   "note": "All executions; serial emissions need that no connection is disposed while its source is emitting (C86_overlap_refutes)."
  },
  {
   "property": "C87",
   "status": "partial",
   "theorems": [
    "Rpp.Connect.C87_partial",
    "Rpp.Connect.C87_end_partial",
    "Rpp.Connect.C87_refutes"
   ],
   "note": "Disposed: proved. Released: the subject keeps one entry per connection ever made until it ends (C87_refutes, for every number)."
  },
  {
   "property": "C88",
   "status": "partial",
   "theorems": [
    "Rpp.Owner.C88_once",
    "Rpp.Owner.C88_kept",
    "Rpp.Owner.C88_destroyed",
    "Rpp.Owner.C88_asked",
    "Rpp.Owner.C88_stored",
    "Rpp.Owner.C88_children",
    "Rpp.Owner.C88_cleared",
    "Rpp.Owner.C88_late",
    "Rpp.Owner.C88_released_partial",
    "Rpp.Owner.C88_cycle_refutes"
   ],
   "note": "All histories; the release of what cannot be reached needs that no composites contain each other (C88_cycle_refutes)."
  },
  {
   "property": "C89",
   "status": "partial",
   "theorems": [
    "Rpp.SubOn.C89_once",
    "Rpp.SubOn.C89_where",
    "Rpp.SubOn.C89_disposed",
    "Rpp.SubOn.C89_in_the_end",
    "Rpp.SubOn.C89_error_partial",
    "Rpp.SubOn.C89_never_told",
    "Rpp.SubOn.C89_lost_refutes"
   ],
   "note": "All executions; exceptions are lost when there is an operator between subscribe_on and the source (C89_lost_refutes, C89_never_told)."
  },
  {
   "property": "C90",
   "status": "partial",
   "theorems": [
    "Rpp.Graph.C90_no_ring",
    "Rpp.Graph.C90_released",
    "Rpp.Graph.C90_exact",
    "Rpp.Graph.C90_operators",
    "Rpp.Graph.C90_kept_refutes"
   ],
   "note": "All programs: no ring (C90_no_ring), released exactly what no handle reaches (C90_released), ring iff an unsafe operation (C90_exact), operators alone are always safe (C90_operators). Not for all uses: subject | retry kept by its own subject, group_by | flat_map(group | retry) and a disposable capturing its observer leak when dropped without being disposed (C90_kept_refutes)."
  },
  {
   "property": "C91",
   "status": "proved",
   "theorems": [
    "Rpp.Graph.C91_disposed",
    "Rpp.Graph.C91_leaves",
    "Rpp.Graph.C91_takes",
    "Rpp.Graph.C91_kept"
   ],
   "note": "All compositions of the modelled operators, whatever else is done and dropped meanwhile, as long as nothing the observer itself holds is dropped; weak references on the way are shown not to expire while the source holds its observer. group_by, window, window_toggle and ref_count are reference counted instead (C48, C51) and stop the path on purpose. C91_leaves covers the subscription to those: it takes the subscriber off the subject; C91_takes: every observer made by an operator can be given a disposable. C91_kept: the containers it goes to are held by the observer."
  },
  {
   "property": "C92",
   "status": "partial",
   "theorems": [
    "Rpp.Stack.C92_reaches",
    "Rpp.Stack.C92_lives",
    "Rpp.Stack.C92_once",
    "Rpp.Stack.C92_concat_partial",
    "Rpp.Stack.C92_concat_refutes"
   ],
   "note": "Model Resub/Stack.lean: one thread, the call stack explicit, every label sequence. The full statement fails for the concat operator (C92_concat_refutes, disagreement 36); C92_concat_partial says what holds there. Downstream callbacks do not throw (that is C02) and other threads are not modelled here."
  },
  {
   "property": "C93",
   "status": "proved",
   "theorems": [
    "Rpp.Stack.C93_depth",
    "Rpp.Stack.C93_attempts",
    "Rpp.Stack.C93_concat_counts",
    "Rpp.Stack.C93_retry_counts",
    "Rpp.Stack.C93_goes_on"
   ],
   "note": "Frames counted are the ones of Frame in Resub/Stack.lean (user code run by subscribe, loops, try blocks, on_next, on_error/on_completed); what else the compiler puts between them is constant per frame. merge and switch_on_next nest only if the user's code nests. C93_attempts shows runs with any number of attempts."
  },
  {
   "property": "C94",
   "status": "partial",
   "theorems": [
    "Rpp.Cross.C94_prefix",
    "Rpp.Cross.C94_exact",
    "Rpp.Cross.C94_late_partial",
    "Rpp.Cross.C94_own",
    "Rpp.Cross.C94_stop",
    "Rpp.Cross.C94_once",
    "Rpp.Cross.C94_release",
    "Rpp.Cross.C94_refutes"
   ],
   "note": "Partial: a callback of the subscriber may begin after dispose() has returned in another thread (C94_refutes; at most one, C94_late_partial). Everything else is proved in full: C94_prefix, C94_exact, C94_own, C94_stop, C94_once, C94_release. The children of the composite_disposable are disposed of in one step of the disposing thread; composite_disposable in detail, with the states Edit and Disposed seen by concurrent add() calls, is C49."
  },
  {
   "property": "C95",
   "status": "partial",
   "theorems": [
    "Rpp.Locks.C95_progress_partial",
    "Rpp.Locks.C95_circle_partial",
    "Rpp.Locks.C95_alive_partial",
    "Rpp.Locks.C95_able",
    "Rpp.Locks.C95_take_until_refutes",
    "Rpp.Locks.C95_worker_refutes"
   ],
   "note": "Partial: take_until's is_disposed locks take_until's mutex, and is called by a subject and by a worker while they hold theirs (C95_take_until_refutes: one thread, C95_worker_refutes: two threads). Proved for all networks without take_until below a subject or a scheduler: C95_progress_partial, C95_circle_partial, C95_alive_partial; C95_able says what being able to go on means. Values are not modelled; std::scoped_lock of with_latest_from is taken as locking in ascending order; condition variables are not modelled (waiting for work is not waiting for a mutex)."
  },
  {
   "property": "C96",
   "status": "proved",
   "theorems": [
    "Rpp.Locks.C96_serial",
    "Rpp.Locks.C96_operators",
    "Rpp.Locks.C96_subjects"
   ],
   "note": "Serial (Combine/Serial.lean) gives the rules; C96_serial proves them sound, C96_operators and C96_subjects say which functions notify under a mutex. The fallback of timeout and the error path of observe_on do not obey the rules (they call the observer from elsewhere: C40, C37)."
  },
  {
   "property": "C97",
   "status": "partial",
   "theorems": [
    "Rpp.Flag.C97_partial",
    "Rpp.Flag.C97_refutes"
   ],
   "note": "C97_partial: for every chain (Rpp.Capacity.Obsv) whose nearest operator above the subscriber that does not just pass calls on is not delay/observe_on, or whose flag is atomic, every network of calls that fits the chain (Wired) and every schedule: no race. Full statement fails, C97_refutes: from(1,2) | observe_on(new_thread) | take(1); the source's thread reads the plain bool through delay's is_disposed while the worker's on_completed sets it. Sequential consistency per step; set_upstream during subscription is not modelled."
  },
  {
   "property": "C98",
   "status": "partial",
   "theorems": [
    "Rpp.C98_pipeline",
    "Rpp.C98_no_husk",
    "Rpp.Comb.C98_zip_partial",
    "Rpp.Comb.C98_zip_refutes"
   ],
   "note": "Proved for all chains of single-source operators (C98_pipeline, C98_no_husk) and for zip with selectors that do not throw (C98_zip_partial). zip with a throwing selector violates it (C98_zip_refutes, disagreement 40). Multi-source operators other than zip pass values on or copy them and are not modelled with moves."
  },
  {
   "property": "C99",
   "status": "partial",
   "theorems": [
    "Rpp.Share.C99_silent",
    "Rpp.Share.C99_together",
    "Rpp.Share.C99_delivered",
    "Rpp.Share.C99_thrown",
    "Rpp.Share.C99_released",
    "Rpp.Share.C99_refused_partial",
    "Rpp.Share.C99_unhandled",
    "Rpp.Share.C99_refused_refutes",
    "Rpp.Share.C99_disposed_refutes",
    "Rpp.Share.C99_disposed_partial"
   ],
   "note": "Proved: C99_silent, C99_together, C99_thrown, C99_released, C99_delivered, C99_unhandled. subscribe(d, observer) does not ask the observer (C99_refused_refutes, disagreement 41) and leaves d undisposed when on_next throws (C99_disposed_refutes, disagreement 42). add of an upstream to a composite disposable is one step here (its interleavings are C49)."
  },
  {
   "property": "C100",
   "status": "proved",
   "theorems": [
    "Rpp.Stages.C100_prefix",
    "Rpp.Stages.C100_all",
    "Rpp.Stages.C100_can_finish",
    "Rpp.Stages.C100_delays",
    "Rpp.Stages.C100_turns"
   ],
   "note": "Product of the Core pipelines (C04) and the delay/observe_on machines (C36/C37), refined to the pipeline without cuts; the end can always be reached (C100_can_finish). Assumes that no error reached an observe_on (shown necessary by an example; not needed when all cuts are delays), and no throttle (it reads the clock). One call of a piece is one step; every cut has its own clock, which allows more behaviours than one clock. C100_turns: no cut calls the piece behind it while that is busy."
  },
  {
   "property": "C101",
   "status": "partial",
   "theorems": [
    "Rpp.Storage.C101_pipeline",
    "Rpp.Storage.C101_take_last",
    "Rpp.Storage.C101_buffer",
    "Rpp.Storage.C101_distinct",
    "Rpp.Storage.C101_replay",
    "Rpp.Storage.C101_zip_one_empty",
    "Rpp.Storage.C101_zip_held",
    "Rpp.Storage.C101_waste_refutes"
   ],
   "note": "The last clause is refuted (C101_waste_refutes): zip completes only when all sources have; until then it stores every value of the others. The parts about queues of zip assume a selector that does not throw (one_empty) or an undisturbed state (held)."
  },
  {
   "property": "C102",
   "status": "proved",
   "theorems": [
    "Rpp.Net.C102_grows",
    "Rpp.Net.C102_sees",
    "Rpp.Net.C102_grammar",
    "Rpp.Net.C102_all",
    "Rpp.Net.C102_can_rest",
    "Rpp.Net.C102_kept",
    "Rpp.Net.C102_finish",
    "Rpp.Net.C102_same"
   ],
   "note": "Product of the Core pipelines (C04), the combining machines (C23-C26, C35) and the delay machine (C36), one per node of an arbitrary tree. Specification: Join.Makes/MakesAll per operator, Net.Can/CanAll up the tree. The operands of one operator have one value type; a notification may be under way between two operators for any time (the synchronous call of the code is one of these schedules); observe_on, concat and switch are not nodes of the tree. on_error_resume_next is modelled only behind observables that make no call after an error (C109)."
  },
  {
   "property": "C103",
   "status": "proved",
   "theorems": [
    "Rpp.Net.C103_moment",
    "Rpp.Net.C103_all",
    "Rpp.Net.C103_one_thread",
    "Rpp.Net.C103_left_unit",
    "Rpp.Net.C103_right_unit",
    "Rpp.Net.C103_assoc"
   ],
   "note": "the inner expressions are arbitrary trees of Verif.Net; the laws are for the machine of merge driven by one thread, the sequence of each inner observable being given"
  },
  {
   "property": "C104",
   "status": "partial",
   "theorems": [
    "Rpp.Net.C104_moment",
    "Rpp.Net.C104_all",
    "Rpp.Net.C104_concat",
    "Rpp.Net.C104_concat_all",
    "Rpp.Net.C104_repeat",
    "Rpp.Net.C104_retry",
    "Rpp.Net.C104_retry_all",
    "Rpp.Net.C104_retry_forever",
    "Rpp.Net.C104_resume_partial"
   ],
   "note": "operands are arbitrary trees of Verif.Net; a notification and the subscription it leads to are one step here (the loop `drain` with its flag is the subject of C30-C33), selectors and subscriptions do not throw, repeat(0) and concat of nothing are left out, the counter of retry does not wrap; on_error_resume_next only behind an observable that is silent after an error (Net.Silent): the code goes on listening to others, see C109"
  },
  {
   "property": "C105",
   "status": "proved",
   "theorems": [
    "Rpp.Signal.C105_signal"
   ],
   "note": "Built on the subject model (C42): histories on one thread, without re-entrant calls. Qt is the environment: it calls what is connected in order, a destroyed object emits nothing."
  },
  {
   "property": "C106",
   "status": "partial",
   "theorems": [
    "Rpp.Feed.C106_feedback_partial",
    "Rpp.Feed.C106_take",
    "Rpp.Feed.C106_first_refutes",
    "Rpp.Feed.C106_element_at_refutes",
    "Rpp.Feed.C106_throttle_refutes",
    "Rpp.Feed.C106_buffer_refutes",
    "Rpp.Feed.C106_buffer_moved_refutes",
    "Rpp.Feed.C106_take_end_refutes",
    "Rpp.Feed.C106_ended_twice_refutes"
   ],
   "note": "Proved for pipelines of all operators that touch nothing after passing a value on (map, filter, skip, take_while, take_last, last, distinct, distinct_until_changed, scan, reduce, tap, finally), with stages behind take_while only forwarding the completion; for take: values exact. Refuted for first, element_at, throttle, buffer, the end of take, and last behind take_while."
  },
  {
   "property": "C107",
   "status": "partial",
   "theorems": [
    "Rpp.Subj.Conc.C107_blocks",
    "Rpp.Subj.Conc.C107_same_order_partial",
    "Rpp.Subj.Conc.C107_one_order_partial",
    "Rpp.Subj.Conc.C107_sequential",
    "Rpp.Subj.Conc.C107_nested_refutes",
    "Rpp.Subj.Conc.C107_replay_refutes",
    "Rpp.Subj.Conc.C107_behavior_refutes"
   ],
   "note": "Proved for serialized subjects: the callbacks of two emissions never interleave, so there is one order of which every observer hears a sublist; for any subject when the first on_next has returned before the other emission begins. Refuted for plain subjects emitting from a callback, and for the values a serialized replay or behavior subject repeats to a new observer, because they are stored before the mutex is taken."
  },
  {
   "property": "C108",
   "status": "partial",
   "theorems": [
    "Rpp.WFeed.Group.C108_group_by_partial",
    "Rpp.WFeed.Group.C108_group_by_ends_partial",
    "Rpp.WFeed.Group.C108_firsts",
    "Rpp.WFeed.Group.C108_announced_twice_refutes",
    "Rpp.WFeed.Group.C108_never_ends_refutes",
    "Rpp.WFeed.Count.C108_window_partial",
    "Rpp.WFeed.Count.C108_window_finish_refutes",
    "Rpp.WFeed.Count.C108_window_announced_refutes",
    "Rpp.WFeed.Count.C108_window_announced_ub_refutes",
    "Rpp.WFeed.Count.C108_window_last_refutes",
    "Rpp.WFeed.Count.C108_window_end_refutes"
   ],
   "note": "Proved when nothing of the same key is fed (and the source does not end) during the announcement of a group, and when nothing is fed during the announcement, the end and the last value's callback of a window. Refuted otherwise: the key is announced twice and values are swapped, a group never ends, windows are lost, and an empty std::optional is read (undefined behavior)."
  },
  {
   "property": "C109",
   "status": "partial",
   "theorems": [
    "Rpp.LetGo.C109_resume_partial",
    "Rpp.LetGo.C109_once_partial",
    "Rpp.LetGo.C109_throw_refutes",
    "Rpp.LetGo.C109_twice_refutes",
    "Rpp.LetGo.C109_merge_refutes",
    "Rpp.LetGo.C109_when_refutes",
    "Rpp.LetGo.C109_when_now_refutes",
    "Rpp.LetGo.C109_when_partial",
    "Rpp.LetGo.C109_when_asked_partial"
   ],
   "note": "Proved for on_error_resume_next and retry_when and all pipelines that fail only when their source ends: no function throws, and after take, take_while, first, element_at there is no first, last, element_at. Refuted otherwise (a throwing map, take | skip | first, merge_with): values and the completion of the failed source reach the subscriber, the selector is called again. Refuted for retry_when likewise."
  },
  {
   "property": "C110",
   "status": "partial",
   "theorems": [
    "Rpp.Sched.Wake.C110_woken",
    "Rpp.Sched.Wake.C110_not_forgotten",
    "Rpp.Sched.Wake.C110_empty_partial",
    "Rpp.Sched.Wake.C110_spins",
    "Rpp.Sched.Wake.C110_sleeps_refutes"
   ],
   "note": "No wake-up is lost and a dispatch() over an empty queue sleeps (proved). While the first task waits for its time dispatch() does not sleep: the predicate of wait_for (run_loop.hpp 69) contains !m_queue.is_empty(), which is true, so the call loops over the queue until the task is due (C110_sleeps_refutes, C110_spins). Critical sections and notify_one are single steps; the loop is not destroyed meanwhile."
  },
  {
   "property": "C111",
   "status": "partial",
   "theorems": [
    "Rpp.Sched.NT.C111_ends",
    "Rpp.Sched.NT.C111_woken",
    "Rpp.Sched.NT.C111_deadline_partial",
    "Rpp.Sched.NT.C111_awake_refutes",
    "Rpp.Sched.NT.C111_sleeps_refutes"
   ],
   "note": "Proved: whenever the thread gets to go on, it drops all cancelled tasks and ends. Refuted: nobody notifies the thread when a handler is disposed of, so it sleeps until the time of the task it waits for (new_thread.hpp 90). At that time, at the latest, it wakes. Same machine as C61; critical sections are single steps."
  },
  {
   "property": "C112",
   "status": "partial",
   "theorems": [
    "Rpp.RefCounts.C112_one",
    "Rpp.RefCounts.C112_needed",
    "Rpp.RefCounts.C112_hand",
    "Rpp.RefCounts.C112_values",
    "Rpp.RefCounts.C112_first",
    "Rpp.RefCounts.C112_fed_partial",
    "Rpp.RefCounts.C112_two_refutes",
    "Rpp.RefCounts.C112_hand_refutes",
    "Rpp.RefCounts.C112_stuck"
   ],
   "note": "The last claim is violated: the connection belongs to whoever made it. With two ref_count()s, or a connection made by hand, it is disposed of while others listen, and neither they nor those who join them get a new one (C112_two_refutes, C112_hand_refutes, C112_stuck); it holds for one ref_count() alone (C112_fed_partial). Subscriptions, disposals and connect() are single steps; their races are C48 and C86."
  },
  {
   "property": "C113",
   "status": "partial",
   "theorems": [
    "Rpp.BlkNest.C113_exact",
    "Rpp.BlkNest.C113_safe_partial",
    "Rpp.BlkNest.C113_all",
    "Rpp.BlkNest.C113_callback_refutes",
    "Rpp.BlkNest.C113_inner_refutes",
    "Rpp.BlkNest.C113_new_thread_refutes"
   ],
   "note": "Machine of one thread, its current_thread queue, its call stack and the waits of as_blocking (Verif/Source/BlockingNested.lean). C113_exact says exactly when the thread hangs, for arbitrary callbacks. Partial because the code violates the claim: as_blocking in a callback of a current_thread source, a source under as_blocking inside merge_with and the like, and as_blocking in a task of new_thread wait for a task in the queue of the waiting thread (the three _refutes). Not modelled: sources on other threads (C68), early disposal, delays, exceptions."
  },
  {
   "property": "C114",
   "status": "partial",
   "theorems": [
    "Rpp.C114_exact",
    "Rpp.C114_same",
    "Rpp.C114_lives_partial",
    "Rpp.C114_default",
    "Rpp.C114_default_spec",
    "Rpp.C114_tap_refutes"
   ],
   "note": "Verif/Core/Mortal.lean adds to the observers of Verif.Core.Model the death of the process in noexcept functions. C114_exact says exactly when it happens, C114_default(_spec) for a subscriber without on_error, C114_same that nothing else changes. Partial because the code violates the claim for handlers of errors and completions that throw (C114_tap_refutes, C114_default). Not modelled: exceptions of copy constructors, bad_alloc, calls made by callbacks (C05, C106), multi-source operators, schedulers (C65)."
  },
  {
   "property": "C115",
   "status": "proved",
   "theorems": [
    "Rpp.Shared.C115_publish",
    "Rpp.Shared.C115_behavior",
    "Rpp.Shared.C115_replay",
    "Rpp.Shared.C115_used",
    "Rpp.Shared.C115_up",
    "Rpp.Shared.C115_src",
    "Rpp.Shared.C115_passes",
    "Rpp.Shared.C115_cold",
    "Rpp.Shared.C115_alone",
    "Rpp.Shared.C115_alone_behavior",
    "Rpp.Shared.C115_late"
   ],
   "note": "One thread, one ref_count() or connect() by hand (C112 mixes them, C48 and C86 have threads). The subject is the model of C42-C44, which the proofs use; new are the connection, the reference count and sources that emit while being subscribed."
  },
  {
   "property": "C116",
   "status": "partial",
   "theorems": [
    "Rpp.Sched.PoolRace.C116_in_range",
    "Rpp.Sched.PoolRace.C116_round_robin_partial",
    "Rpp.Sched.PoolRace.C116_same_refutes",
    "Rpp.Sched.PoolRace.C116_back_refutes"
   ],
   "note": "The counter is a plain size_t, so overlapping calls are a data race (undefined behavior); the model takes a read and a write as single steps in some order. Even so round-robin fails (C116_same_refutes, C116_back_refutes); it holds while calls do not overlap, and the index is always in range."
  },
  {
   "property": "C117",
   "status": "partial",
   "theorems": [
    "Rpp.Sched.PoolWait.C117_bounded",
    "Rpp.Sched.PoolWait.C117_steps",
    "Rpp.Sched.PoolWait.C117_no_hang_partial",
    "Rpp.Sched.PoolWait.C117_finishes_partial",
    "Rpp.Sched.PoolWait.C117_new_thread",
    "Rpp.Sched.PoolWait.C117_never_waits",
    "Rpp.Sched.PoolWait.C117_cycle",
    "Rpp.Sched.PoolWait.C117_cycle_hangs",
    "Rpp.Sched.PoolWait.C117_wait_refutes"
   ],
   "note": "Proved if tasks of a pool wait only for pools of a higher level or threads of their own, in particular for new_thread alone and for tasks that never wait; refuted without that: on a pool of n threads, a task that waits n times in turn for empty sources of the pool never ends (C117_wait_refutes). get() of a pool is one step here, its race is C116; a wait of a current_thread queue's owner is C113. Without any condition a hang is exactly a circle of running tasks, each waiting for a task queued on the next one's thread, with a pool's thread in it (C117_cycle, C117_cycle_hangs)."
  },
  {
   "property": "C118",
   "status": "proved",
   "theorems": [
    "Rpp.C118_observer",
    "Rpp.C118_seen",
    "Rpp.C118_same",
    "Rpp.C118_skips",
    "Rpp.C118_capacity"
   ],
   "note": "Chains of the single-source operators of C04 (without ownership, which is C90). The container of fixed size and the one of any size agree as long as the former has room (C54): C118_capacity."
  },
  {
   "property": "C119",
   "status": "partial",
   "theorems": [
    "Rpp.C119_immediate",
    "Rpp.C119_scheduled",
    "Rpp.C119_endless_immediate",
    "Rpp.C119_endless_scheduled",
    "Rpp.C119_take",
    "Rpp.C119_never",
    "Rpp.C119_killed",
    "Rpp.C119_finite",
    "Rpp.C119_one_more_refutes"
   ],
   "note": "Proved up to one element: the loop of the immediate source reads the next element before it looks whether anybody wants it (C119_one_more_refutes); the scheduled source does not. Advancing and comparing iterators is taken to make no element and not to throw."
  },
  {
   "property": "C120",
   "status": "proved",
   "theorems": [
    "Rpp.C120_enough",
    "Rpp.C120_passes_end",
    "Rpp.C120_completes",
    "Rpp.C120_endless",
    "Rpp.C120_take",
    "Rpp.C120_spins",
    "Rpp.C120_killed"
   ],
   "note": "On one thread; observables do not throw out of subscribe (see C92), the counter does not wrap (see C31), and the operator's disposable is disposed exactly if the observer is (C03)."
  },
  {
   "property": "C121",
   "status": "proved",
   "theorems": [
    "Rpp.C121_enough",
    "Rpp.C121_error",
    "Rpp.C121_all",
    "Rpp.C121_endless",
    "Rpp.C121_same",
    "Rpp.C121_concat_queue",
    "Rpp.C121_killed"
   ],
   "note": "On one thread, with an outer source that does not fail; observables do not throw out of subscribe (see C92), and the operators' disposables are disposed exactly if the observer is (C03)."
  },
  {
   "property": "C122",
   "status": "proved",
   "theorems": [
    "Rpp.C122_enough",
    "Rpp.C122_ends",
    "Rpp.C122_other_fails",
    "Rpp.C122_other_endless",
    "Rpp.C122_endless",
    "Rpp.C122_zip_stores"
   ],
   "note": "On one thread, with one other observable; observables do not throw out of subscribe (see C92), the operators' disposables are disposed exactly if the observer is (C03), and nothing is disposed from another thread. That zip goes on after one side has run out is disagreement 43."
  },
  {
   "property": "C123",
   "status": "partial",
   "theorems": [
    "Rpp.C123_delay",
    "Rpp.C123_late",
    "Rpp.C123_debounce_refutes",
    "Rpp.C123_timeout_refutes"
   ],
   "note": "On one thread, sources and fallbacks do not throw out of subscribe, callbacks do not emit into the source. Proved for delay and observe_on; false for debounce, which waits for its own mutex (disagreement 61), and for timeout, which always gives up (disagreement 62)."
  },
  {
   "property": "C124",
   "status": "proved",
   "theorems": [
    "Rpp.C124_enough",
    "Rpp.C124_ends",
    "Rpp.C124_endless",
    "Rpp.C124_resume"
   ],
   "note": "On one thread; subscribe does not throw, callbacks do not emit into the source, at most one disposable reaches the observer. What happens across threads is C30-C34, what happens to disposables C109."
  },
  {
   "property": "C125",
   "status": "proved",
   "theorems": [
    "Rpp.C125_fires",
    "Rpp.C125_trigger_ends",
    "Rpp.C125_enough",
    "Rpp.C125_ends",
    "Rpp.C125_endless"
   ],
   "note": "On one thread; subscribe does not throw, callbacks do not emit into either observable, at most one disposable reaches the observer. Across threads: C35; locks: C69, C95."
  },
  {
   "property": "C126",
   "status": "proved",
   "theorems": [
    "Rpp.C126_turns",
    "Rpp.C126_until"
   ],
   "note": "Two sources on one thread, nobody disposes from outside; the scheduler is that of C56 and C70. What the operators do if the sources run on the immediate scheduler is C122 and C125."
  },
  {
   "property": "C127",
   "status": "proved",
   "theorems": [
    "Rpp.C127_enough",
    "Rpp.C127_returns",
    "Rpp.C127_take",
    "Rpp.C127_throws",
    "Rpp.C127_enough_first"
   ],
   "note": "One thread, nobody disposes from outside; all time points are due, so that tasks run first come, first served (C70). On the immediate scheduler the first endless source never lets go (C122)."
  },
  {
   "property": "C128",
   "status": "proved",
   "theorems": [
    "Rpp.C128_enough",
    "Rpp.C128_returns",
    "Rpp.C128_fair",
    "Rpp.C128_take"
   ],
   "note": "One thread, nobody disposes from outside; all time points are due, so that tasks run first come, first served (C70, which covers finite containers)."
  },
  {
   "property": "C129",
   "status": "proved",
   "theorems": [
    "Rpp.C129_enough",
    "Rpp.C129_fair",
    "Rpp.C129_even",
    "Rpp.C129_returns",
    "Rpp.C129_finite"
   ],
   "note": "One thread, nobody disposes from outside; all time points are due, so that tasks run first come, first served (C70). How many values are taken from each source when the subscriber stops within a round is shown for endless sources in C128."
  },
  {
   "property": "C130",
   "status": "proved",
   "theorems": [
    "Rpp.C130_enough",
    "Rpp.C130_fair",
    "Rpp.C130_all",
    "Rpp.C130_returns",
    "Rpp.C130_take"
   ],
   "note": "One thread, nobody disposes from outside; all time points are due, so that tasks run first come, first served (C70). The function given to flat_map does not throw. What happens on the immediate scheduler is C121."
  }
 ]
}
