import Verif.Core.Props
import Verif.Core.Reentry
import Verif.Disposable.CompositeProps
import Verif.Disposable.Base
import Verif.Disposable.RefcountProps
import Verif.Disposable.Container
import Verif.Disposable.Capacity
import Verif.Scheduler.Queue
import Verif.Scheduler.CurrentThreadProps
import Verif.Scheduler.Immediate
import Verif.Scheduler.TestScheduler
import Verif.Scheduler.RunLoop
import Verif.Scheduler.NewThreadProps
import Verif.Subject.Props
import Verif.Subject.ConcurrentProps
import Verif.Subject.ConcurrentWalk
import Verif.Subject.ConcurrentFresh
import Verif.Subject.RefCountProps
import Verif.Combine.Props
import Verif.Combine.SwitchProps
import Verif.Combine.SwitchFineProps
import Verif.Combine.ConcatProps
import Verif.Resub.Props
import Verif.Resub.Repeat
import Verif.Time.DelayProps
import Verif.Time.ObserveOnProps
import Verif.Time.TimeoutProps
import Verif.Time.DebounceProps
import Verif.Window.WindowProps
import Verif.Window.GroupByProps
import Verif.Window.Late
import Verif.Window.ToggleProps
import Verif.Source.FromProps
import Verif.Source.IntervalProps
import Verif.Source.BlockingProps
import Verif.Source.RoundRobin
import Verif.Combine.ReentryProps
import Verif.Core.Algebra
import Verif.Ext.GrpcProps
import Verif.Ext.StrandProps
import Verif.Ext.QtProps
import Verif.Subject.ConnectProps
import Verif.Disposable.OwnerProps
import Verif.Source.SubscribeOnProps
import Verif.Disposable.GraphProps
import Verif.Disposable.GraphDispose
import Verif.Disposable.GraphKept
import Verif.Resub.StackProps
import Verif.Resub.StackCount
import Verif.Core.CrossProps
import Verif.Combine.LocksProps
import Verif.Combine.SerialProps
import Verif.Combine.FlagProps
import Verif.Combine.ZipMovedProps
import Verif.Core.ShareProps
import Verif.Time.StagesProps
import Verif.Time.StagesTurns
import Verif.Core.StorageProps
import Verif.Net.Props
import Verif.Net.FlatProps
import Verif.Net.FollowProps
import Verif.Ext.Signal
import Verif.Core.FeedProps
import Verif.Subject.AgreeProps
import Verif.Window.FeedBackProps
import Verif.LetGo.Props
import Verif.LetGo.WhenProps
import Verif.Scheduler.RunLoopWakeProps
import Verif.Scheduler.NewThreadEnds
import Verif.Subject.RefCountsProps
import Verif.Source.BlockingNestedProps
import Verif.Core.MortalProps
import Verif.Subject.ShareProps
import Verif.Scheduler.PoolRaceProps
import Verif.Scheduler.PoolWaitProps
import Verif.Core.EraseProps
import Verif.Source.EndlessProps
import Verif.Resub.SyncProps
import Verif.Combine.SyncFlatProps
import Verif.Combine.SyncPairProps
import Verif.Time.CallerProps
import Verif.Resub.SyncHandleProps
import Verif.Combine.SyncUntilProps
import Verif.Combine.TurnsProps
import Verif.Combine.TurnsEndlessProps
import Verif.Combine.TurnsThrowProps
import Verif.Combine.MergeEndlessProps
import Verif.Combine.MergeMixedProps
import Verif.Combine.FlatEndlessProps

/-! Axioms used by every property theorem (generated by tools/manifest.py). -/

#print axioms Rpp.C01_grammar
#print axioms Rpp.C01_silent_after_dispose
#print axioms Rpp.C01_silent_after_terminal
#print axioms Rpp.C01_exact
#print axioms Rpp.C02_throw_becomes_error
#print axioms Rpp.C02_throw_after_dispose_swallowed
#print axioms Rpp.C03_released_partial
#print axioms Rpp.C03_overflow_refutes
#print axioms Rpp.C04_pipeline
#print axioms Rpp.C04_pipeline_grammar
#print axioms Rpp.C04_pipeline_dispose
#print axioms Rpp.C04_seen
#print axioms Rpp.Reentry.C05_reentrant_partial
#print axioms Rpp.Reentry.C05_silent_afterwards
#print axioms Rpp.Reentry.C05_reentrant_terminal_refutes
#print axioms Rpp.C06_map
#print axioms Rpp.C06_map_throw
#print axioms Rpp.C07_filter
#print axioms Rpp.C07_filter_throw
#print axioms Rpp.C08_take
#print axioms Rpp.C08_take_zero
#print axioms Rpp.C09_skip
#print axioms Rpp.C10_take_while
#print axioms Rpp.C10_take_while_throw
#print axioms Rpp.C11_take_last
#print axioms Rpp.C11_take_last_otherwise
#print axioms Rpp.C12_first
#print axioms Rpp.C12_first_empty
#print axioms Rpp.C12_last
#print axioms Rpp.C12_last_otherwise
#print axioms Rpp.C13_element_at_partial
#print axioms Rpp.C13_element_at_max_refutes
#print axioms Rpp.C14_distinct
#print axioms Rpp.C15_distinct_until_changed
#print axioms Rpp.C15_runs
#print axioms Rpp.C16_scan
#print axioms Rpp.C16_scan_no_seed
#print axioms Rpp.C16_scan_throw
#print axioms Rpp.C17_reduce
#print axioms Rpp.C17_reduce_otherwise
#print axioms Rpp.C17_reduce_no_seed
#print axioms Rpp.C17_reduce_no_seed_otherwise
#print axioms Rpp.C17_reduce_throw
#print axioms Rpp.C18_chunk_size
#print axioms Rpp.C18_buffer_otherwise
#print axioms Rpp.C18_buffer
#print axioms Rpp.Win.C19_actions
#print axioms Rpp.Win.C19_actions_prefix
#print axioms Rpp.Win.C19_opens
#print axioms Rpp.Win.C19_window_gets
#print axioms Rpp.Win.C19_window_prefix
#print axioms Rpp.Win.C19_each_value_once
#print axioms Rpp.Win.C19_main_end
#print axioms Rpp.Win.C19_observer
#print axioms Rpp.Win.C19_late
#print axioms Rpp.Win.C19_no_ub
#print axioms Rpp.Win.C19_finishes
#print axioms Rpp.Win.C20_keys
#print axioms Rpp.Win.C20_keys_distinct
#print axioms Rpp.Win.C20_actions
#print axioms Rpp.Win.C20_opens
#print axioms Rpp.Win.C20_group_gets
#print axioms Rpp.Win.C20_group_gets_alone
#print axioms Rpp.Win.C20_group_prefix
#print axioms Rpp.Win.C20_no_other_group
#print axioms Rpp.Win.C20_each_value_once
#print axioms Rpp.Win.C20_main_end
#print axioms Rpp.Win.C20_observer
#print axioms Rpp.Win.C20_late
#print axioms Rpp.Win.C20_finishes
#print axioms Rpp.Win.C20_late_end
#print axioms Rpp.C21_tap
#print axioms Rpp.C21_tap_transparent
#print axioms Rpp.C21_finally
#print axioms Rpp.C22_throttle
#print axioms Rpp.C22_throttle_spacing
#print axioms Rpp.Comb.C23_lossless
#print axioms Rpp.Comb.C23_prefix
#print axioms Rpp.Comb.C23_origin
#print axioms Rpp.Comb.C23_completes_last
#print axioms Rpp.Comb.C23_error_origin
#print axioms Rpp.Comb.C23_error_order
#print axioms Rpp.Comb.C23_completes
#print axioms Rpp.Comb.C23_error_ends
#print axioms Rpp.Comb.C23_heard
#print axioms Rpp.Comb.C23_serialized
#print axioms Rpp.Comb.C24_by_index
#print axioms Rpp.Comb.C24_count
#print axioms Rpp.Comb.C24_complete_count
#print axioms Rpp.Comb.C24_completes_last
#print axioms Rpp.Comb.C24_error_origin
#print axioms Rpp.Comb.C24_completes
#print axioms Rpp.Comb.C24_error_ends
#print axioms Rpp.Comb.C24_heard
#print axioms Rpp.Comb.C24_serialized
#print axioms Rpp.Comb.C25_prefix
#print axioms Rpp.Comb.C25_exact
#print axioms Rpp.Comb.C25_taken
#print axioms Rpp.Comb.C25_completes_last
#print axioms Rpp.Comb.C25_error_origin
#print axioms Rpp.Comb.C25_completes
#print axioms Rpp.Comb.C25_error_ends
#print axioms Rpp.Comb.C25_heard
#print axioms Rpp.Comb.C25_serialized
#print axioms Rpp.Comb.C26_prefix
#print axioms Rpp.Comb.C26_exact
#print axioms Rpp.Comb.C26_taken
#print axioms Rpp.Comb.C26_completes_only
#print axioms Rpp.Comb.C26_complete_exact
#print axioms Rpp.Comb.C26_ends
#print axioms Rpp.Comb.C26_error_origin
#print axioms Rpp.Comb.C26_heard
#print axioms Rpp.Comb.C26_serialized
#print axioms Rpp.Comb.C27_current
#print axioms Rpp.Comb.C27_prefix
#print axioms Rpp.Comb.C27_no_late
#print axioms Rpp.Comb.C27_completes_last
#print axioms Rpp.Comb.C27_error_origin
#print axioms Rpp.Comb.C27_completes
#print axioms Rpp.Comb.C27_error_ends
#print axioms Rpp.Comb.C27_serialized
#print axioms Rpp.Comb.C27_only_current
#print axioms Rpp.Comb.C27_switch
#print axioms Rpp.Comb.C27_unserialized_stale
#print axioms Rpp.SwFine.C27_completes_last_atomic
#print axioms Rpp.SwFine.C27_once_atomic
#print axioms Rpp.SwFine.C27_completes_atomic
#print axioms Rpp.SwFine.C27_current_atomic
#print axioms Rpp.SwFine.C27_values_atomic
#print axioms Rpp.Cat.C28_one_at_a_time
#print axioms Rpp.Cat.C28_next
#print axioms Rpp.Cat.C28_prefix
#print axioms Rpp.Cat.C28_concatenation
#print axioms Rpp.Cat.C28_completes_last
#print axioms Rpp.Cat.C28_completes
#print axioms Rpp.Cat.C28_error_ends
#print axioms Rpp.Cat.C28_error_origin
#print axioms Rpp.Cat.C28_serialized
#print axioms Rpp.Cat.C28_assertion
#print axioms Rpp.Cat.C28_order_partial
#print axioms Rpp.Cat.C28_race_refutes
#print axioms Rpp.Cat.C29_partial
#print axioms Rpp.Cat.C29_complete_partial
#print axioms Rpp.Cat.C29_refutes
#print axioms Rpp.Cat.C29_completes_refutes
#print axioms Rpp.Resub.C30_concat_order
#print axioms Rpp.Resub.C30_concat_items
#print axioms Rpp.Resub.C30_concat_prefix
#print axioms Rpp.Resub.C30_concat_values
#print axioms Rpp.Resub.C30_concat_all_values
#print axioms Rpp.Resub.C30_concat_completes_last
#print axioms Rpp.Resub.C30_concat_completes
#print axioms Rpp.Resub.C30_concat_error_origin
#print axioms Rpp.Resub.C30_concat_error_ends
#print axioms Rpp.Resub.C30_repeat_order
#print axioms Rpp.Resub.C30_repeat_completes_last
#print axioms Rpp.Resub.C30_repeat_completes
#print axioms Rpp.Resub.C30_repeat_error_origin
#print axioms Rpp.Resub.C30_repeat_values
#print axioms Rpp.Resub.C30_repeat_forever
#print axioms Rpp.Resub.C30_repeat_forever_order
#print axioms Rpp.Resub.C30_repeat_forever_on
#print axioms Rpp.Resub.C30_start_with
#print axioms Rpp.Resub.C31_at_most
#print axioms Rpp.Resub.C31_order
#print axioms Rpp.Resub.C31_completes
#print axioms Rpp.Resub.C31_error
#print axioms Rpp.Resub.C31_goes_on
#print axioms Rpp.Resub.C31_forever
#print axioms Rpp.Resub.C31_prefix
#print axioms Rpp.Resub.C32_never_two
#print axioms Rpp.Resub.C32_handed_once
#print axioms Rpp.Resub.C32_never_zero
#print axioms Rpp.Resub.C32_exactly_one
#print axioms Rpp.Resub.C32_last_speaks
#print axioms Rpp.Resub.C32_serialized
#print axioms Rpp.Resub.C33_once
#print axioms Rpp.Resub.C33_prefix
#print axioms Rpp.Resub.C33_values
#print axioms Rpp.Resub.C33_selector
#print axioms Rpp.Resub.C33_end
#print axioms Rpp.Resub.C33_goes_on
#print axioms Rpp.Resub.C34_order
#print axioms Rpp.Resub.C34_notifier
#print axioms Rpp.Resub.C34_one_value
#print axioms Rpp.Resub.C34_goes_on
#print axioms Rpp.Resub.C34_end
#print axioms Rpp.Resub.C34_prefix
#print axioms Rpp.Resub.C34_values
#print axioms Rpp.Comb.C35_mirror
#print axioms Rpp.Comb.C35_values
#print axioms Rpp.Comb.C35_mirror_exact
#print axioms Rpp.Comb.C35_notifier_ends
#print axioms Rpp.Comb.C35_origin
#print axioms Rpp.Comb.C35_serialized
#print axioms Rpp.Time.Delay.C36_order
#print axioms Rpp.Time.Delay.C36_terminal_last
#print axioms Rpp.Time.Delay.C36_serial
#print axioms Rpp.Time.Delay.C36_lossless
#print axioms Rpp.Time.Delay.C36_on_time
#print axioms Rpp.Time.Delay.C37_overlap_refutes
#print axioms Rpp.Time.Delay.C37_precedes_refutes
#print axioms Rpp.Time.Delay.C37_values_partial
#print axioms Rpp.Time.Delay.C37_after_terminal_partial
#print axioms Rpp.Time.Delay.C37_serial_partial
#print axioms Rpp.Time.Delay.C37_terminal_last_partial
#print axioms Rpp.Time.Delay.C37_cancels_partial
#print axioms Rpp.Time.Debounce.C38_order
#print axioms Rpp.Time.Debounce.C38_quiet
#print axioms Rpp.Time.Debounce.C38_superseded
#print axioms Rpp.Time.Debounce.C38_emits
#print axioms Rpp.Time.Debounce.C38_emits_last
#print axioms Rpp.Time.Debounce.C38_timer
#print axioms Rpp.Time.Debounce.C38_delivered
#print axioms Rpp.Time.Debounce.C38_flush_partial
#print axioms Rpp.Time.Debounce.C38_error_drops
#print axioms Rpp.Time.Debounce.C38_terminal_last
#print axioms Rpp.Time.Debounce.C38_serial
#print axioms Rpp.Time.Debounce.C38_race_refutes
#print axioms Rpp.Time.Timeout.C39_prefix
#print axioms Rpp.Time.Timeout.C39_mirror
#print axioms Rpp.Time.Timeout.C39_not_early
#print axioms Rpp.Time.Timeout.C39_timer
#print axioms Rpp.Time.Timeout.C39_exact
#print axioms Rpp.Time.Timeout.C39_switches
#print axioms Rpp.Time.Timeout.C39_fallback_when
#print axioms Rpp.Time.Timeout.C39_fallback_passed
#print axioms Rpp.Time.Timeout.C39_heard
#print axioms Rpp.Time.Timeout.C40_refutes
#print axioms Rpp.Time.Timeout.C40_nothing_partial
#print axioms Rpp.Time.Timeout.C40_in_flight_partial
#print axioms Rpp.Time.Timeout.C40_at_most_one_partial
#print axioms Rpp.Time.Timeout.C40_serial_partial
#print axioms Rpp.Win.Toggle.C41_opens
#print axioms Rpp.Win.Toggle.C41_fed_only
#print axioms Rpp.Win.Toggle.C41_call
#print axioms Rpp.Win.Toggle.C41_terminates
#print axioms Rpp.Win.Toggle.C41_closes
#print axioms Rpp.Win.Toggle.C41_main
#print axioms Rpp.Win.Toggle.C41_values
#print axioms Rpp.Win.Toggle.C41_observer_partial
#print axioms Rpp.Win.Toggle.C41_erase_partial
#print axioms Rpp.Win.Toggle.C41_finishes
#print axioms Rpp.Win.Toggle.C41_race_refutes
#print axioms Rpp.Win.Toggle.C41_late_value_refutes
#print axioms Rpp.Win.Toggle.C41_lost_value_refutes
#print axioms Rpp.Win.Toggle.C41_erase_refutes
#print axioms Rpp.Subj.C42_publish
#print axioms Rpp.Subj.C42_publish_passive
#print axioms Rpp.Subj.C42_only_subscribers
#print axioms Rpp.Subj.C43_behavior
#print axioms Rpp.Subj.C44_replay
#print axioms Rpp.Subj.C44_bound
#print axioms Rpp.Subj.Conc.C45_replay_reads
#print axioms Rpp.Subj.Conc.C45_behavior_reads
#print axioms Rpp.Subj.Conc.C45_replayed
#print axioms Rpp.Subj.Conc.C45_no_loss_partial
#print axioms Rpp.Subj.Conc.C45_gap_refutes
#print axioms Rpp.Subj.Conc.C45_behavior_gap_refutes
#print axioms Rpp.Subj.Conc.C45_twice_refutes
#print axioms Rpp.Subj.Conc.C46_no_overlap_partial
#print axioms Rpp.Subj.Conc.C46_nothing_after_terminal
#print axioms Rpp.Subj.Conc.C46_late_refutes
#print axioms Rpp.Subj.Conc.C46_replay_refutes
#print axioms Rpp.Subj.Conc.C47_only_subscribed_partial
#print axioms Rpp.Subj.Conc.C47_all_subscribed_partial
#print axioms Rpp.Subj.Conc.C47_order
#print axioms Rpp.Subj.Conc.C47_iterators_refutes
#print axioms Rpp.Subj.Conc.C47_iterators_partial
#print axioms Rpp.Subj.Conc.C47_cleanup_partial
#print axioms Rpp.RefCount.C48_connects_on_first
#print axioms Rpp.RefCount.C48_one_connection
#print axioms Rpp.RefCount.C48_disconnects_only_when_unused
#print axioms Rpp.RefCount.C48_disconnected_when_unused
#print axioms Rpp.RefCount.C48_connected_when_used
#print axioms Rpp.RefCount.C48_no_reconnect_after_end
#print axioms Rpp.RefCount.C48_race_refutes
#print axioms Rpp.RefCount.C48_nobody_left_out_partial
#print axioms Rpp.Composite.C49_no_leak
#print axioms Rpp.Composite.C49_container_exclusive
#print axioms Rpp.Composite.C49_add_after_dispose
#print axioms Rpp.Composite.C49_capacity
#print axioms Rpp.Composite.C49_added_child_disposed
#print axioms Rpp.Composite.C50_composite_action_once
#print axioms Rpp.Composite.C50_removed_spared
#print axioms Rpp.Base.C50_callback_once
#print axioms Rpp.Refcount.C51_never_early
#print axioms Rpp.Refcount.C51_not_late
#print axioms Rpp.Refcount.C51_exactly_when_last
#print axioms Rpp.Refcount.C51_counter
#print axioms Rpp.Refcount.C51_disposes_refs
#print axioms Rpp.Refcount.C51_no_ref_after
#print axioms Rpp.Container.C52_static_like_dynamic
#print axioms Rpp.Container.C52_static_bounded_list
#print axioms Rpp.Container.C52_push_throws_iff_full
#print axioms Rpp.Composite.C53_clear_reentry_refutes
#print axioms Rpp.Composite.C53_clear_returns_partial
#print axioms Rpp.Composite.C53_disposed_never_spins
#print axioms Rpp.Capacity.C54_capacity
#print axioms Rpp.Capacity.C54_never_throws
#print axioms Rpp.Sched.C55_order
#print axioms Rpp.Sched.C55_lossless
#print axioms Rpp.Sched.C55_pop_succeeds
#print axioms Rpp.Sched.C56_order
#print axioms Rpp.Sched.C56_not_early
#print axioms Rpp.Sched.C56_after_parent
#print axioms Rpp.Sched.C56_not_nested
#print axioms Rpp.Sched.C56_all_run
#print axioms Rpp.Sched.C56_times
#print axioms Rpp.Sched.C57_refutes
#print axioms Rpp.Sched.C57_burst_refutes
#print axioms Rpp.Sched.C57_busy_partial
#print axioms Rpp.Sched.C57_alone_partial
#print axioms Rpp.Sched.Imm.C58_synchronous
#print axioms Rpp.Sched.Imm.C58_not_early
#print axioms Rpp.Sched.Imm.C58_back_to_back
#print axioms Rpp.Sched.Imm.C58_disposed_stops
#print axioms Rpp.Sched.Test.C59_order
#print axioms Rpp.Sched.Test.C59_nothing_due_left
#print axioms Rpp.Sched.Test.C59_idle
#print axioms Rpp.Sched.Test.C59_dropped_only_if_disposed
#print axioms Rpp.Sched.Test.C59_times
#print axioms Rpp.Sched.Test.C59_requests_kept
#print axioms Rpp.Sched.Test.C59_reports
#print axioms Rpp.Sched.RunLoop.C60_order
#print axioms Rpp.Sched.RunLoop.C60_not_early
#print axioms Rpp.Sched.RunLoop.C60_at_most_one
#print axioms Rpp.Sched.RunLoop.C60_nothing_only_if_none_due
#print axioms Rpp.Sched.RunLoop.C60_takes_ready
#print axioms Rpp.Sched.RunLoop.C60_rescheduled
#print axioms Rpp.Sched.RunLoop.C60_after_dispose
#print axioms Rpp.Sched.NT.C61_not_early
#print axioms Rpp.Sched.NT.C61_order
#print axioms Rpp.Sched.NT.C61_requests_kept
#print axioms Rpp.Sched.NT.C61_exit
#print axioms Rpp.Sched.NT.C61_exit_last
#print axioms Rpp.Sched.NT.C61_refutes
#print axioms Rpp.Sched.NT.C61_late_refutes
#print axioms Rpp.Sched.NT.C61_on_time_partial
#print axioms Rpp.Sched.NT.C61_progress
#print axioms Rpp.Sched.Pool.C62_round_robin
#print axioms Rpp.Sched.Pool.C62_balanced
#print axioms Rpp.Sched.Pool.C62_in_range
#print axioms Rpp.Sched.NT.C63_starved_refutes
#print axioms Rpp.Sched.NT.C63_refutes
#print axioms Rpp.Sched.NT.C63_from_this_refutes
#print axioms Rpp.Sched.NT.C63_in_place_partial
#print axioms Rpp.Sched.NT.C63_queued_partial
#print axioms Rpp.Sched.C64_current_thread_partial
#print axioms Rpp.Sched.C64_current_thread_refutes
#print axioms Rpp.Sched.Imm.C64_immediate
#print axioms Rpp.Sched.Test.C64_test_scheduler
#print axioms Rpp.Sched.RunLoop.C64_run_loop
#print axioms Rpp.Sched.NT.C64_new_thread
#print axioms Rpp.Sched.C65_current_thread
#print axioms Rpp.Sched.C65_current_thread_only_on_throw
#print axioms Rpp.Sched.Imm.C65_immediate
#print axioms Rpp.Sched.Imm.C65_immediate_only_on_throw
#print axioms Rpp.Sched.Test.C65_test_scheduler
#print axioms Rpp.Sched.RunLoop.C65_run_loop
#print axioms Rpp.Sched.NT.C65_new_thread
#print axioms Rpp.C66_immediate
#print axioms Rpp.C66_scheduled
#print axioms Rpp.C66_same
#print axioms Rpp.C66_immediate_stops
#print axioms Rpp.C66_scheduled_stops
#print axioms Rpp.C66_immediate_prefix
#print axioms Rpp.C66_scheduled_prefix
#print axioms Rpp.C66_just
#print axioms Rpp.Interval.C67_values
#print axioms Rpp.Interval.C67_counts
#print axioms Rpp.Interval.C67_timer
#print axioms Rpp.Interval.C67_stops
#print axioms Rpp.Interval.C67_leaves_queue
#print axioms Rpp.Interval.C67_new_thread
#print axioms Rpp.Interval.C67_run_loop
#print axioms Rpp.Interval.C67_test_scheduler
#print axioms Rpp.Interval.C67_immediate
#print axioms Rpp.Interval.C67_current_thread_busy_partial
#print axioms Rpp.Interval.C67_current_thread_alone_partial
#print axioms Rpp.Interval.C67_current_thread_refutes
#print axioms Rpp.Blocking.C68_disposed_on_end
#print axioms Rpp.Blocking.C68_returns_only_after
#print axioms Rpp.Blocking.C68_always_returns
#print axioms Rpp.Blocking.C68_two_turns
#print axioms Rpp.Emit.C69_partial
#print axioms Rpp.Emit.C69_returns_partial
#print axioms Rpp.Emit.C69_open_partial
#print axioms Rpp.Emit.C69_with_latest_from_partial
#print axioms Rpp.Emit.C69_refutes
#print axioms Rpp.Emit.C69_operators_refutes
#print axioms Rpp.RoundRobin.C70_prefix
#print axioms Rpp.RoundRobin.C70_complete
#print axioms Rpp.Win.C71_window
#print axioms Rpp.Win.C71_group_by
#print axioms Rpp.C72_congr
#print axioms Rpp.C72_map_map
#print axioms Rpp.C72_filter_filter
#print axioms Rpp.C72_takeWhile_takeWhile
#print axioms Rpp.C72_take_take
#print axioms Rpp.C72_skip_skip
#print axioms Rpp.C72_takeLast_takeLast
#print axioms Rpp.C72_distinct_distinct
#print axioms Rpp.C72_distinctUntilChanged_twice
#print axioms Rpp.C72_map_filter
#print axioms Rpp.C72_map_take
#print axioms Rpp.C72_map_skip
#print axioms Rpp.C72_skip_take
#print axioms Rpp.C72_elementAt
#print axioms Rpp.C72_first
#print axioms Rpp.C72_last
#print axioms Rpp.C72_reduce
#print axioms Rpp.C72_reduceNoSeed
#print axioms Rpp.C72_buffer_one
#print axioms Rpp.C72_map_id
#print axioms Rpp.C72_filter_true
#print axioms Rpp.C72_takeWhile_true
#print axioms Rpp.C72_skip_zero
#print axioms Rpp.C72_tap
#print axioms Rpp.C72_finally
#print axioms Rpp.C72_map_take_zero
#print axioms Rpp.C72_map_skip_throwing
#print axioms Rpp.C72_skip_take_zero
#print axioms Rpp.C72_filter_take
#print axioms Rpp.Grpc.C73_order
#print axioms Rpp.Grpc.C73_rules
#print axioms Rpp.Grpc.C73_close
#print axioms Rpp.Grpc.C73_completed
#print axioms Rpp.Grpc.C73_error_partial
#print axioms Rpp.Grpc.C73_error_refutes
#print axioms Rpp.Grpc.C73_single_thread
#print axioms Rpp.Grpc.C74_reads
#print axioms Rpp.Grpc.C74_shown
#print axioms Rpp.Grpc.C74_end
#print axioms Rpp.Grpc.C74_no_early_end
#print axioms Rpp.Grpc.C74_contract_partial
#print axioms Rpp.Grpc.C74_client_contract
#print axioms Rpp.Grpc.C74_contract_refutes
#print axioms Rpp.Grpc.C75_partial
#print axioms Rpp.Grpc.C75_server_read
#print axioms Rpp.Grpc.C75_finishes
#print axioms Rpp.Grpc.C75_server_read_finishes
#print axioms Rpp.Grpc.C75_bidi_refutes
#print axioms Rpp.Grpc.C75_write_refutes
#print axioms Rpp.Grpc.C76_partial
#print axioms Rpp.Grpc.C76_refutes
#print axioms Rpp.Strand.C77_serial
#print axioms Rpp.Strand.C77_stays_partial
#print axioms Rpp.Strand.C77_refutes
#print axioms Rpp.Strand.C78_starts
#print axioms Rpp.Strand.C78_once
#print axioms Rpp.Strand.C78_given_up
#print axioms Rpp.Strand.C78_served
#print axioms Rpp.Strand.C79_partial
#print axioms Rpp.Strand.C79_refutes
#print axioms Rpp.Strand.C80_partial
#print axioms Rpp.Strand.C80_refutes
#print axioms Rpp.Strand.C81_partial
#print axioms Rpp.Strand.C81_refutes
#print axioms Rpp.Strand.C82_partial
#print axioms Rpp.Strand.C82_refutes
#print axioms Rpp.Qt.C83_serial
#print axioms Rpp.Qt.C83_starts_partial
#print axioms Rpp.Qt.C83_refutes
#print axioms Rpp.Qt.C83_once
#print axioms Rpp.Qt.C83_dropped
#print axioms Rpp.Qt.C83_no_app
#print axioms Rpp.Qt.C83_no_app_after_quit
#print axioms Rpp.Qt.C83_app_after_launch
#print axioms Rpp.Qt.C83_after_quit
#print axioms Rpp.Qt.C84_partial
#print axioms Rpp.Qt.C84_refutes
#print axioms Rpp.Qt.C85_partial
#print axioms Rpp.Qt.C85_refutes
#print axioms Rpp.Connect.C86_single
#print axioms Rpp.Connect.C86_opened
#print axioms Rpp.Connect.C86_joined
#print axioms Rpp.Connect.C86_refused
#print axioms Rpp.Connect.C86_no_effect
#print axioms Rpp.Connect.C86_connected
#print axioms Rpp.Connect.C86_after_end
#print axioms Rpp.Connect.C86_values
#print axioms Rpp.Connect.C86_serial_partial
#print axioms Rpp.Connect.C86_overlap_refutes
#print axioms Rpp.Connect.C87_partial
#print axioms Rpp.Connect.C87_end_partial
#print axioms Rpp.Connect.C87_refutes
#print axioms Rpp.Owner.C88_once
#print axioms Rpp.Owner.C88_kept
#print axioms Rpp.Owner.C88_destroyed
#print axioms Rpp.Owner.C88_asked
#print axioms Rpp.Owner.C88_stored
#print axioms Rpp.Owner.C88_children
#print axioms Rpp.Owner.C88_cleared
#print axioms Rpp.Owner.C88_late
#print axioms Rpp.Owner.C88_released_partial
#print axioms Rpp.Owner.C88_cycle_refutes
#print axioms Rpp.SubOn.C89_once
#print axioms Rpp.SubOn.C89_where
#print axioms Rpp.SubOn.C89_disposed
#print axioms Rpp.SubOn.C89_in_the_end
#print axioms Rpp.SubOn.C89_error_partial
#print axioms Rpp.SubOn.C89_never_told
#print axioms Rpp.SubOn.C89_lost_refutes
#print axioms Rpp.Graph.C90_no_ring
#print axioms Rpp.Graph.C90_released
#print axioms Rpp.Graph.C90_exact
#print axioms Rpp.Graph.C90_operators
#print axioms Rpp.Graph.C90_kept_refutes
#print axioms Rpp.Graph.C91_disposed
#print axioms Rpp.Graph.C91_leaves
#print axioms Rpp.Graph.C91_takes
#print axioms Rpp.Graph.C91_kept
#print axioms Rpp.Stack.C92_reaches
#print axioms Rpp.Stack.C92_lives
#print axioms Rpp.Stack.C92_once
#print axioms Rpp.Stack.C92_concat_partial
#print axioms Rpp.Stack.C92_concat_refutes
#print axioms Rpp.Stack.C93_depth
#print axioms Rpp.Stack.C93_attempts
#print axioms Rpp.Stack.C93_concat_counts
#print axioms Rpp.Stack.C93_retry_counts
#print axioms Rpp.Stack.C93_goes_on
#print axioms Rpp.Cross.C94_prefix
#print axioms Rpp.Cross.C94_exact
#print axioms Rpp.Cross.C94_late_partial
#print axioms Rpp.Cross.C94_own
#print axioms Rpp.Cross.C94_stop
#print axioms Rpp.Cross.C94_once
#print axioms Rpp.Cross.C94_release
#print axioms Rpp.Cross.C94_refutes
#print axioms Rpp.Locks.C95_progress_partial
#print axioms Rpp.Locks.C95_circle_partial
#print axioms Rpp.Locks.C95_alive_partial
#print axioms Rpp.Locks.C95_able
#print axioms Rpp.Locks.C95_take_until_refutes
#print axioms Rpp.Locks.C95_worker_refutes
#print axioms Rpp.Locks.C96_serial
#print axioms Rpp.Locks.C96_operators
#print axioms Rpp.Locks.C96_subjects
#print axioms Rpp.Flag.C97_partial
#print axioms Rpp.Flag.C97_refutes
#print axioms Rpp.C98_pipeline
#print axioms Rpp.C98_no_husk
#print axioms Rpp.Comb.C98_zip_partial
#print axioms Rpp.Comb.C98_zip_refutes
#print axioms Rpp.Share.C99_silent
#print axioms Rpp.Share.C99_together
#print axioms Rpp.Share.C99_delivered
#print axioms Rpp.Share.C99_thrown
#print axioms Rpp.Share.C99_released
#print axioms Rpp.Share.C99_refused_partial
#print axioms Rpp.Share.C99_unhandled
#print axioms Rpp.Share.C99_refused_refutes
#print axioms Rpp.Share.C99_disposed_refutes
#print axioms Rpp.Share.C99_disposed_partial
#print axioms Rpp.Stages.C100_prefix
#print axioms Rpp.Stages.C100_all
#print axioms Rpp.Stages.C100_can_finish
#print axioms Rpp.Stages.C100_delays
#print axioms Rpp.Stages.C100_turns
#print axioms Rpp.Storage.C101_pipeline
#print axioms Rpp.Storage.C101_take_last
#print axioms Rpp.Storage.C101_buffer
#print axioms Rpp.Storage.C101_distinct
#print axioms Rpp.Storage.C101_replay
#print axioms Rpp.Storage.C101_zip_one_empty
#print axioms Rpp.Storage.C101_zip_held
#print axioms Rpp.Storage.C101_waste_refutes
#print axioms Rpp.Net.C102_grows
#print axioms Rpp.Net.C102_sees
#print axioms Rpp.Net.C102_grammar
#print axioms Rpp.Net.C102_all
#print axioms Rpp.Net.C102_can_rest
#print axioms Rpp.Net.C102_kept
#print axioms Rpp.Net.C102_finish
#print axioms Rpp.Net.C102_same
#print axioms Rpp.Net.C103_moment
#print axioms Rpp.Net.C103_all
#print axioms Rpp.Net.C103_one_thread
#print axioms Rpp.Net.C103_left_unit
#print axioms Rpp.Net.C103_right_unit
#print axioms Rpp.Net.C103_assoc
#print axioms Rpp.Net.C104_moment
#print axioms Rpp.Net.C104_all
#print axioms Rpp.Net.C104_concat
#print axioms Rpp.Net.C104_concat_all
#print axioms Rpp.Net.C104_repeat
#print axioms Rpp.Net.C104_retry
#print axioms Rpp.Net.C104_retry_all
#print axioms Rpp.Net.C104_retry_forever
#print axioms Rpp.Net.C104_resume_partial
#print axioms Rpp.Signal.C105_signal
#print axioms Rpp.Feed.C106_feedback_partial
#print axioms Rpp.Feed.C106_take
#print axioms Rpp.Feed.C106_first_refutes
#print axioms Rpp.Feed.C106_element_at_refutes
#print axioms Rpp.Feed.C106_throttle_refutes
#print axioms Rpp.Feed.C106_buffer_refutes
#print axioms Rpp.Feed.C106_buffer_moved_refutes
#print axioms Rpp.Feed.C106_take_end_refutes
#print axioms Rpp.Feed.C106_ended_twice_refutes
#print axioms Rpp.Subj.Conc.C107_blocks
#print axioms Rpp.Subj.Conc.C107_same_order_partial
#print axioms Rpp.Subj.Conc.C107_one_order_partial
#print axioms Rpp.Subj.Conc.C107_sequential
#print axioms Rpp.Subj.Conc.C107_nested_refutes
#print axioms Rpp.Subj.Conc.C107_replay_refutes
#print axioms Rpp.Subj.Conc.C107_behavior_refutes
#print axioms Rpp.WFeed.Group.C108_group_by_partial
#print axioms Rpp.WFeed.Group.C108_group_by_ends_partial
#print axioms Rpp.WFeed.Group.C108_firsts
#print axioms Rpp.WFeed.Group.C108_announced_twice_refutes
#print axioms Rpp.WFeed.Group.C108_never_ends_refutes
#print axioms Rpp.WFeed.Count.C108_window_partial
#print axioms Rpp.WFeed.Count.C108_window_finish_refutes
#print axioms Rpp.WFeed.Count.C108_window_announced_refutes
#print axioms Rpp.WFeed.Count.C108_window_announced_ub_refutes
#print axioms Rpp.WFeed.Count.C108_window_last_refutes
#print axioms Rpp.WFeed.Count.C108_window_end_refutes
#print axioms Rpp.LetGo.C109_resume_partial
#print axioms Rpp.LetGo.C109_once_partial
#print axioms Rpp.LetGo.C109_throw_refutes
#print axioms Rpp.LetGo.C109_twice_refutes
#print axioms Rpp.LetGo.C109_merge_refutes
#print axioms Rpp.LetGo.C109_when_refutes
#print axioms Rpp.LetGo.C109_when_now_refutes
#print axioms Rpp.LetGo.C109_when_partial
#print axioms Rpp.LetGo.C109_when_asked_partial
#print axioms Rpp.Sched.Wake.C110_woken
#print axioms Rpp.Sched.Wake.C110_not_forgotten
#print axioms Rpp.Sched.Wake.C110_empty_partial
#print axioms Rpp.Sched.Wake.C110_spins
#print axioms Rpp.Sched.Wake.C110_sleeps_refutes
#print axioms Rpp.Sched.NT.C111_ends
#print axioms Rpp.Sched.NT.C111_woken
#print axioms Rpp.Sched.NT.C111_deadline_partial
#print axioms Rpp.Sched.NT.C111_awake_refutes
#print axioms Rpp.Sched.NT.C111_sleeps_refutes
#print axioms Rpp.RefCounts.C112_one
#print axioms Rpp.RefCounts.C112_needed
#print axioms Rpp.RefCounts.C112_hand
#print axioms Rpp.RefCounts.C112_values
#print axioms Rpp.RefCounts.C112_first
#print axioms Rpp.RefCounts.C112_fed_partial
#print axioms Rpp.RefCounts.C112_two_refutes
#print axioms Rpp.RefCounts.C112_hand_refutes
#print axioms Rpp.RefCounts.C112_stuck
#print axioms Rpp.BlkNest.C113_exact
#print axioms Rpp.BlkNest.C113_safe_partial
#print axioms Rpp.BlkNest.C113_all
#print axioms Rpp.BlkNest.C113_callback_refutes
#print axioms Rpp.BlkNest.C113_inner_refutes
#print axioms Rpp.BlkNest.C113_new_thread_refutes
#print axioms Rpp.C114_exact
#print axioms Rpp.C114_same
#print axioms Rpp.C114_lives_partial
#print axioms Rpp.C114_default
#print axioms Rpp.C114_default_spec
#print axioms Rpp.C114_tap_refutes
#print axioms Rpp.Shared.C115_publish
#print axioms Rpp.Shared.C115_behavior
#print axioms Rpp.Shared.C115_replay
#print axioms Rpp.Shared.C115_used
#print axioms Rpp.Shared.C115_up
#print axioms Rpp.Shared.C115_src
#print axioms Rpp.Shared.C115_passes
#print axioms Rpp.Shared.C115_cold
#print axioms Rpp.Shared.C115_alone
#print axioms Rpp.Shared.C115_alone_behavior
#print axioms Rpp.Shared.C115_late
#print axioms Rpp.Sched.PoolRace.C116_in_range
#print axioms Rpp.Sched.PoolRace.C116_round_robin_partial
#print axioms Rpp.Sched.PoolRace.C116_same_refutes
#print axioms Rpp.Sched.PoolRace.C116_back_refutes
#print axioms Rpp.Sched.PoolWait.C117_bounded
#print axioms Rpp.Sched.PoolWait.C117_steps
#print axioms Rpp.Sched.PoolWait.C117_no_hang_partial
#print axioms Rpp.Sched.PoolWait.C117_finishes_partial
#print axioms Rpp.Sched.PoolWait.C117_new_thread
#print axioms Rpp.Sched.PoolWait.C117_never_waits
#print axioms Rpp.Sched.PoolWait.C117_cycle
#print axioms Rpp.Sched.PoolWait.C117_cycle_hangs
#print axioms Rpp.Sched.PoolWait.C117_wait_refutes
#print axioms Rpp.C118_observer
#print axioms Rpp.C118_seen
#print axioms Rpp.C118_same
#print axioms Rpp.C118_skips
#print axioms Rpp.C118_capacity
#print axioms Rpp.C119_immediate
#print axioms Rpp.C119_scheduled
#print axioms Rpp.C119_endless_immediate
#print axioms Rpp.C119_endless_scheduled
#print axioms Rpp.C119_take
#print axioms Rpp.C119_never
#print axioms Rpp.C119_killed
#print axioms Rpp.C119_finite
#print axioms Rpp.C119_one_more_refutes
#print axioms Rpp.C120_enough
#print axioms Rpp.C120_passes_end
#print axioms Rpp.C120_completes
#print axioms Rpp.C120_endless
#print axioms Rpp.C120_take
#print axioms Rpp.C120_spins
#print axioms Rpp.C120_killed
#print axioms Rpp.C121_enough
#print axioms Rpp.C121_error
#print axioms Rpp.C121_all
#print axioms Rpp.C121_endless
#print axioms Rpp.C121_same
#print axioms Rpp.C121_concat_queue
#print axioms Rpp.C121_killed
#print axioms Rpp.C122_enough
#print axioms Rpp.C122_ends
#print axioms Rpp.C122_other_fails
#print axioms Rpp.C122_other_endless
#print axioms Rpp.C122_endless
#print axioms Rpp.C122_zip_stores
#print axioms Rpp.C123_delay
#print axioms Rpp.C123_late
#print axioms Rpp.C123_debounce_refutes
#print axioms Rpp.C123_timeout_refutes
#print axioms Rpp.C124_enough
#print axioms Rpp.C124_ends
#print axioms Rpp.C124_endless
#print axioms Rpp.C124_resume
#print axioms Rpp.C125_fires
#print axioms Rpp.C125_trigger_ends
#print axioms Rpp.C125_enough
#print axioms Rpp.C125_ends
#print axioms Rpp.C125_endless
#print axioms Rpp.C126_turns
#print axioms Rpp.C126_until
#print axioms Rpp.C127_enough
#print axioms Rpp.C127_returns
#print axioms Rpp.C127_take
#print axioms Rpp.C127_throws
#print axioms Rpp.C127_enough_first
#print axioms Rpp.C128_enough
#print axioms Rpp.C128_returns
#print axioms Rpp.C128_fair
#print axioms Rpp.C128_take
#print axioms Rpp.C129_enough
#print axioms Rpp.C129_fair
#print axioms Rpp.C129_even
#print axioms Rpp.C129_returns
#print axioms Rpp.C129_finite
#print axioms Rpp.C130_enough
#print axioms Rpp.C130_fair
#print axioms Rpp.C130_all
#print axioms Rpp.C130_returns
#print axioms Rpp.C130_take
