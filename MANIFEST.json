{
 "claims": [
  {
   "property": "C01",
   "status": "proved",
   "theorems": [
    "Verif.LFS.C01_stack_linearizable",
    "Verif.LFS.C01_sequential_lifo",
    "Verif.LFS.C01_obstruction_free"
   ],
   "note": "under the stated window (fewer than 65536 updates between load and CAS); C03_aba_wrap_breaks shows the window is needed"
  },
  {
   "property": "C02",
   "status": "proved",
   "theorems": [
    "Verif.LFS.C02_give_back_never_refused",
    "Verif.LFS.C02_elements_conserved",
    "Verif.LFS.C02_oversized_capacity_truncated"
   ],
   "note": "oversized capacities are truncated to 65535, see C02_oversized_capacity_truncated"
  },
  {
   "property": "C03",
   "status": "proved",
   "theorems": [
    "Verif.LFS.C03_no_double_handout",
    "Verif.LFS.C03_aba_wrap_breaks"
   ],
   "note": ""
  },
  {
   "property": "C04",
   "status": "proved",
   "theorems": [
    "Verif.LFS.C04_one_holder",
    "Verif.Pool.C04_handles_distinct"
   ],
   "note": ""
  },
  {
   "property": "C05",
   "status": "proved",
   "theorems": [
    "Verif.Pool.C05_acquire_fails_iff",
    "Verif.Pool.C05_acquire_fails_iff_all_out",
    "Verif.Pool.C05_oversized_pool_exhausted",
    "Verif.Pool.C05_all_available_again",
    "Verif.Pool.C05_each_object_freed_once"
   ],
   "note": "pools of more than 65535 objects hand out only 65535, see C05_oversized_pool_exhausted"
  },
  {
   "property": "C06",
   "status": "partial",
   "theorems": [
    "Verif.Pool.C06_retained_events_untouched",
    "Verif.Pool.C06_publish_value_partial",
    "Verif.Pool.C06_publish_exact_content",
    "Verif.Pool.C06_process_exact_content",
    "Verif.Pool.C06_recycled_content_leaks",
    "Verif.Pool.C06_allocations_exact",
    "Verif.Pool.C06_no_allocation_when_pool_suffices"
   ],
   "note": "values: proved for cloners that overwrite their destination; C06_recycled_content_leaks shows the code violates the claim for partial cloners"
  },
  {
   "property": "C07",
   "status": "proved",
   "theorems": [
    "Verif.SQ.C07_fifo",
    "Verif.SQ.C07_force_push"
   ],
   "note": ""
  },
  {
   "property": "C08",
   "status": "proved",
   "theorems": [
    "Verif.SQ.C08_bound",
    "Verif.SQ.C08_full_empty",
    "Verif.SQ.C08_lowered_bound_exceeded",
    "Verif.SQ.C08_violation_assign_exceeds_bound"
   ],
   "note": "for schedules that keep the bound fixed, and generally against the largest bound in force"
  },
  {
   "property": "C09",
   "status": "proved",
   "theorems": [
    "Verif.SQ.C09_try_push",
    "Verif.SQ.C09_try_pop",
    "Verif.SQ.C09_nonblocking_total",
    "Verif.SQ.C09_timed_pop_start",
    "Verif.SQ.C09_expire_exact"
   ],
   "note": ""
  },
  {
   "property": "C10",
   "status": "partial",
   "theorems": [
    "Verif.SQ.C10_call_waits_or_ends",
    "Verif.SQ.C10_wakeups_partial",
    "Verif.SQ.C10_no_stuck_partial",
    "Verif.SQ.C10_woken_consumer_progresses",
    "Verif.SQ.C10_swallowed_notification",
    "Verif.SQ.C10_raised_bound_not_notified",
    "Verif.SQ.C10_assign_wakes_consumers",
    "Verif.SQ.C10_swap_exchanges",
    "Verif.SQ.C10_assignment_not_notified",
    "Verif.SQ.C10_swap_deadlock",
    "Verif.SQ.C10_swap_deadlock_exact"
   ],
   "note": "proved when the bound is not changed and no notified timeout_pop reports a timeout; the code violates it otherwise (C10_swallowed_notification, C10_raised_bound_not_notified, C10_assignment_not_notified, C10_swap_deadlock)"
  },
  {
   "property": "C11",
   "status": "partial",
   "theorems": [
    "Verif.SQ.C11_no_empty_front_partial",
    "Verif.SQ.C11_timed_pop_result",
    "Verif.SQ.C11_spurious_wakeup_ub",
    "Verif.SQ.C11_stolen_item_ub"
   ],
   "note": "proved for one consumer and no spurious wake-up; the code violates it otherwise (C11_spurious_wakeup_ub, C11_stolen_item_ub)"
  },
  {
   "property": "C12",
   "status": "partial",
   "theorems": [
    "Verif.SQ.C12_bound0_push_never_returns",
    "Verif.SQ.C12_bound0_try_force_partial",
    "Verif.SQ.C12_copy_content_partial",
    "Verif.SQ.C12_copy_loses_bound"
   ],
   "note": "the code violates it: push blocks for ever with bound 0 and copies lose the bound; the part that holds is proved"
  },
  {
   "property": "C13",
   "status": "proved",
   "theorems": [
    "Verif.BM.C13_discard_accounting",
    "Verif.BM.C13_discard_order",
    "Verif.BM.C13_blocking_no_loss",
    "Verif.BM.C13_publish_never_blocks",
    "Verif.BM.C13_example_waiting",
    "Verif.BM.C13_bound0_blocking_delivers_nothing"
   ],
   "note": ""
  },
  {
   "property": "C14",
   "status": "proved",
   "theorems": [
    "Verif.SafeEE.C14_refines_registry",
    "Verif.SafeEE.C14_emit",
    "Verif.SafeEE.C14_emission_is_snapshot",
    "Verif.SafeEE.C14_snapshot_is_live",
    "Verif.SafeEE.C14_discard_counts"
   ],
   "note": ""
  },
  {
   "property": "C15",
   "status": "proved",
   "theorems": [
    "Verif.SafeEE.C15_ids_unique",
    "Verif.SafeEE.C15_removed_never_called",
    "Verif.SafeEE.C15_remove_exact",
    "Verif.SafeEE.C15_id_reused_after_wrap",
    "Verif.SafeEE.C15_running_emission_calls_removed"
   ],
   "note": "ids are unique below 2^32 registrations; the counter wraps then"
  },
  {
   "property": "C16",
   "status": "partial",
   "theorems": [
    "Verif.SafeEE.C16_once_at_most_once_partial",
    "Verif.SafeEE.C16_once_called_by_emission",
    "Verif.SafeEE.C16_once_twice_and_throws",
    "Verif.SafeEE.C16_removed_during_emission_throws"
   ],
   "note": "holds for histories without overlapping emissions; the code violates it when emissions overlap (C16_once_twice_and_throws)"
  },
  {
   "property": "C17",
   "status": "proved",
   "theorems": [
    "Verif.MultiEE.C17_refines_registry",
    "Verif.MultiEE.C17_never_crashes",
    "Verif.MultiEE.C17_live_ids_distinct",
    "Verif.MultiEE.C17_remove_unknown",
    "Verif.MultiEE.C17_name_shared_between_events"
   ],
   "note": ""
  },
  {
   "property": "C18",
   "status": "partial",
   "theorems": [
    "Verif.MultiEE.C18_stats_partial",
    "Verif.MultiEE.C18_discard_counts",
    "Verif.MultiEE.C18_removed_stats_gone",
    "Verif.MultiEE.C18_remove_unknown_keeps_stats",
    "Verif.MultiEE.C18_stats_after_removal",
    "Verif.MultiEE.C18_stale_stats"
   ],
   "note": "the code violates it: C18_stats_after_removal, C18_stale_stats"
  },
  {
   "property": "C19",
   "status": "proved",
   "theorems": [
    "Verif.SingleEE.C19_refines_single",
    "Verif.SingleEE.C19_removed_released",
    "Verif.SingleEE.C19_stats",
    "Verif.SingleEE.C19_example_stats",
    "Verif.SingleEE.C19_stale_stats"
   ],
   "note": ""
  },
  {
   "property": "C20",
   "status": "partial",
   "theorems": [
    "Verif.Sub.C20_safe_subscriber_partial",
    "Verif.Sub.C20_multi_subscriber_partial",
    "Verif.Sub.C20_spec_remove",
    "Verif.Sub.C20_stats_query_redirects_removal",
    "Verif.Sub.C20_stats_query_removal_throws",
    "Verif.Sub.C20_safe_duplicate_name_leaks",
    "Verif.Sub.C20_safe_duplicate_never_removed"
   ],
   "note": "proved for histories without re-registered names (safe emitter) and without statistics queries of unknown names; the code violates it otherwise (C20_stats_query_redirects_removal, C20_stats_query_removal_throws, C20_safe_duplicate_name_leaks)"
  },
  {
   "property": "C21",
   "status": "proved",
   "theorems": [
    "Verif.SRing.C21_no_overrun",
    "Verif.SRing.C21_claimed_slot_is_free",
    "Verif.SRing.C21_unread_event_unchanged",
    "Verif.SRing.C21_handler_sees_published",
    "Verif.SRing.C21_published_once",
    "Verif.SRing.C21_try_next_exact",
    "Verif.SRing.C21_next_returns",
    "Verif.SRing.C21_late_gating_overrun"
   ],
   "note": "gating sequences are added only while no claim is unpublished; C21_late_gating_overrun shows the code breaks the claim otherwise"
  },
  {
   "property": "C22",
   "status": "proved",
   "theorems": [
    "Verif.MRing.C22_claims_tile",
    "Verif.MRing.C22_no_overrun",
    "Verif.MRing.C22_slot_exclusive",
    "Verif.MRing.C22_unread_event_unchanged",
    "Verif.MRing.C22_handler_sees_published",
    "Verif.MRing.C22_published_once",
    "Verif.MRing.C22_next_returns",
    "Verif.MRing.C22_ungated_overlap",
    "Verif.MRing.C22_late_gating_corrupts",
    "Verif.MRing.C22_late_gating_blocks"
   ],
   "note": "with at least one gating sequence, added while no claim is unpublished; C22_ungated_overlap, C22_late_gating_corrupts and C22_late_gating_blocks show what the code does otherwise"
  },
  {
   "property": "C23",
   "status": "proved",
   "theorems": [
    "Verif.MRing.C23_is_available",
    "Verif.MRing.C23_highest_published",
    "Verif.MRing.C23_batch_published",
    "Verif.MRing.C23_ungated_flag_lost"
   ],
   "note": "with at least one gating sequence; C23_ungated_flag_lost shows it is needed"
  },
  {
   "property": "C24",
   "status": "partial",
   "theorems": [
    "Verif.MRing.C24_try_next_function",
    "Verif.MRing.C24_try_next_exact_partial",
    "Verif.MRing.C24_accepts_everything_beyond_int",
    "Verif.MRing.C24_overruns_at_2_pow_31",
    "Verif.MRing.C24_full_ring_overrun"
   ],
   "note": "the code violates it from cursor 2^31-n on (32-bit narrowing): C24_accepts_everything_beyond_int, C24_overruns_at_2_pow_31; the function computed is stated exactly and the claim proved below that bound"
  },
  {
   "property": "C25",
   "status": "partial",
   "theorems": [
    "Verif.MRing.C25_in_order_exactly_once",
    "Verif.MRing.C25_delivers_published_prefix",
    "Verif.Proc.C25_foreign_exception_repeats",
    "Verif.Proc.C25_restart_in_order_partial",
    "Verif.Proc.C25_example_restart",
    "Verif.SRing.C25_single_in_order_exactly_once",
    "Verif.SRing.C25_single_delivers_all"
   ],
   "note": "proved for handlers that return or throw std::exception; the code violates it for other exceptions (C25_foreign_exception_repeats)"
  },
  {
   "property": "C26",
   "status": "partial",
   "theorems": [
    "Verif.Proc.C26_halt_stops_partial",
    "Verif.Proc.C26_lost_halt_for_ever",
    "Verif.Proc.C26_lost_halt",
    "Verif.Proc.C26_violation_noop_halt",
    "Verif.Proc.C26_example_noop_halt",
    "Verif.Proc.C26_example_phased",
    "Verif.Proc.C26_halt_before_run",
    "Verif.Proc.C26_livelock_for_ever",
    "Verif.Proc.C26_livelock",
    "Verif.Proc.C26_two_runners"
   ],
   "note": "proved when halt comes after clear_alert and run is not called again (C26_halt_stops_partial); the code violates it otherwise (C26_lost_halt, C26_livelock, C26_two_runners); halt of a no-op processor never stops it (C26_violation_noop_halt)"
  },
  {
   "property": "C27",
   "status": "proved",
   "theorems": [
    "Verif.MRing.C27_index",
    "Verif.MRing.C27_same_slot",
    "Verif.MRing.C27_flag_distinguishes",
    "Verif.MRing.C27_flag_wraps",
    "Verif.MRing.C27_size_check",
    "Verif.MRing.C27_example_size",
    "Verif.MRing.C27_shift"
   ],
   "note": ""
  },
  {
   "property": "C28",
   "status": "proved",
   "theorems": [
    "Verif.Mux.C28_subsequence_in_order",
    "Verif.Mux.C28_accounting",
    "Verif.Mux.C28_batch_ends_with_newest",
    "Verif.Mux.C28_reader_gets_newest",
    "Verif.Mux.C28_discarded_iff_full",
    "Verif.Mux.C28_violation_destroyed_subscriber",
    "Verif.Mux.C28_example",
    "Verif.Mux.C28_violation_destroyed_example"
   ],
   "note": "delivery order, accounting, newest-of-batch, discard iff full; finding: a destroyed subscriber stays registered and blocks the publisher for ever (C28_violation_destroyed_subscriber)"
  },
  {
   "property": "C29",
   "status": "partial",
   "theorems": [
    "Verif.Mux.C29_unread_unchanged_partial",
    "Verif.Mux.C29_content_once",
    "Verif.Mux.C29_held_until_wrap_partial",
    "Verif.Mux.C29_held_for_ever_partial",
    "Verif.Mux.C29_unread_for_ever_partial",
    "Verif.Mux.C29_violation_held_mutated",
    "Verif.Mux.C29_violation_model_event_shared"
   ],
   "note": "unread events proved for providers without model event, held events until the ring wraps, and for ever for publish(const T&) without cloner; the full statement is false: see the two C29_violation theorems"
  },
  {
   "property": "C30",
   "status": "partial",
   "theorems": [
    "Verif.EvLoop.C30_claims_numbered",
    "Verif.EvLoop.C30_delivery_in_claim_order_partial",
    "Verif.EvLoop.C30_own_topic_only",
    "Verif.EvLoop.C30_delivery_per_topic",
    "Verif.EvLoop.C30_all_delivered",
    "Verif.EvLoop.C30_discarded_iff_full_partial",
    "Verif.EvLoop.C30_every_call_accounted",
    "Verif.EvLoop.C30_example",
    "Verif.EvLoop.C30_violation_claimed_at_start"
   ],
   "note": "Delivery in claim order, exactly once, per topic, with the right data; progress; discarded exactly when full; every call accounted for. Partial: start while a claim is outstanding (violation shown) and more than 2^31 events (C24) are excluded."
  },
  {
   "property": "C31",
   "status": "partial",
   "theorems": [
    "Verif.EvLoop.C31_accepted_before_start_is_lost",
    "Verif.EvLoop.C31_drained_restart_partial",
    "Verif.EvLoop.C31_violation_before_first_start",
    "Verif.EvLoop.C31_violation_left_over"
   ],
   "note": "False of the code: events accepted while the loop does not run, or left over at stop, are lost for ever (general theorem and witnesses). Proved: with drained starts nothing is lost, repeated or reordered over any number of sessions."
  },
  {
   "property": "C32",
   "status": "proved",
   "theorems": [
    "Verif.Fsm.C32_follows_table",
    "Verif.Fsm.C32_since_reset",
    "Verif.Fsm.C32_example_reset",
    "Verif.Fsm.C32_drained"
   ],
   "note": ""
  },
  {
   "property": "C33",
   "status": "proved",
   "theorems": [
    "Verif.Fsm.C33_one_transition",
    "Verif.Fsm.C33_otherwise_nothing"
   ],
   "note": ""
  },
  {
   "property": "C34",
   "status": "proved",
   "theorems": [
    "Verif.Fsm.C34_update_notifies",
    "Verif.Fsm.C34_stopped_is_silent",
    "Verif.Fsm.C34_start_notifies",
    "Verif.Fsm.C34_observers",
    "Verif.Fsm.C34_reentrant_observer_stale"
   ],
   "note": "for observers that do not call back into the machine; C34_reentrant_observer_stale shows the stale last notification otherwise"
  },
  {
   "property": "C35",
   "status": "partial",
   "theorems": [
    "Verif.Fsm.C35_stopped_accepts_nothing",
    "Verif.Fsm.C35_reset_partial",
    "Verif.Fsm.C35_always_declared",
    "Verif.Fsm.C35_reset_keeps_events",
    "Verif.Fsm.C35_undeclared_state_is_stuck"
   ],
   "note": "events accepted before a reset are kept in the queue and act after the next start: C35_reset_keeps_events; the rest is proved"
  },
  {
   "property": "C36",
   "status": "proved",
   "theorems": [
    "Verif.Fsm.C36_actions_run",
    "Verif.Fsm.C36_one_off_once",
    "Verif.Fsm.C36_names_distinct",
    "Verif.Fsm.C36_names_agree",
    "Verif.Fsm.C36_empty_id_never_matches",
    "Verif.Fsm.C36_remove_keeps_entry_actions"
   ],
   "note": "names agree unless the machine id is empty (C36_empty_id_never_matches); removeActions only removes periodic actions (C36_remove_keeps_entry_actions)"
  },
  {
   "property": "C37",
   "status": "partial",
   "theorems": [
    "Verif.Cfg.C37_grammar",
    "Verif.Cfg.C37_round_trip_partial",
    "Verif.Cfg.C37_read_back_partial",
    "Verif.Cfg.C37_duplicate_rejected",
    "Verif.Cfg.C37_no_separator_rejected",
    "Verif.Cfg.C37_bad_format_rejected",
    "Verif.Cfg.C37_comment_ignored",
    "Verif.Cfg.C37_space_iff",
    "Verif.Cfg.C37_string_value",
    "Verif.Cfg.C37_string_value_blank",
    "Verif.Cfg.C37_string_value_hex_total",
    "Verif.Cfg.C37_string_value_blank_example",
    "Verif.Cfg.C37_violation_first_word",
    "Verif.Cfg.C37_int_value",
    "Verif.Cfg.C37_int_plus",
    "Verif.Cfg.C37_hex_value",
    "Verif.Cfg.C37_bool_value",
    "Verif.Cfg.C37_violation_conversions",
    "Verif.Cfg.C37_violation_blank_lines",
    "Verif.Cfg.C37_violation_key_with_blank"
   ],
   "note": "the grammar accepted is characterised exactly and the round trip proved; the code violates the claim for values of several words, boolean words, tab-only and CR lines (C37_violation_*)"
  },
  {
   "property": "C38",
   "status": "partial",
   "theorems": [
    "Verif.Cfg.C38_violation_property_file",
    "Verif.Env.C38_last_write_partial",
    "Verif.Env.C38_never_written",
    "Verif.Env.C38_reads_last_write_partial",
    "Verif.Env.C38_mem_reads_last_write_partial",
    "Verif.Env.C38_violation_dynamic",
    "Verif.Env.C38_dynamic_first_write_partial",
    "Verif.Env.C38_dynamic_other_type"
   ],
   "note": "proved for ConfigurationEnvironment and MemEnv; the code violates it in DynamicConfigurationProperties and PropertyFileEnvironment (C38_violation_*)"
  },
  {
   "property": "C39",
   "status": "partial",
   "theorems": [
    "Verif.Env.C39_names_distinct_partial",
    "Verif.Env.C39_no_overwrite",
    "Verif.Env.C39_violation_separator",
    "Verif.Env.C39_violation_mem_root"
   ],
   "note": "proved for keys without '/'; the code violates it otherwise and MemEnv ignores the root (C39_violation_*)"
  },
  {
   "property": "C40",
   "status": "partial",
   "theorems": [
    "Verif.Env.C40_keeps_existing",
    "Verif.Env.C40_result",
    "Verif.Env.C40_adds_missing_partial",
    "Verif.Env.C40_success_adds_all",
    "Verif.Env.C40_nothing_else",
    "Verif.Env.C40_load_result",
    "Verif.Env.C40_unreadable_unchanged",
    "Verif.Env.C40_memory_loads_nothing",
    "Verif.Env.C40_violation_short_circuit"
   ],
   "note": "everything except: missing properties are not added when an earlier type has a duplicate (C40_violation_short_circuit)"
  },
  {
   "property": "C41",
   "status": "partial",
   "theorems": [
    "Verif.Env.C41_converges_partial",
    "Verif.Env.C41_no_echo",
    "Verif.Env.C41_ignores_foreign",
    "Verif.Env.C41_adopts",
    "Verif.Env.C41_violation_concurrent",
    "Verif.Env.C41_violation_same_millisecond",
    "Verif.Env.C41_violation_load",
    "Verif.Env.C41_heals_partial",
    "Verif.Env.C41_one_writer_partial",
    "Verif.Env.C41_kept",
    "Verif.Env.C41_nothing_invented",
    "Verif.Env.C41_heals_example",
    "Verif.Env.C41_one_writer_example",
    "Verif.Env.C41_nothing_invented_example"
   ],
   "note": "proved for writes separated by delivery and for one writer at any speed; a group that has diverged becomes equal with the next separated write (C41_heals_partial); whatever happens nothing is invented or taken from another group (C41_kept, C41_nothing_invented); the code violates it for concurrent writes, equal source ids and files with duplicates (C41_violation_*)"
  },
  {
   "property": "C42",
   "status": "partial",
   "theorems": [
    "Verif.Cont.C42_holds_attached_partial",
    "Verif.Cont.C42_holds_services_partial",
    "Verif.Cont.C42_holds_publications_partial",
    "Verif.Cont.C42_not_started_before_start",
    "Verif.Cont.C42_started_while_running",
    "Verif.Cont.C42_started_after_start",
    "Verif.Cont.C42_detach_publication_removes_all",
    "Verif.Cont.C42_violation_publications",
    "Verif.Cont.C42_violation_same_name",
    "Verif.Cont.C42_violation_other_service",
    "Verif.Cont.C42_example",
    "Verif.Cont.C42_races"
   ],
   "note": "Proved when names are distinct and no publication is detached by object; the code clears all publications on any publication detach and detaches by name only (violations proved). C42_races gives the table of member functions that may race."
  },
  {
   "property": "C43",
   "status": "partial",
   "theorems": [
    "Verif.Callback.C43_replies_matched_partial",
    "Verif.Callback.C43_replies_matched_threads_partial",
    "Verif.Callback.C43_keeps_waiting_requests",
    "Verif.Callback.C43_unmatched_reply_changes_nothing",
    "Verif.Callback.C43_example",
    "Verif.Callback.C43_violation_called_twice",
    "Verif.Callback.C43_violation_request_in_callback",
    "Verif.Callback.C43_violation_throwing_callback",
    "Verif.Callback.C43_threads_example",
    "Verif.Callback.C43_nested_callbacks_partial",
    "Verif.Callback.C43_nested_keeps_requests",
    "Verif.Callback.C43_nested_return_removes_own",
    "Verif.Callback.C43_plain_is_careful",
    "Verif.Callback.C43_nested_reply_to_earlier_undefined",
    "Verif.Callback.C43_nested_request_moves_undefined",
    "Verif.Callback.C43_nested_example",
    "Verif.Callback.C43_violation_reply_to_earlier"
   ],
   "note": "Proved for callbacks that neither throw nor call the handler back; the three ways in which re-entrant or throwing callbacks break the property are proved as violations."
  },
  {
   "property": "C44",
   "status": "partial",
   "theorems": [
    "Verif.Callback.C44_synchronous_reply_partial",
    "Verif.Callback.C44_reentrant_call_deadlocks",
    "Verif.Callback.C44_no_deadlock_without_reentrance_partial",
    "Verif.Callback.C44_violation_synchronous_reply"
   ],
   "note": "Single-thread handler: synchronous replies are handled. Multi-thread handler: a re-entrant call deadlocks for ever (proved in general), and without re-entrance nobody deadlocks."
  },
  {
   "property": "C45",
   "status": "proved",
   "theorems": [
    "Verif.Cache.C45_counter",
    "Verif.Cache.C45_pair_belongs_together",
    "Verif.Cache.C45_last_is_newest",
    "Verif.Cache.C45_no_race",
    "Verif.Cache.C45_single_thread",
    "Verif.Cache.C45_example",
    "Verif.Cache.C45_plain_listener_races"
   ],
   "note": "Multi-thread cache listener, all schedules; the plain listener is shown to race."
  },
  {
   "property": "C46",
   "status": "partial",
   "theorems": [
    "Verif.Poller.C46_poller_stopped",
    "Verif.Poller.C46_poller_stop_returns_partial",
    "Verif.Poller.C46_violation_stop_hangs",
    "Verif.Poller.C46_thrown_dead",
    "Verif.Poller.C46_thrown_example",
    "Verif.Poller.C46_poller_destroy_partial",
    "Verif.Poller.C46_violation_destroy_running",
    "Verif.Poller.C46_poller_example",
    "Verif.Poller.C46_poller_stop_returns_fair_partial",
    "Verif.Poller.C46_poller_destructor_returns_fair_partial",
    "Verif.Poller.C46_poller_start_ends",
    "Verif.Poller.C46_poller_fair_example",
    "Verif.Sched.C46_scheduler_stop_returns_fair",
    "Verif.Sched.C46_scheduler_fair_example",
    "Verif.Sched.C46_scheduler_stopped",
    "Verif.Sched.C46_event_loop_scheduler_partial",
    "Verif.Sched.C46_scheduler_stop_returns",
    "Verif.Sched.C46_violation_event_loop_scheduler",
    "Verif.Sched.C46_violation_start_twice",
    "Verif.Sched.C46_violation_task_throws",
    "Verif.Sched.C46_violation_stop_itself",
    "Verif.Sched.C46_terminated_only_by",
    "Verif.Sched.C46_scheduler_example",
    "Verif.Sched.C46_stop_itself_example"
   ],
   "note": "InMemoryQueuePoller (ZMQPoller has the same code): nothing is called after stop, start ends, and stop and the destructor return in every fair execution unless start threw; missing (shown false): stop hangs after a start time-out, destroying a running poller calls a destroyed derived object. BasicScheduler: proved, also that stopScheduledTask returns in every fair execution; violations: starting the same name twice terminates the process, and so do a task that throws and a task that stops itself, and nothing else does; the event loop scheduler runs already published tasks after stop returned."
  },
  {
   "property": "C47",
   "status": "partial",
   "theorems": [
    "Verif.Managed.C47_commands_safe_partial",
    "Verif.Managed.C47_commands_multi_partial",
    "Verif.Managed.C47_violation_destroyed",
    "Verif.Managed.C47_violation_destroyed_multi",
    "Verif.Managed.C47_violation_same_name",
    "Verif.Managed.C47_example"
   ],
   "note": "Proved as long as no slave is destroyed (and, on the multi-listener emitter, names differ); destroyed slaves are still called (general theorem), and of two slaves with one name the second gets nothing."
  },
  {
   "property": "C48",
   "status": "proved",
   "theorems": [
    "Verif.Socket.C48_put_message",
    "Verif.Socket.C48_temporary_errors",
    "Verif.Socket.C48_permanent_errors",
    "Verif.Socket.C48_example"
   ],
   "note": "Every sequence of partial writes and errors."
  },
  {
   "property": "C49",
   "status": "partial",
   "theorems": [
    "Verif.Socket.C49_receive_partial",
    "Verif.Socket.C49_receive_exact",
    "Verif.Socket.C49_violation_truncated",
    "Verif.Socket.C49_violation_small_capacity",
    "Verif.Socket.C49_example",
    "Verif.Socket.C49_send_then_receive",
    "Verif.Socket.C49_scan_never",
    "Verif.Socket.C49_get_message",
    "Verif.Socket.C49_scan_finds_shortest",
    "Verif.Socket.C49_scan_example",
    "Verif.Socket.C49_scan_passes_over",
    "Verif.Socket.C49_receive_on",
    "Verif.Socket.C49_violation_descriptor_zero"
   ],
   "note": "Exact content for every chunking, capacity and growth policy when the connection does not break; missing (shown false): a broken connection is returned as a normal, truncated message."
  },
  {
   "property": "C50",
   "status": "partial",
   "theorems": [
    "Verif.Socket.C50_violation_close_throws",
    "Verif.Socket.C50_violation_returns_on_failure",
    "Verif.Socket.C50_violation_close_steals",
    "Verif.Socket.C50_violation_eintr",
    "Verif.Socket.C50_no_leak",
    "Verif.Socket.C50_ownership_partial",
    "Verif.Socket.C50_destructor_partial",
    "Verif.Socket.C50_move",
    "Verif.Socket.C50_close_invalid",
    "Verif.Socket.C50_construct",
    "Verif.Socket.C50_example"
   ],
   "note": "Ownership is right for every history without explicit close() and without EINTR left in errno; nothing is leaked in any history; missing (shown false): the test of ::close's result is inverted, so close() throws after success and keeps the number, and the number may be closed a second time."
  },
  {
   "property": "C51",
   "status": "partial",
   "theorems": [
    "Verif.Zmq.C51_dispatch",
    "Verif.Zmq.C51_running_is_registered",
    "Verif.Zmq.C51_frames_in_pairs",
    "Verif.Zmq.C51_arrival_order_partial",
    "Verif.Zmq.C51_no_deadlock",
    "Verif.Zmq.C51_call_returns",
    "Verif.Zmq.C51_violation_reentrant_registration",
    "Verif.Zmq.C51_reentrant_example",
    "Verif.Zmq.C51_violation_one_part",
    "Verif.Zmq.C51_example",
    "Verif.Zmq.C51_channel_partial",
    "Verif.Zmq.C51_violation_register_again",
    "Verif.Zmq.C51_channel_example"
   ],
   "note": "Poller: proved for all schedules of two-part messages; a one-part message shifts all later ones, a function that registers deadlocks, and registering a topic again through the channel is ignored (violations proved)."
  },
  {
   "property": "C52",
   "status": "partial",
   "theorems": [
    "Verif.Mapper.C52_round_trip",
    "Verif.Mapper.C52_reads_inside_iff",
    "Verif.Mapper.C52_decodes_prefix_partial",
    "Verif.Mapper.C52_violation_short_message",
    "Verif.Mapper.C52_identity_round_trip",
    "Verif.Mapper.C52_violation_shared_guard",
    "Verif.Mapper.C52_includes_partial",
    "Verif.Mapper.C52_example"
   ],
   "note": "Round trip proved; short messages are read out of bounds (general theorem); the identity and void caster headers share an include guard."
  },
  {
   "property": "C53",
   "status": "proved",
   "theorems": [
    "Verif.Channel.C53_to_middleware",
    "Verif.Channel.C53_to_middleware_failures",
    "Verif.Channel.C53_to_middleware_exact",
    "Verif.Channel.C53_from_middleware",
    "Verif.Channel.C53_round_trip",
    "Verif.Channel.C53_forwarder",
    "Verif.Channel.C53_identity",
    "Verif.Channel.C53_json",
    "Verif.Channel.C53_binary",
    "Verif.Channel.C53_void_caster",
    "Verif.Channel.C53_example"
   ],
   "note": "For every mapper and every reuse of message objects; instances for the four mappers. sdk's Publisher::publish and EventTransformForwarder are assumed to call on once."
  },
  {
   "property": "C54",
   "status": "partial",
   "theorems": [
    "Verif.LFS.C54_link_field_data_race",
    "Verif.LFS.C54_data_cells_race_free_partial"
   ],
   "note": "the code violates it for the link fields (C54_link_field_data_race); data cells and link write/write are race free"
  },
  {
   "property": "C55",
   "status": "partial",
   "theorems": [
    "Verif.Pool.C55_finalizer_skipped",
    "Verif.Pool.C55_all_finalized_if_all_returned_partial",
    "Verif.Pool.C55_finalized_exactly_partial",
    "Verif.Pool.C55_example"
   ],
   "note": "the code violates it for objects released after the pool is destroyed (C55_finalizer_skipped)"
  },
  {
   "property": "C56",
   "status": "partial",
   "theorems": [
    "Verif.SafeEE.C56_safe",
    "Verif.SafeEE.C56_safe_no_deadlock",
    "Verif.SafeEE.C56_safe_never_throws",
    "Verif.SafeEE.C56_safe_example",
    "Verif.MultiEE.C56_multi_partial",
    "Verif.MultiEE.C56_multi_returns_partial",
    "Verif.MultiEE.C56_multi_allowed",
    "Verif.MultiEE.C56_multi_remove_all",
    "Verif.MultiEE.C56_violation_multi_self_removal",
    "Verif.MultiEE.C56_violation_multi_remove_next",
    "Verif.MultiEE.C56_violation_multi_add",
    "Verif.MultiEE.C56_multi_example",
    "Verif.SingleEE.C56_single_partial",
    "Verif.SingleEE.C56_single_on_ignored",
    "Verif.SingleEE.C56_violation_single_self_removal",
    "Verif.SingleEE.C56_single_example"
   ],
   "note": "SafeEventEmitter: proved for every interleaved change. Multi and single emitters: proved for the changes that leave the name being emitted alone; missing (shown false): a listener that removes itself or adds a listener to the same name (multi: invalidated iterators and functions; single with container: null statistics used on return)."
  },
  {
   "property": "C57",
   "status": "partial",
   "theorems": [
    "Verif.MRing.C57_accesses_are_steps",
    "Verif.MRing.C57_slots_partial",
    "Verif.MRing.C57_flag_writes_partial",
    "Verif.MRing.C57_violation_flags",
    "Verif.MRing.C57_violation_flags_reached",
    "Verif.MRing.C57_violation_no_gating",
    "Verif.MRing.C57_example",
    "Verif.SRing.C57_single_producer"
   ],
   "note": "Event slots: proved race free (multi and single producer) when the running processors are gating; flags: no write-write race; missing (shown false): the plain int availability flag is read while it is written; without gating processors slots race."
  },
  {
   "property": "C58",
   "status": "partial",
   "theorems": [
    "Verif.Mux.C58_delivered_only_successful",
    "Verif.Mux.C58_extra_events_bounded_partial",
    "Verif.Mux.C58_failed_call_invisible_partial",
    "Verif.Mux.C58_violation_failed_calls_fill_the_ring",
    "Verif.Mux.C58_violation_example",
    "Verif.Mux.C58_violation_failed_call_counted"
   ],
   "note": "multiplexer: only events of successful calls are delivered; but failed calls use up slots: after ring-size failures nothing is published any more (C58_violation_failed_calls_fill_the_ring) and their slots are counted as discarded"
  },
  {
   "property": "C59",
   "status": "proved",
   "theorems": [
    "Verif.Proc.C59_no_deadlock",
    "Verif.Proc.C59_available_is_handled",
    "Verif.Proc.C59_no_lost_wakeup",
    "Verif.Proc.C59_timed_wait_ends",
    "Verif.Proc.C59_quiescent",
    "Verif.Proc.C59_example_lite"
   ],
   "note": "all wait strategies; the first phase of the phased one is assumed to be finite (the clock moves on)"
  },
  {
   "property": "C60",
   "status": "partial",
   "theorems": [
    "Verif.Channel.C60_json_messages",
    "Verif.Channel.C60_void_caster_messages",
    "Verif.Channel.C60_binary_messages_partial",
    "Verif.Channel.C60_violation_stale_bytes",
    "Verif.Channel.C60_example"
   ],
   "note": "JSON and void caster: proved. Binary: exactly the sequences in which serializations never get shorter on an object; otherwise bytes of earlier events are sent (violation proved)."
  },
  {
   "property": "C61",
   "status": "partial",
   "theorems": [
    "Verif.RaChain.C61_chain_no_race_partial",
    "Verif.RaChain.C61_chain_accesses_ordered_partial",
    "Verif.RaChain.C61_chain_right_value_partial",
    "Verif.RaChain.C61_chain_exclusive_partial",
    "Verif.RaChain.C61_chain_order_partial",
    "Verif.RaChain.C61_chain_example",
    "Verif.RaChain.C61_chain_example_stale",
    "Verif.RaChain.C61_chain_example_two",
    "Verif.RaChain.C61_chain_handed_on_partial",
    "Verif.RaChain.C61_chain_first_reads_partial",
    "Verif.RaChain.C61_chain_example_handed_on",
    "Verif.RaMulti.C61_multi_write_after_reads_partial",
    "Verif.RaMulti.C61_multi_claims_partial",
    "Verif.RaMulti.C61_multi_fixed_no_race_partial",
    "Verif.RaMulti.C61_multi_fixed_right_value_partial",
    "Verif.RaMulti.C61_violation_multi_flag_race",
    "Verif.RaMulti.C61_violation_multi_event_race",
    "Verif.RaMulti.C61_violation_multi_write_race",
    "Verif.RaMulti.C61_example_multi_fixed",
    "Verif.RaMulti.C61_example_multi",
    "Verif.RaMulti.C61_example_multi_stale",
    "Verif.RaRing.C61_single_no_race_partial",
    "Verif.RaRing.C61_single_accesses_ordered_partial",
    "Verif.RaRing.C61_single_right_value_partial",
    "Verif.RaRing.C61_example",
    "Verif.RaRing.C61_example_stale"
   ],
   "note": "Single producer: proved for every interleaving and every stale read, with processors side by side and with a pipeline of any length whose handlers change the events (each stage reads what the one before has left). Several producers: proved that a write is ordered after all reads and that claims are unique; with release/acquire flags everything is proved. Missing (shown false of the code): the reads and later writes are not ordered after the write of an event, because the availability flags are plain ints."
  },
  {
   "property": "C62",
   "status": "partial",
   "theorems": [
    "Verif.RaWait.C62_blocking_no_lost_wakeup_partial",
    "Verif.RaWait.C62_blocking_quiescent_partial",
    "Verif.RaWait.C62_notify_wakes",
    "Verif.RaWait.C62_blocking_fresh_partial",
    "Verif.RaWait.C62_blocking_excl",
    "Verif.RaWait.C62_excl",
    "Verif.RaWait.C62_returns_for_a_reason",
    "Verif.RaWait.C62_example",
    "Verif.RaWait.C62_violation_lite_lost_wakeup",
    "Verif.RaWait.C62_violation_lite_lost_alert"
   ],
   "note": "Blocking strategy: proved. Missing (shown false): lite blocking strategy, store buffering loses a wake-up or an alert."
  },
  {
   "property": "C63",
   "status": "partial",
   "theorems": [
    "Verif.CQ.C63_in_order_partial",
    "Verif.CQ.C63_conservation_partial",
    "Verif.CQ.C63_discards_oldest_partial",
    "Verif.CQ.C63_statistics_partial",
    "Verif.CQ.C63_blocking_complete_partial",
    "Verif.CQ.C63_publish_accepts",
    "Verif.CQ.C63_one_publisher_no_race",
    "Verif.CQ.C63_violation_shared_token",
    "Verif.CQ.C63_example"
   ],
   "note": "in order, at most once, nothing lost when blocking, exact discard statistics, publish ends only by acceptance, for executions in which threads do not enqueue with the one producer token at the same time; with two publishing threads the token is shared, which the queue forbids (C63_violation_shared_token)"
  },
  {
   "property": "C64",
   "status": "partial",
   "theorems": [
    "Verif.Prov.C64_publisher_identity",
    "Verif.Prov.C64_publisher_made_by_first_request",
    "Verif.Prov.C64_publisher_as_requested_partial",
    "Verif.Prov.C64_subscriber_partial",
    "Verif.Prov.C64_subscriber_as_requested_partial",
    "Verif.Prov.C64_one_scheduler",
    "Verif.Prov.C64_scheduler_typed_partial",
    "Verif.Prov.C64_set_container",
    "Verif.Prov.C64_new_objects_attached",
    "Verif.Prov.C64_set_container_scheduler",
    "Verif.Prov.C64_example",
    "Verif.Prov.C64_violation_type",
    "Verif.Prov.C64_violation_parameters",
    "Verif.Prov.C64_violation_scheduler_destroys_subscriber",
    "Verif.Prov.C64_violation_scheduler_type",
    "Verif.Prov.C64_violation_subscriber_is_executor",
    "Verif.Prov.C64_violation_late_container"
   ],
   "note": "publisher identity, topic and lifetime: proved for every history; types and parameters are those of the first request; subscribers proved for names not used for the scheduler; violated by names used with two types or parameters and by getScheduler with a used name (C64_violation_*)"
  },
  {
   "property": "C65",
   "status": "partial",
   "theorems": [
    "Verif.Destroy.C65_check_sound",
    "Verif.Destroy.C65_check_complete",
    "Verif.Destroy.C65_unjoined_never_completes",
    "Verif.Destroy.C65_in_memory_stopped_partial",
    "Verif.Destroy.C65_violation_in_memory_running",
    "Verif.Destroy.C65_example_queue_used_after_destruction",
    "Verif.Destroy.C65_example_token_used_after_destruction",
    "Verif.Destroy.C65_example_order_matters",
    "Verif.Destroy.C65_event_loop_stopped_partial",
    "Verif.Destroy.C65_violation_event_loop_running",
    "Verif.Destroy.C65_violation_scheduled_task",
    "Verif.Destroy.C65_violation_event_loop_subscriber",
    "Verif.Destroy.C65_data_multiplexer_running",
    "Verif.Destroy.C65_violation_slow_start",
    "Verif.Destroy.C65_from_zmq_stopped_partial",
    "Verif.Destroy.C65_violation_from_zmq_running",
    "Verif.Destroy.C65_zmq_env_running",
    "Verif.Destroy.C65_example_zmq_env_order",
    "Verif.Destroy.C65_completes",
    "Verif.Destroy.C65_all_told",
    "Verif.Destroy.C65_runs_until_told",
    "Verif.Destroy.C65_threads_during_destruction",
    "Verif.Proc.C65_violation_destructor_waits",
    "Verif.Proc.C65_example_destructor_waits"
   ],
   "note": "data multiplexer and ZMQ environment: safe while running; others safe when stopped; missing (shown false): running in-memory providers and ZMQ channels use destroyed parts, started event loops and schedulers with tasks terminate the process, a data multiplexer subscriber that starts too slowly terminates it too (C65_violation_slow_start) and one whose processor died hangs in its destructor (C65_violation_destructor_waits)"
  },
  {
   "property": "C66",
   "status": "proved",
   "theorems": [
    "Verif.Chain.C66_after_dependencies",
    "Verif.Chain.C66_each_once_in_order",
    "Verif.Chain.C66_leaf_gating_suffices",
    "Verif.Chain.C66_claim_after_all",
    "Verif.Chain.C66_try_next_exact",
    "Verif.Chain.C66_next_exact",
    "Verif.Chain.C66_registered",
    "Verif.Chain.C66_progress",
    "Verif.Chain.C66_example_held_back",
    "Verif.Chain.C66_example_through",
    "Verif.Chain.C66_example_upstream",
    "Verif.Chain.C66_example_ordered",
    "Verif.Chain.C66_violation_late_chain",
    "Verif.Chain.C66_cycle_never_starts"
   ],
   "note": "single producer sequencer, registration before the first claim as the property says; C66_violation_late_chain shows what happens otherwise"
  },
  {
   "property": "C67",
   "status": "partial",
   "theorems": [
    "Verif.RaStack.C67_updates_are_a_stack_partial",
    "Verif.RaStack.C67_results_partial",
    "Verif.RaStack.C67_refused_partial",
    "Verif.RaStack.C67_known",
    "Verif.RaStack.C67_own_update_known",
    "Verif.RaStack.C67_known_grows",
    "Verif.RaStack.C67_one_owner_partial",
    "Verif.RaStack.C67_elements_ordered_partial",
    "Verif.RaStack.C67_data_owned",
    "Verif.RaStack.C67_violation_stale_link",
    "Verif.RaStack.C67_example_stale_refused",
    "Verif.RaStack.C67_example",
    "Verif.RaStack.C67_example_stale_empty",
    "Verif.RaStack.C67_example_sync",
    "Verif.RaStack.C67_example_retry"
   ],
   "note": "proved when reads through a loaded index are ordered after the load (all current processors, if the compiler keeps the dependency); for the C++ memory model itself the relaxed load in _pop lets a stale link through: C67_violation_stale_link; the plain (non-atomic) links are the subject of C54"
  },
  {
   "property": "C68",
   "status": "partial",
   "theorems": [
    "Verif.Endpoint.C68_names_differ",
    "Verif.Endpoint.C68_right_server_partial",
    "Verif.Endpoint.C68_one_server_partial",
    "Verif.Endpoint.C68_port_available_partial",
    "Verif.Endpoint.C68_violation_long_path",
    "Verif.Endpoint.C68_violation_wrong_server",
    "Verif.Endpoint.C68_violation_port",
    "Verif.Endpoint.C68_violation_restart",
    "Verif.Endpoint.C68_example_restart",
    "Verif.Endpoint.C68_accept_in_order",
    "Verif.Endpoint.C68_accept_own",
    "Verif.Endpoint.C68_accept_returns",
    "Verif.Endpoint.C68_violation_signal",
    "Verif.Endpoint.C68_violation_descriptor",
    "Verif.Endpoint.C68_violation_report",
    "Verif.Endpoint.C68_violation_closed_twice",
    "Verif.Endpoint.C68_backlog",
    "Verif.Endpoint.C68_example"
   ],
   "note": "right server, order of accept and return of accept proved for every history, for addresses that fit; violated by paths of 108 bytes or more, ports out of range, restart of a server on a path, signals during accept, descriptors above 1023, and the report of a failed constructor (C68_violation_*)"
  },
  {
   "property": "C69",
   "status": "proved",
   "theorems": [
    "Verif.Pipe.C69_received_value",
    "Verif.Pipe.C69_received_is_published",
    "Verif.Pipe.C69_kept_value",
    "Verif.Pipe.C69_writer_exclusive",
    "Verif.Pipe.C69_in_pool_iff_unheld",
    "Verif.Pipe.C69_queue_bounded",
    "Verif.Pipe.C69_no_allocation",
    "Verif.Pipe.C69_smaller_pool_allocates",
    "Verif.Pipe.C69_pool_size_exact",
    "Verif.Pipe.C69_all_returned",
    "Verif.Pipe.C69_one_fate",
    "Verif.Pipe.C69_fifo",
    "Verif.Pipe.C69_fifo_discarding",
    "Verif.Pipe.C69_discards_only_when_full",
    "Verif.Pipe.C69_example",
    "Verif.Pipe.C69_example_recycled",
    "Verif.Pipe.C69_example_fates",
    "Verif.Pipe.C69_example_pool_of_queue_size"
   ],
   "note": "end to end: what listeners read is what was published, one fate per publication, FIFO delivery, exact pool size for no allocation"
  },
  {
   "property": "C70",
   "status": "partial",
   "theorems": [
    "Verif.PoolEnd.C70_freed_at_most_once",
    "Verif.PoolEnd.C70_all_freed",
    "Verif.PoolEnd.C70_no_overlap_partial",
    "Verif.PoolEnd.C70_finalized_or_out_partial",
    "Verif.PoolEnd.C70_violation_lock_then_delete",
    "Verif.PoolEnd.C70_violation_lock_after_delete",
    "Verif.PoolEnd.C70_violation_pool_gone",
    "Verif.PoolEnd.C70_violation_not_finalized",
    "Verif.PoolEnd.C70_example"
   ],
   "note": "holds when no release overlaps the destructor; overlapping releases can push to a deleted stack (C70_violation_*)"
  },
  {
   "property": "C71",
   "status": "partial",
   "theorems": [
    "Verif.Chain.C71_every_event_handled",
    "Verif.Chain.C71_next_returns_partial",
    "Verif.Chain.C71_violation_oversized_never_returns",
    "Verif.Chain.C71_example"
   ],
   "note": "next(n) with n larger than the ring never returns (C71_violation_oversized_never_returns); everything else proved for every fair execution"
  },
  {
   "property": "C72",
   "status": "proved",
   "theorems": [
    "Verif.EvLoop.C72_publish_returns",
    "Verif.EvLoop.C72_accepted_is_delivered",
    "Verif.EvLoop.C72_accepted_while_running",
    "Verif.EvLoop.C72_example",
    "Verif.EvLoop.C72_stalled_publisher_blocks_all"
   ],
   "note": "for a loop started while no publisher is in the middle of publish and below 2^31 events, as in C30; C72_stalled_publisher_blocks_all shows that fairness to publishers is needed"
  },
  {
   "property": "C73",
   "status": "proved",
   "theorems": [
    "Verif.SyncNet.C73_synchronous",
    "Verif.SyncNet.C73_kept_untouched",
    "Verif.SyncNet.C73_nothing_leaks",
    "Verif.SyncNet.C73_pool_restored",
    "Verif.SyncNet.C73_acyclic",
    "Verif.SyncNet.C73_endless",
    "Verif.SyncNet.C73_example"
   ],
   "note": "Cloners and transformations write the whole event (otherwise C06_recycled_content_leaks). Once listeners and registration during emission are C14-C16, C56."
  },
  {
   "property": "C74",
   "status": "partial",
   "theorems": [
    "Verif.Period.C74_never_early_partial",
    "Verif.Period.C74_period_exact_partial",
    "Verif.Period.C74_on_time_partial",
    "Verif.Period.C74_one_call_after_stop",
    "Verif.Period.C74_stop_delay_partial",
    "Verif.Period.C74_round",
    "Verif.Period.C74_one_shot",
    "Verif.Period.C74_violation_clock_set_back",
    "Verif.Period.C74_violation_clock_set_forward",
    "Verif.Period.C74_violation_long_task",
    "Verif.Period.C74_example",
    "Verif.Period.C74_example_stop",
    "Verif.Period.C74_example_long"
   ],
   "note": "never early, exact period, one call after stop and its delay proved for a clock nobody sets and calls of less than 2^31 us more than the period; the code violates it when the system clock is set and after longer calls (C74_violation_*)"
  },
  {
   "property": "C75",
   "status": "partial",
   "theorems": [
    "Verif.MemP.C75_flow",
    "Verif.MemP.C75_delivered",
    "Verif.MemP.C75_blocking_delivered",
    "Verif.MemP.C75_some_publication_accepted",
    "Verif.MemP.C75_publish_returns_partial",
    "Verif.MemP.C75_violation_starvation",
    "Verif.MemP.C75_violation_throwing_listener",
    "Verif.MemP.C75_example_throw",
    "Verif.MemP.C75_example"
   ],
   "note": "bookkeeping, delivery, progress and return of publish when publishing stops proved; a blocking publish can starve while others publish (C75_violation_starvation) and a throwing listener silently ends delivery (C75_violation_throwing_listener)"
  },
  {
   "property": "C76",
   "status": "partial",
   "theorems": [
    "Verif.PubThrow.C76_pool_intact",
    "Verif.PubThrow.C76_publish_isolated",
    "Verif.PubThrow.C76_process_isolated",
    "Verif.PubThrow.C76_process_outcome",
    "Verif.PubThrow.C76_publish_outcome_partial",
    "Verif.PubThrow.C76_publish_calls_once_partial",
    "Verif.PubThrow.C76_violation_out_of_range",
    "Verif.PubThrow.C76_without_exceptions",
    "Verif.PubThrow.C76_example_history",
    "Verif.PubThrow.C76_example_reported",
    "Verif.PubThrow.C76_violation_example",
    "Verif.PubThrow.C76_violation_swallowed"
   ],
   "note": "false for a cloner that throws std::out_of_range on a pooled event (C76_violation_out_of_range): the catch clause for the empty pool also covers the call of the cloner"
  },
  {
   "property": "C77",
   "status": "partial",
   "theorems": [
    "Verif.CqP.C77_flow",
    "Verif.CqP.C77_delivered",
    "Verif.CqP.C77_blocking_delivered",
    "Verif.CqP.C77_publish_returns",
    "Verif.CqP.C77_discarding_returns_partial",
    "Verif.CqP.C77_violation_throwing_listener",
    "Verif.CqP.C77_violation_blocked_for_ever",
    "Verif.CqP.C77_violation_starvation",
    "Verif.CqP.C77_example_blocking",
    "Verif.CqP.C77_example_discarding"
   ],
   "note": "Delivery and return of a blocking publish are proved in full for listeners that do not throw. Violated by the code for throwing listeners (the polling thread ends silently: C77_violation_throwing_listener, C77_violation_blocked_for_ever) and for a discarding publisher among others that go on publishing (C77_violation_starvation)."
  },
  {
   "property": "C78",
   "status": "partial",
   "theorems": [
    "Verif.RefP.C78_event_loop",
    "Verif.RefP.C78_memory",
    "Verif.RefP.C78_concurrent_queue_partial",
    "Verif.RefP.C78_event_loop_all_back_partial",
    "Verif.RefP.C78_memory_all_back",
    "Verif.RefP.C78_concurrent_queue_all_back",
    "Verif.RefP.C78_event_loop_no_allocation",
    "Verif.RefP.C78_memory_no_allocation",
    "Verif.RefP.C78_concurrent_queue_no_allocation",
    "Verif.RefP.C78_example_event_loop",
    "Verif.RefP.C78_violation_throw_keeps_event",
    "Verif.RefP.C78_violation_restart_keeps_event",
    "Verif.RefP.C78_example_memory",
    "Verif.RefP.C78_example_concurrent_queue"
   ],
   "note": "Values, exclusive writers and membership in the pool are proved for the event loop and the in-memory middleware without assumption, for the concurrent queue as long as no two threads enqueue with its shared token at the same time. Not true of the code: a listener that throws on an event loop leaves its event in the slot (event_loop_event_handler.h 81-84), and events accepted while the loop was stopped stay in their slots after a restart, until the ring comes round (C78_violation_*)."
  },
  {
   "property": "C79",
   "status": "partial",
   "theorems": [
    "Verif.ElD.C79_dispatch_partial",
    "Verif.ElD.C79_taken_up_in_order",
    "Verif.ElD.C79_named_listener_gets_all",
    "Verif.ElD.C79_scheduled_functions_run",
    "Verif.ElD.C79_once_listener_called_once",
    "Verif.ElD.C79_own_topic_in_order",
    "Verif.ElD.C79_removed_not_called",
    "Verif.ElD.C79_end_to_end",
    "Verif.ElD.C79_delivery_completes",
    "Verif.ElD.C79_example",
    "Verif.ElD.C79_example_throw",
    "Verif.ElD.C79_violation_single_external",
    "Verif.ElD.C79_violation_single_external_scheduler",
    "Verif.ElD.C79_violation_single_listener",
    "Verif.ElD.C79_violation_single_listener_removed",
    "Verif.ElD.C79_violation_name_twice",
    "Verif.ElD.C79_violation_scheduler_takes_topic",
    "Verif.ElD.C79_violation_publisher_of_scheduler",
    "Verif.ElD.C79_all_taken_up",
    "Verif.ElD.C79_delivered",
    "Verif.ElD.C79_live_example"
   ],
   "note": "Proved for all three emitter types at both levels, any interleaving and history (refinement of a specification automaton, then per-listener theorems up to order of acceptance). Also delivery in infinite executions in which the loop keeps running and publishers that claimed a cell finish (C79_all_taken_up, C79_delivered). Violated without the conditions of Ok: an external emitter of type UNSAFE_SINGLE serves one topic only, a second listener at an UNSAFE_SINGLE subscriber is ignored and its removal removes the first, a name registered twice leaves a listener that can not be removed, a scheduler with the name of a topic destroys its subscriber."
  },
  {
   "property": "C80",
   "status": "proved",
   "theorems": [
    "Verif.LFS.C80_steps_paid_by_results",
    "Verif.LFS.C80_steps_paid_by_calls",
    "Verif.LFS.C80_some_call_returns",
    "Verif.LFS.C80_lock_free",
    "Verif.LFS.C80_starvation_possible",
    "Verif.LFS.C80_example",
    "Verif.LFS.C80_example_long",
    "Verif.LFS.C80_example_executions"
   ],
   "note": "lock-freedom with an explicit bound, from every state and for every number of threads, finite and infinite executions; sequentially consistent memory (C54, C61 for the memory orders). C80_starvation_possible shows that wait-freedom, which the code does not promise, does not hold."
  },
  {
   "property": "C81",
   "status": "partial",
   "theorems": [
    "Verif.MemD.C81_dispatch_partial",
    "Verif.MemD.C81_taken_up_in_order",
    "Verif.MemD.C81_named_listener_gets_all",
    "Verif.MemD.C81_once_listener_called_once",
    "Verif.MemD.C81_in_order",
    "Verif.MemD.C81_removed_not_called",
    "Verif.MemD.C81_end_to_end",
    "Verif.MemD.C81_delivery_completes",
    "Verif.MemD.C81_violation_exception_ends_delivery",
    "Verif.MemD.C81_example_basic",
    "Verif.MemD.C81_example_concurrent",
    "Verif.MemD.C81_example_throw",
    "Verif.MemD.C81_violation_name_twice",
    "Verif.MemD.C81_violation_single_listener",
    "Verif.MemD.C81_violation_exception_example",
    "Verif.MemD.C81_delivered",
    "Verif.MemD.C81_blocking_delivered",
    "Verif.MemD.C81_example_delivered_basic",
    "Verif.MemD.C81_example_delivered_concurrent"
   ],
   "note": "proved for both middlewares, all three emitter types and every interleaving, safety and delivery in fair infinite executions; false in general: a listener name registered twice, a second listener on a single-listener emitter, and an exception of a listener ends the delivery of all later events until a restart (C81_violation_*)"
  },
  {
   "property": "C82",
   "status": "partial",
   "theorems": [
    "Verif.Mux.C82_kept_up_to_date",
    "Verif.Mux.C82_last_event_delivered",
    "Verif.Mux.C82_publish_returns",
    "Verif.Mux.C82_publisher_not_refused_for_ever_partial",
    "Verif.Mux.C82_violation_destroyed_subscriber",
    "Verif.Mux.C82_example_delivered",
    "Verif.Mux.C82_example_publisher",
    "Verif.Mux.C82_violation_example"
   ],
   "note": "False after a subscriber was destroyed (C82_violation_destroyed_subscriber: its sequence stays in the ring) and once failed calls fill the ring (C58); everything else proved."
  },
  {
   "property": "C83",
   "status": "partial",
   "theorems": [
    "Verif.ZmqE.C83_received_was_published_partial",
    "Verif.ZmqE.C83_to_the_registered_publisher",
    "Verif.ZmqE.C83_nothing_lost_partial",
    "Verif.ZmqE.C83_mappers_carry",
    "Verif.ZmqE.C83_delivered_in_the_end_partial",
    "Verif.ZmqE.C83_violation_concurrent_publishers",
    "Verif.ZmqE.C83_violation_receiver_out_of_step",
    "Verif.ZmqE.C83_out_of_step_example",
    "Verif.ZmqE.C83_violation_exception_ends_the_poller",
    "Verif.ZmqE.C83_exception_example",
    "Verif.ZmqE.C83_example",
    "Verif.ZmqE.C83_delivered_example"
   ],
   "note": "Two threads that publish at once through one provider mix up frames; the receiver then delivers something nobody published and stays out of step for ever; an exception of a decoder or internal publisher ends the polling thread silently (violations proved). The statement is proved for publications that do not overlap."
  },
  {
   "property": "C84",
   "status": "partial",
   "theorems": [
    "Verif.Locks.C84_no_deadlock_partial",
    "Verif.Locks.C84_no_deadlock_plain_partial",
    "Verif.Locks.C84_progress_partial",
    "Verif.Locks.C84_nothing_kept",
    "Verif.Locks.C84_listeners_run_unlocked",
    "Verif.Locks.C84_waiting_unlocked",
    "Verif.Locks.C84_deadlock_stays",
    "Verif.Locks.C84_violation_swap",
    "Verif.Locks.C84_violation_synchronous_reply",
    "Verif.Locks.C84_violation_poller_function",
    "Verif.Locks.C84_violation_captured_destructor",
    "Verif.Locks.C84_violation_two_handlers",
    "Verif.Locks.C84_violation_stop_each_other",
    "Verif.Locks.C84_violation_stop_in_callback",
    "Verif.Locks.C84_violation_waits_with_lock",
    "Verif.Locks.C84_example",
    "Verif.Locks.C84_example_listeners",
    "Verif.Locks.C84_example_plain"
   ],
   "note": "no deadlock is proved for every program whose calls made while holding a mutex of the library lock only later mutexes of some order, in particular for every program that calls the library from unlocked code only and exchanges no queues; a thread outside the library holds nothing, listeners run unlocked and condition variables are waited for unlocked, without assumption. The unconditional claim is false: swapping queues both ways, a synchronous reply to a callback handler, a ZeroMQ topic function that unregisters itself, destructors of captured objects and stopping workers from callbacks deadlock (C84_violation_*)"
  },
  {
   "property": "C85",
   "status": "partial",
   "theorems": [
    "Verif.Locks.C85_no_race_partial",
    "Verif.Locks.C85_protected_functions_partial",
    "Verif.Locks.C85_table_exact",
    "Verif.Locks.C85_always_protected",
    "Verif.Locks.C85_queue_items_partial",
    "Verif.Locks.C85_exclusive_changes_partial",
    "Verif.Locks.C85_violation_emit_and_register",
    "Verif.Locks.C85_violation_emit_and_remove",
    "Verif.Locks.C85_violation_two_emissions_with_once",
    "Verif.Locks.C85_violation_stats_and_register",
    "Verif.Locks.C85_violation_remove_all",
    "Verif.Locks.C85_violation_two_mutexes",
    "Verif.Locks.C85_violation_detach_publication",
    "Verif.Locks.C85_violation_start_container",
    "Verif.Locks.C85_violation_set_bound",
    "Verif.Locks.C85_violation_move",
    "Verif.Locks.C85_violation_move_assign",
    "Verif.Locks.C85_violation_early_reply",
    "Verif.Locks.C85_violation_copying_time",
    "Verif.Locks.C85_violation_shared_environment_read",
    "Verif.Locks.C85_violation_shared_environment_write",
    "Verif.Locks.C85_shared_environment_partial",
    "Verif.Locks.C85_example_shared_environment",
    "Verif.Locks.C85_example",
    "Verif.Locks.C85_example_environment",
    "Verif.Locks.C85_example_queue"
   ],
   "note": "race freedom is proved for every program that does not call the functions listed as unprotected in a conflicting way (the list is exact), and unconditionally for environments in memory, topics, listener ids, cached events and services. The unconditional claim is false: emitEvent reads the number of listeners before it locks, getListenerStats, removeAllListeners, CoreContainer::start, stop and detach(PublicationStats), set_max_num_items, moving from a queue and an early reply take no lock, service statistics are changed under two different mutexes, and the thread of a shared environment (ZMQEnv) replaces the properties without any lock (C85_violation_*)"
  },
  {
   "property": "C86",
   "status": "partial",
   "theorems": [
    "Verif.ElS.C86_firings_accounted",
    "Verif.ElS.C86_refusals_counted",
    "Verif.ElS.C86_called_once_in_order",
    "Verif.ElS.C86_not_more_calls_than_firings",
    "Verif.ElS.C86_drained",
    "Verif.ElS.C86_stopped_partial",
    "Verif.ElS.C86_one_at_a_time",
    "Verif.ElS.C86_in_a_delivery",
    "Verif.ElS.C86_loop_waits_for_stop",
    "Verif.ElS.C86_stop_returns",
    "Verif.ElS.C86_example",
    "Verif.ElS.C86_example_stops_itself",
    "Verif.ElS.C86_violation_called_after_stop",
    "Verif.ElS.C86_violation_pile_up",
    "Verif.ElS.C86_accepted_called",
    "Verif.ElS.C86_fired_called_or_refused",
    "Verif.ElS.C86_live_example"
   ],
   "note": "Proved: every firing is accepted, refused or still inside publish; refusals are counted; accepted firings are called exactly once, in the order of acceptance, nothing left out, also with exceptions; a drained loop has called every task as often as it fired less the refusals; in fair infinite executions every accepted firing is called in the end and every firing is called or refused (C86_accepted_called, C86_fired_called_or_refused); stopScheduledTask returns by steps of the task's own thread only, so a task may stop itself on the loop. Missing: calls after stopScheduledTask has returned do occur, for firings still in the ring (C86_violation_called_after_stop; C86_stopped_partial bounds them). Finding: firings pile up and crowd out the events of users (C86_violation_pile_up)."
  },
  {
   "property": "C87",
   "status": "partial",
   "theorems": [
    "Verif.MuxD.C87_dispatch_partial",
    "Verif.MuxD.C87_taken_up",
    "Verif.MuxD.C87_named_listener_gets_all",
    "Verif.MuxD.C87_once_listener_called_once",
    "Verif.MuxD.C87_removed_not_called",
    "Verif.MuxD.C87_in_order",
    "Verif.MuxD.C87_listener_reads_what_was_published_partial",
    "Verif.MuxD.C87_accounting",
    "Verif.MuxD.C87_every_listener_up_to_date",
    "Verif.MuxD.C87_delivery_completes",
    "Verif.MuxD.C87_exception_costs_one_event",
    "Verif.MuxD.C87_example",
    "Verif.MuxD.C87_example_up_to_date",
    "Verif.MuxD.C87_violation_exception_hides_event",
    "Verif.MuxD.C87_violation_name_twice",
    "Verif.MuxD.C87_example_delivery",
    "Verif.MuxD.C87_taken_up_in_the_end",
    "Verif.MuxD.C87_kept_up_to_date",
    "Verif.MuxD.C87_last_event_reaches_listener",
    "Verif.MuxD.C87_live_example"
   ],
   "note": "Proved for SAFE emitters (the only ones a subscriber uses), any use: histories conform to the dispatch specification, listeners get the newest of each batch in order and read the published content, everyone is up to date when the publisher pauses, accounting. In fair infinite executions every listener that stays registered is kept up to date and gets the last event (C87_kept_up_to_date, C87_last_event_reaches_listener). Violations: an event whose delivery is ended by an exception is neither given to the later listeners nor counted as discarded; a name registered twice; content on providers with a model event (C29)."
  },
  {
   "property": "C88",
   "status": "proved",
   "theorems": [
    "Verif.MRing.C88_steps_paid_by_results",
    "Verif.MRing.C88_lists",
    "Verif.MRing.C88_some_call_ends",
    "Verif.MRing.C88_try_next_lock_free",
    "Verif.MRing.C88_fails_only_if_overtaken",
    "Verif.MRing.C88_next_returns_alone",
    "Verif.MRing.C88_next_waits_for_processors",
    "Verif.MRing.C88_next_returns_only_with_room",
    "Verif.MRing.C88_starvation_possible"
   ],
   "note": "try_next is lock-free (bound for every window, and the infinite form), attempts fail only if overtaken, next returns alone with room and only with room; not wait-free (family of schedules)"
  },
  {
   "property": "C89",
   "status": "partial",
   "theorems": [
    "Verif.GVec.C89_no_invalid_access_partial",
    "Verif.GVec.C89_minimum_over_registered_partial",
    "Verif.GVec.C89_remove_reports_partial",
    "Verif.GVec.C89_minimum_is_lower_bound_partial",
    "Verif.GVec.C89_no_race_partial",
    "Verif.GVec.C89_violation_freed",
    "Verif.GVec.C89_violation_first_registration",
    "Verif.GVec.C89_violation_lost_registration",
    "Verif.GVec.C89_violation_removal_hides_another",
    "Verif.GVec.C89_violation_race",
    "Verif.GVec.C89_starts_at_cursor",
    "Verif.GVec.C89_example"
   ],
   "note": "proved for registrations and removals that do not overlap with other calls (contents, scans, no race, no invalid access, any growth); false of the code otherwise: freed memory is read (from every state with a full vector), registrations are lost, processors are skipped, data race (C89_violation_*)"
  },
  {
   "property": "C90",
   "status": "proved",
   "theorems": [
    "Verif.Mux.C90_subscriber",
    "Verif.Mux.C90_publisher",
    "Verif.Mux.C90_fair_execution",
    "Verif.Chain.C90_processor",
    "Verif.Chain.C90_producer",
    "Verif.Chain.C90_fair_execution",
    "Verif.EvLoop.C90_loop",
    "Verif.EvLoop.C90_publisher",
    "Verif.EvLoop.C90_fair_execution",
    "Verif.MuxD.C90_subscriber",
    "Verif.MuxD.C90_fair_execution",
    "Verif.ElD.C90_loop",
    "Verif.ElD.C90_publisher",
    "Verif.ElD.C90_fair_execution",
    "Verif.ElS.C90_loop",
    "Verif.ElS.C90_publisher",
    "Verif.ElS.C90_task_thread",
    "Verif.ElS.C90_fair_execution",
    "Verif.Mux.C90_example",
    "Verif.Chain.C90_example",
    "Verif.EvLoop.C90_example",
    "Verif.MemP.C90_example",
    "Verif.CqP.C90_example",
    "Verif.MemD.C90_example",
    "Verif.ElD.C90_example",
    "Verif.ElS.C90_example",
    "Verif.MuxD.C90_example",
    "Verif.MemP.C90_poller",
    "Verif.MemP.C90_publisher",
    "Verif.MemP.C90_fair_execution",
    "Verif.CqP.C90_poller",
    "Verif.CqP.C90_publisher",
    "Verif.CqP.C90_fair_execution",
    "Verif.MemD.C90_poller",
    "Verif.MemD.C90_fair_execution"
   ],
   "note": "For every reachable state: each subscriber, processor, loop, poller and publisher that is not waiting for somebody else has a possible step (C90_subscriber, C90_publisher, C90_processor, C90_producer, C90_loop, C90_poller, C90_task_thread), and a fair infinite execution exists (C90_fair_execution, in nine models). Event loops: below the limit of 2^31 events (C24); with the scheduler: while the loop does not wait in stopScheduledTask (that wait ends: C86_stop_returns); concurrent queue: one publisher at a time (C63)."
  },
  {
   "property": "C91",
   "status": "partial",
   "theorems": [
    "Verif.FsmR.C91_follows_table",
    "Verif.FsmR.C91_call_notifies",
    "Verif.FsmR.C91_notified_only_by_calls",
    "Verif.FsmR.C91_every_observer_once",
    "Verif.FsmR.C91_every_action_once",
    "Verif.FsmR.C91_listener_phases",
    "Verif.FsmR.C91_phases_only_then",
    "Verif.FsmR.C91_never_undefined_partial",
    "Verif.FsmR.C91_one_off_once_partial",
    "Verif.FsmR.C91_observers_changed_in_notification",
    "Verif.FsmR.C91_actions_changed_in_loop",
    "Verif.FsmR.C91_example_nested",
    "Verif.FsmR.C91_violation_register_in_observer",
    "Verif.FsmR.C91_violation_remove_in_action",
    "Verif.FsmR.C91_violation_one_off_reenters",
    "Verif.FsmR.C91_violation_one_off_throws",
    "Verif.FsmR.C91_violation_observer_throws"
   ],
   "note": "The machine follows its table, every observer and every action is called once per loop, and which loops there are, is proved for every nesting. That no invalid iterator is used and that one-off actions are run once holds only if observers and actions keep to rules nobody states (C91_never_undefined_partial, C91_one_off_once_partial); without them it is false: C91_violation_register_in_observer, C91_violation_remove_in_action, C91_violation_one_off_reenters (undefined behaviour), C91_violation_one_off_throws (called twice), C91_violation_observer_throws (later observers are never told)."
  },
  {
   "property": "C92",
   "status": "partial",
   "theorems": [
    "Verif.HandlerEnd.C92_no_call_after_removal",
    "Verif.HandlerEnd.C92_at_most_once",
    "Verif.HandlerEnd.C92_serial_while_alive",
    "Verif.HandlerEnd.C92_quiet_destruction_partial",
    "Verif.HandlerEnd.C92_destructor_does_not_wait",
    "Verif.HandlerEnd.C92_needs_quiet",
    "Verif.HandlerEnd.C92_needs_no_delivery",
    "Verif.HandlerEnd.C92_violation_used_after_end",
    "Verif.HandlerEnd.C92_violation_destroyed_by_callback",
    "Verif.HandlerEnd.C92_violation_mutex_destroyed",
    "Verif.HandlerEnd.C92_violation_not_serial",
    "Verif.HandlerEnd.C92_example"
   ],
   "note": "Proved for every interleaving: deliveries that begin after the removal never run the handler, each runs it at most once, the multi-threaded handler is serial while it is alive; and everything if the destruction begins when no delivery holds the handler. In general the property is violated: the destructor waits for nobody, so a delivery that has collected the listeners uses the handler after its end, and the mutex of the derived class is destroyed before the listener is removed; the condition is shown to be exact."
  },
  {
   "property": "C93",
   "status": "partial",
   "theorems": [
    "Verif.Env.C93_new_environment_partial",
    "Verif.Env.C93_new_throws",
    "Verif.Env.C93_load_partial",
    "Verif.Env.C93_load_unreadable",
    "Verif.Env.C93_update_partial",
    "Verif.Env.C93_update_unreadable",
    "Verif.Env.C93_round_trip",
    "Verif.Env.C93_export_new",
    "Verif.Env.C93_read_exact",
    "Verif.Env.C93_violation_load_silent",
    "Verif.Env.C93_violation_update_loses",
    "Verif.Env.C93_later_sections_ignored",
    "Verif.Env.C93_missing_section_keeps",
    "Verif.Env.C93_example"
   ],
   "note": "Constructor, loadFile, updateConfiguration and the round trip through the exported text, for every text whose values have the right types (C93_new_environment_partial, C93_load_partial, C93_update_partial, C93_round_trip). Missing, shown false: a value of another type is silently accepted (C93_violation_load_silent, C93_violation_update_loses); C93_read_exact says exactly what is read from any text."
  },
  {
   "property": "C94",
   "status": "partial",
   "theorems": [
    "Verif.Construct.C94_check_sound",
    "Verif.Construct.C94_check_complete",
    "Verif.Construct.C94_serial",
    "Verif.Construct.C94_sound_classes",
    "Verif.Construct.C94_violation_derived_classes",
    "Verif.Construct.C94_violation_mutex_not_constructed",
    "Verif.Construct.C94_violation_not_serial",
    "Verif.Construct.C94_violation_managed_service",
    "Verif.Construct.C94_undisturbed_partial",
    "Verif.Construct.C94_example_fixed",
    "Verif.Construct.C94_example",
    "Verif.Construct.C94_unlocked_overlap_example",
    "Verif.Construct.C94_locked_overlap_example"
   ],
   "note": "Proved for the single-threaded callback handler, the subscribers of event loop and data multiplexer and both constructors of the ZMQ environment (C94_sound_classes, by a check that is exact: C94_check_sound, C94_check_complete). False for MultiThreadCallbackHandler (the base class registers the listener before the mutex exists and before calls reach the functions that lock it) and for ManagedService with a subscriber (system events reach pure virtual functions or an unfinished derived class): C94_violation_*. For these two proved as long as no call arrives before the constructor has finished."
  },
  {
   "property": "C95",
   "status": "partial",
   "theorems": [
    "Verif.ZEP.C95_frames_in_pairs",
    "Verif.ZEP.C95_adopts_partial",
    "Verif.ZEP.C95_received_in_the_end_partial",
    "Verif.ZEP.C95_destructor_returns_partial",
    "Verif.ZEP.C95_violation_malformed",
    "Verif.ZEP.C95_violation_any_topic",
    "Verif.ZEP.C95_violation_one_part",
    "Verif.ZEP.C95_violation_destructor_hangs",
    "Verif.ZEP.C95_example",
    "Verif.ZEP.C95_hang_example",
    "Verif.ZEP.C95_run_example"
   ],
   "note": "Reception in order, the adopted updates and the life of the process are characterised for any messages; liveness and return of the destructor for two-part decodable messages. The full statement is false: an undecodable content terminates the process, a message of one part shifts the frames and lets the destructor hang, the topic is not checked (findings)."
  }
 ]
}