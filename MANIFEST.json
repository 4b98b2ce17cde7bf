{
 "claims": [
  {
   "property": "C01",
   "status": "proved",
   "theorems": [
    "Verif.Queue.queue_refines_sequence"
   ],
   "note": ""
  },
  {
   "property": "C02",
   "status": "proved",
   "theorems": [
    "Verif.Queue.queue_never_exceeds_capacity",
    "Verif.Queue.queue_stays_in_storage",
    "Verif.Queue.queue_full_put_rejected",
    "Verif.Queue.queue_put_with_room_succeeds"
   ],
   "note": ""
  },
  {
   "property": "C03",
   "status": "proved",
   "theorems": [
    "Verif.Queue.queue_lwm_is_historical_minimum",
    "Verif.Queue.queue_observers_exact"
   ],
   "note": ""
  },
  {
   "property": "C04",
   "status": "partial",
   "theorems": [
    "Verif.Queue.queue_read_partial",
    "Verif.Queue.queue_read_does_not_deliver"
   ],
   "note": "The code violates delivery (element assigned to the by-value parameter); negation proved, remaining parts proved."
  },
  {
   "property": "C05",
   "status": "proved",
   "theorems": [
    "Verif.Queue.queue_counters_exact",
    "Verif.Queue.queue_counters_total"
   ],
   "note": ""
  },
  {
   "property": "C06",
   "status": "proved",
   "theorems": [
    "Verif.MemPool.mempool_init_partitions"
   ],
   "note": "Under the explicit hypothesis that the counts fit their types; see C56 for the unchecked case."
  },
  {
   "property": "C07",
   "status": "proved",
   "theorems": [
    "Verif.MemPool.mempool_get_is_fresh",
    "Verif.MemPool.mempool_held_disjoint",
    "Verif.MemPool.mempool_preserves_client_data"
   ],
   "note": ""
  },
  {
   "property": "C08",
   "status": "proved",
   "theorems": [
    "Verif.MemPool.mempool_conservation",
    "Verif.MemPool.mempool_all_returned",
    "Verif.MemPool.mempool_put_get"
   ],
   "note": ""
  },
  {
   "property": "C09",
   "status": "proved",
   "theorems": [
    "Verif.MemPool.mempool_low_watermark"
   ],
   "note": ""
  },
  {
   "property": "C10",
   "status": "proved",
   "theorems": [
    "Verif.MemPool.mempool_rejects_foreign",
    "Verif.MemPool.mempool_accepts_interior_pointer",
    "Verif.MemPool.mempool_accepts_double_free"
   ],
   "note": "The two undetected cases named in the statement are proved as witnesses."
  },
  {
   "property": "C11",
   "status": "proved",
   "theorems": [
    "Verif.RdyGrp.getLeastBitSetPos_correct",
    "Verif.RdyGrp.getBitMask_correct"
   ],
   "note": ""
  },
  {
   "property": "C12",
   "status": "proved",
   "theorems": [
    "Verif.RdyGrp.rdygrp_is_set",
    "Verif.RdyGrp.rdygrp_ops_independent",
    "Verif.RdyGrp.rdygrp_rejects_out_of_range"
   ],
   "note": ""
  },
  {
   "property": "C13",
   "status": "proved",
   "theorems": [
    "Verif.RdyGrp.findHighest_is_minimum"
   ],
   "note": ""
  },
  {
   "property": "C14",
   "status": "proved",
   "theorems": [
    "Verif.RdyGrp.traverse_visits_members_ascending",
    "Verif.RdyGrp.membersAfter_sorted"
   ],
   "note": ""
  },
  {
   "property": "C15",
   "status": "proved",
   "theorems": [
    "Verif.Fwk.ready_iff_pending"
   ],
   "note": ""
  },
  {
   "property": "C16",
   "status": "proved",
   "theorems": [
    "Verif.Fwk.select_highest",
    "Verif.Fwk.fetch_never_fails"
   ],
   "note": ""
  },
  {
   "property": "C17",
   "status": "partial",
   "theorems": [
    "Verif.Fwk.registry_is_history_partial",
    "Verif.Fwk.activate_ok_iff",
    "Verif.Fwk.terminate_unregistered_asserts",
    "Verif.Fwk.unregister_off_by_one_ub"
   ],
   "note": "Everything is proved except the range check of unregister, which is wrong in the code: the out-of-bounds access for priority == RKH_CFG_FWK_MAX_SMA is proved."
  },
  {
   "property": "C18",
   "status": "proved",
   "theorems": [
    "Verif.Fwk.refcount_exact"
   ],
   "note": ""
  },
  {
   "property": "C19",
   "status": "proved",
   "theorems": [
    "Verif.Fwk.no_use_after_recycle",
    "Verif.Fwk.free_lists_disjoint",
    "Verif.Fwk.alloc_first_fit"
   ],
   "note": ""
  },
  {
   "property": "C20",
   "status": "proved",
   "theorems": [
    "Verif.Fwk.unreferenced_is_fresh",
    "Verif.Fwk.pools_full_when_idle",
    "Verif.Fwk.last_reference_recycles",
    "Verif.Fwk.pending_return"
   ],
   "note": ""
  },
  {
   "property": "C21",
   "status": "proved",
   "theorems": [
    "Verif.Fwk.static_never_modified"
   ],
   "note": ""
  },
  {
   "property": "C22",
   "status": "partial",
   "theorems": [
    "Verif.Fwk.refcount_does_not_wrap_partial",
    "Verif.Fwk.refcount_wraps_recycles_live_event",
    "Verif.Fwk.refcount_wraps_ignores_gc",
    "Verif.Fwk.refcount_exact"
   ],
   "note": "False of the code: both failure modes are proved from every reachable state with an allocated event; the positive statement up to 255 references is C18-C20."
  },
  {
   "property": "C23",
   "status": "partial",
   "theorems": [
    "Verif.Fwk.alloc_first_fit_partial",
    "Verif.Fwk.alloc_first_fit",
    "Verif.Fwk.alloc_too_large",
    "Verif.Fwk.large_blocks_never_served"
   ],
   "note": "Proved as stated, with the reported block size; the reported size is the real one modulo 256, so large blocks are never used (proved)."
  },
  {
   "property": "C24",
   "status": "proved",
   "theorems": [
    "Verif.Fwk.defer_appends",
    "Verif.Fwk.recall_empty",
    "Verif.Fwk.recall_moves",
    "Verif.Fwk.deferred_fifo"
   ],
   "note": ""
  },
  {
   "property": "C25",
   "status": "proved",
   "theorems": [
    "Verif.Fwk.publish_ok_iff",
    "Verif.Fwk.publish_delivers",
    "Verif.RdyGrp.traverse_visits_members_ascending"
   ],
   "note": ""
  },
  {
   "property": "C26",
   "status": "proved",
   "theorems": [
    "Verif.Fwk.subscription_is_last_call"
   ],
   "note": ""
  },
  {
   "property": "C27",
   "status": "proved",
   "theorems": [
    "Verif.Fwk.publish_refs",
    "Verif.Fwk.publish_complete"
   ],
   "note": ""
  },
  {
   "property": "C28",
   "status": "proved",
   "theorems": [
    "Verif.Timer.oneshot_fires_exactly_once",
    "Verif.Timer.timer_fires_exactly_when_due",
    "Verif.Timer.timers_refine"
   ],
   "note": ""
  },
  {
   "property": "C29",
   "status": "proved",
   "theorems": [
    "Verif.Timer.periodic_fires_every_period",
    "Verif.Timer.timer_fires_exactly_when_due"
   ],
   "note": ""
  },
  {
   "property": "C30",
   "status": "proved",
   "theorems": [
    "Verif.Timer.stopped_timer_is_silent",
    "Verif.Timer.stop_reports_running",
    "Verif.Timer.stop_of_stopped_returns_false",
    "Verif.Timer.timers_independent"
   ],
   "note": ""
  },
  {
   "property": "C31",
   "status": "proved",
   "theorems": [
    "Verif.Timer.timers_independent",
    "Verif.Timer.timer_fires_exactly_when_due",
    "Verif.Timer.stopped_timer_is_silent"
   ],
   "note": ""
  },
  {
   "property": "C32",
   "status": "proved",
   "theorems": [
    "Verif.Timer.timer_list_integrity",
    "Verif.Timer.timers_refine"
   ],
   "note": ""
  },
  {
   "property": "C33",
   "status": "partial",
   "theorems": [
    "Verif.Timer.same_tick_most_recent_first_partial",
    "Verif.Timer.same_tick_order_is_reversed"
   ],
   "note": "The documented order is false of the code; negation and the actual order (most recently activated first) are proved."
  },
  {
   "property": "C34",
   "status": "proved",
   "theorems": [
    "Verif.SM.first_enabled_is_taken",
    "Verif.SM.none_enabled_is_rejected",
    "Verif.SM.selected_or_none",
    "Verif.SM.none_enabled_calls_guards_only",
    "Verif.SM.dispatch_turn",
    "Verif.SM.dispatch_refines"
   ],
   "note": ""
  },
  {
   "property": "C35",
   "status": "proved",
   "theorems": [
    "Verif.SM.internal_transition"
   ],
   "note": ""
  },
  {
   "property": "C36",
   "status": "proved",
   "theorems": [
    "Verif.SM.exit_effect_entry_order",
    "Verif.SM.external_transition",
    "Verif.SM.exited_sublist",
    "Verif.SM.follows_noChoice"
   ],
   "note": ""
  },
  {
   "property": "C37",
   "status": "proved",
   "theorems": [
    "Verif.SM.mem_exited",
    "Verif.SM.mem_entered",
    "Verif.SM.external_transition"
   ],
   "note": ""
  },
  {
   "property": "C38",
   "status": "proved",
   "theorems": [
    "Verif.SM.life_is_balanced",
    "Verif.SM.entries_and_exits_balance",
    "Verif.SM.success_is_settled",
    "Verif.SM.init_success_is_settled"
   ],
   "note": "For calls that succeed, as stated; that a call failing half-way breaks the balance is Verif.SM.Findings.failure_half_way."
  },
  {
   "property": "C39",
   "status": "proved",
   "theorems": [
    "Verif.SM.current_state_is_leaf",
    "Verif.SM.current_state_is_leaf_after",
    "Verif.SM.success_is_settled"
   ],
   "note": ""
  },
  {
   "property": "C40",
   "status": "proved",
   "theorems": [
    "Verif.SM.failed_transition_keeps_state",
    "Verif.SM.current_state_is_last_stable",
    "Verif.SM.not_found_changes_nothing"
   ],
   "note": ""
  },
  {
   "property": "C41",
   "status": "proved",
   "theorems": [
    "Verif.SM.shallow_history_restores",
    "Verif.SM.shallow_history_default",
    "Verif.SM.shallow_history_owner",
    "Verif.SM.shallow_refers_to",
    "Verif.SM.shallow_is_empty",
    "Verif.SM.shallow_after_exits"
   ],
   "note": ""
  },
  {
   "property": "C42",
   "status": "proved",
   "theorems": [
    "Verif.SM.deep_history_restores",
    "Verif.SM.deep_history_default",
    "Verif.SM.deep_refers_to",
    "Verif.SM.deep_is_empty"
   ],
   "note": ""
  },
  {
   "property": "C43",
   "status": "proved",
   "theorems": [
    "Verif.SM.branch_at_conditional",
    "Verif.SM.branch_at_choice",
    "Verif.SM.no_branch_at_conditional",
    "Verif.SM.no_branch_at_choice",
    "Verif.SM.else_branch",
    "Verif.SM.branch_or_none"
   ],
   "note": ""
  },
  {
   "property": "C44",
   "status": "partial",
   "theorems": [
    "Verif.SM.documented_order_partial",
    "Verif.SM.choice_effect_precedes_exits",
    "Verif.SM.Findings.documented_order_fails"
   ],
   "note": "False of the code for paths through a choice: the actual order is proved for every such path, and the documented one is refuted."
  },
  {
   "property": "C45",
   "status": "partial",
   "theorems": [
    "Verif.SM.completion_is_dispatched_partial",
    "Verif.SM.no_completion_no_more",
    "Verif.SM.Findings.composite_completed_without_final"
   ],
   "note": "The first half is proved; the second half is false of the code and refuted."
  },
  {
   "property": "C46",
   "status": "partial",
   "theorems": [
    "Verif.SM.result_code_partial",
    "Verif.SM.handled_event_reported_not_found",
    "Verif.SM.Findings.handled_but_not_found"
   ],
   "note": "False of the code: refuted for every machine and state in which a completion event finds no transition; result_code_partial proves the claim for events that raise no completion event."
  },
  {
   "property": "C47",
   "status": "proved",
   "theorems": [
    "Verif.SM.creation_order",
    "Verif.SM.init_refines"
   ],
   "note": ""
  },
  {
   "property": "C48",
   "status": "partial",
   "theorems": [
    "Verif.SM.effects_bounded_partial",
    "Verif.SM.too_many_effects_at_conditional",
    "Verif.SM.too_many_effects_at_history",
    "Verif.SM.never_undefined",
    "Verif.SM.creation_never_undefined",
    "Verif.SM.too_deep_target_is_reported",
    "Verif.SM.too_deep_creation_is_undefined",
    "Verif.SM.Findings.creation_overruns",
    "Verif.SM.Findings.segment_without_effect_refused"
   ],
   "note": "Proved except for the nesting limit on creation, which the code does not check (proved undefined)."
  },
  {
   "property": "C49",
   "status": "proved",
   "theorems": [
    "Verif.Trc.framing_roundtrip",
    "Verif.Trc.written_records_are_received",
    "Verif.Trc.reader_keeping_up_loses_nothing"
   ],
   "note": ""
  },
  {
   "property": "C50",
   "status": "proved",
   "theorems": [
    "Verif.Trc.received_checksum_is_zero"
   ],
   "note": ""
  },
  {
   "property": "C51",
   "status": "proved",
   "theorems": [
    "Verif.Trc.fields_roundtrip",
    "Verif.Trc.written_records_are_received"
   ],
   "note": ""
  },
  {
   "property": "C52",
   "status": "proved",
   "theorems": [
    "Verif.Trc.stream_keeps_newest",
    "Verif.Trc.stream_read_all"
   ],
   "note": ""
  },
  {
   "property": "C53",
   "status": "proved",
   "theorems": [
    "Verif.Trc.trace_facility_refines",
    "Verif.Trc.filtered_trace_point_is_silent",
    "Verif.Trc.reader_keeping_up_loses_nothing"
   ],
   "note": "For the identifiers, slots and configurations the code supports; the exceptions are C54, C58, C59, C60."
  },
  {
   "property": "C54",
   "status": "partial",
   "theorems": [
    "Verif.Trc.symbol_filter_accepts_slot_past_table",
    "Verif.Trc.symbol_filter_range_check_partial"
   ],
   "note": "False of the code: negation proved for every configuration; the remaining slots are proved rejected or accepted as intended."
  },
  {
   "property": "C55",
   "status": "proved",
   "theorems": [
    "Verif.Fwk.processed_in_order",
    "Verif.Fwk.select_highest",
    "Verif.Fwk.fetch_never_fails"
   ],
   "note": ""
  },
  {
   "property": "C56",
   "status": "partial",
   "theorems": [
    "Verif.MemPool.mempool_count_partial",
    "Verif.MemPool.mempool_init_partitions",
    "Verif.MemPool.mempool_init_accepts_unrepresentable_count"
   ],
   "note": "The code violates the property; the negation is proved, and the positive part for representable counts."
  },
  {
   "property": "C57",
   "status": "partial",
   "theorems": [
    "Verif.Timer.hooks_refine_partial",
    "Verif.Timer.restarting_hook_makes_other_timer_fire_early",
    "Verif.Timer.oneshot_hook_starting_idle_timer_crashes",
    "Verif.Timer.oneshot_hook_stopping_next_timer_crashes",
    "Verif.Timer.hook_stopping_its_own_timer_hangs_later"
   ],
   "note": "False of the code: early expiry, NULL dereference and endless loop are proved; the positive statement is proved for hooks that restart running timers, and for hooks of periodic timers that start any timer or stop another one."
  },
  {
   "property": "C58",
   "status": "partial",
   "theorems": [
    "Verif.Trc.event_filter_is_separate_partial",
    "Verif.Trc.success_event_is_all_events",
    "Verif.Trc.trace_facility_refines"
   ],
   "note": "False of the code for two identifiers: negation proved; the positive statement for all others is in trace_facility_refines."
  },
  {
   "property": "C59",
   "status": "partial",
   "theorems": [
    "Verif.Trc.signal_filter_is_separate_partial",
    "Verif.Trc.signal_filter_aliases_from_256",
    "Verif.Trc.trace_facility_refines"
   ],
   "note": "False of the code from signal 256 on: the aliasing is proved; positive for signals below 256."
  },
  {
   "property": "C60",
   "status": "partial",
   "theorems": [
    "Verif.Trc.all_signals_stays_inside_partial",
    "Verif.Trc.set_all_signals_overruns_large_tables",
    "Verif.Trc.trace_facility_refines"
   ],
   "note": "False of the code above 2040 signals: proved for every such configuration; positive up to 2040."
  },
  {
   "property": "C61",
   "status": "proved",
   "theorems": [
    "Verif.Trc.sequence_numbers_consecutive",
    "Verif.Trc.trace_facility_refines"
   ],
   "note": ""
  },
  {
   "property": "C62",
   "status": "proved",
   "theorems": [
    "Verif.Fwk.fwk_refines",
    "Verif.Fwk.allowed_never_ub"
   ],
   "note": ""
  },
  {
   "property": "C63",
   "status": "partial",
   "theorems": [
    "Verif.Fwk.reserve_then_collect_partial",
    "Verif.Fwk.gc_of_fresh_leaks"
   ],
   "note": "False of the code: negation proved for every reachable state."
  },
  {
   "property": "C64",
   "status": "partial",
   "theorems": [
    "Verif.Fwk.rejected_post_of_static_partial",
    "Verif.Fwk.post_full_leaks_reference"
   ],
   "note": "False of the code without assertions: negation proved; with assertions the post is an assertion failure (C62)."
  },
  {
   "property": "C65",
   "status": "partial",
   "theorems": [
    "Verif.Fwk.terminated_never_selected_partial",
    "Verif.Fwk.terminate_pending_crashes"
   ],
   "note": "False of the code: negation proved for every reachable state with the object at the highest ready priority."
  },
  {
   "property": "C66",
   "status": "partial",
   "theorems": [
    "Verif.Fwk.publish_in_range_partial",
    "Verif.Fwk.publish_channel_unchecked"
   ],
   "note": "False of the code: negation proved for every reachable state."
  },
  {
   "property": "C67",
   "status": "partial",
   "theorems": [
    "Verif.Fwk.recall_completes_partial",
    "Verif.Fwk.recall_interrupted_asserts",
    "Verif.Fwk.recall_moves"
   ],
   "note": "False of the code: negation proved; the uninterrupted recall is correct (recall_moves)."
  },
  {
   "property": "C68",
   "status": "proved",
   "theorems": [
    "Verif.SM.dispatch_returns",
    "Verif.SM.outcome_is_reached",
    "Verif.SM.runs_forever_iff",
    "Verif.SM.budget_is_irrelevant",
    "Verif.SM.Findings.completion_loop_never_returns",
    "Verif.SM.Findings.own_history_loops"
   ],
   "note": "Acyclic and CompletionsForEver are defined in SM/Total.lean."
  },
  {
   "property": "C69",
   "status": "proved",
   "theorems": [
    "Verif.SM.Findings.ancestor_is_not_left",
    "Verif.SM.mem_exited",
    "Verif.SM.mem_entered",
    "Verif.SM.external_transition"
   ],
   "note": ""
  },
  {
   "property": "C70",
   "status": "proved",
   "theorems": [
    "Verif.SM.Findings.branch_without_guard_is_ignored",
    "Verif.SM.branch_or_none",
    "Verif.SM.no_branch_at_conditional",
    "Verif.SM.no_branch_at_choice"
   ],
   "note": ""
  },
  {
   "property": "C71",
   "status": "proved",
   "theorems": [
    "Verif.SM.unknown_target_is_reported"
   ],
   "note": ""
  },
  {
   "property": "C72",
   "status": "proved",
   "theorems": [
    "Verif.Port.stm32_critical_sections",
    "Verif.Port.ucos_critical_sections",
    "Verif.Port.s08_critical_sections",
    "Verif.Port.s08_nine_sections"
   ],
   "note": ""
  },
  {
   "property": "C73",
   "status": "partial",
   "theorems": [
    "Verif.Port.armCnt_critical_sections_partial",
    "Verif.Port.armCnt_enables_interrupts",
    "Verif.Port.armCnt_status_not_preserved"
   ],
   "note": "Protection, and preservation when called with interrupts enabled, are proved; preservation when called with interrupts disabled is false of the code and refuted for every mask."
  },
  {
   "property": "C74",
   "status": "partial",
   "theorems": [
    "Verif.Port.cfv1_critical_sections_partial",
    "Verif.Port.cfv1_handler_unprotected",
    "Verif.Port.cfv1_not_protected"
   ],
   "note": "False of the code and refuted; proved for all executions without an interrupt in the window of two instructions."
  },
  {
   "property": "C75",
   "status": "proved",
   "theorems": [
    "Verif.Port.no_lost_wakeup",
    "Verif.Port.all_events_processed",
    "Verif.Port.processed_plus_queued"
   ],
   "note": ""
  },
  {
   "property": "C76",
   "status": "proved",
   "theorems": [
    "Verif.Port.idle_thread_sleeps"
   ],
   "note": ""
  },
  {
   "property": "C77",
   "status": "partial",
   "theorems": [
    "Verif.Port.object_lives_partial",
    "Verif.Port.win32mt_object_dies",
    "Verif.Port.ucos_object_dies",
    "Verif.Port.ended_for_ever",
    "Verif.Thread.ends_if_tested_early",
    "Verif.Thread.Demo.activation_race"
   ],
   "note": "False of the code on both ports and refuted; proved for threads that run only after activation has returned."
  },
  {
   "property": "C78",
   "status": "partial",
   "theorems": [
    "Verif.Port.terminated_while_processing_partial",
    "Verif.Port.win32mt_terminated_while_waiting",
    "Verif.Port.ucos_terminated_while_waiting",
    "Verif.Thread.Demo.terminated_handles_another",
    "Verif.Thread.terminated_sleeper_stays"
   ],
   "note": "Proved for an object that is processing an event; false of the code for one that waits, whose behaviour is proved."
  },
  {
   "property": "C79",
   "status": "proved",
   "theorems": [
    "Verif.Sys.object_behaves_as_alone"
   ],
   "note": ""
  },
  {
   "property": "C80",
   "status": "proved",
   "theorems": [
    "Verif.Sys.handled_in_sending_order"
   ],
   "note": ""
  },
  {
   "property": "C81",
   "status": "proved",
   "theorems": [
    "Verif.Sys.same_events_same_behaviour"
   ],
   "note": ""
  },
  {
   "property": "C82",
   "status": "proved",
   "theorems": [
    "Verif.Sys.tick_delivers_due_timers"
   ],
   "note": ""
  },
  {
   "property": "C83",
   "status": "proved",
   "theorems": [
    "Verif.Fwk.scheduler_drains"
   ],
   "note": ""
  },
  {
   "property": "C84",
   "status": "proved",
   "theorems": [
    "Verif.Sys.system_drains"
   ],
   "note": "A sufficient condition for the hypothesis that dispatches return is SM.dispatch_returns (C68)."
  },
  {
   "property": "C85",
   "status": "proved",
   "theorems": [
    "Verif.SM.flat_configuration_same",
    "Verif.SM.flat_no_completion_event"
   ],
   "note": ""
  },
  {
   "property": "C86",
   "status": "proved",
   "theorems": [
    "Verif.Timer.hooks_leave_other_timers_alone",
    "Verif.Timer.timer_fires_when_due_despite_hooks"
   ],
   "note": ""
  },
  {
   "property": "C87",
   "status": "partial",
   "theorems": [
    "Verif.Timer.started_in_hook_fires_when_due_partial",
    "Verif.Timer.restarted_in_hook_fires_one_tick_early"
   ],
   "note": "Proved unless the timer is running and was activated before the timer whose hook restarts it; false of the code in that case, whose behaviour is proved."
  },
  {
   "property": "C88",
   "status": "partial",
   "theorems": [
    "Verif.Trc.host_sees_what_the_program_did_partial",
    "Verif.Trc.unreadable_ptr",
    "Verif.Trc.unreadable_fun",
    "Verif.Trc.unreadable_pack"
   ],
   "note": "Proved for configurations with equal address sizes of 16 or 32 bits and fewer than 16 event pools; false of the code otherwise (see C91)."
  },
  {
   "property": "C89",
   "status": "partial",
   "theorems": [
    "Verif.Trc.reported_counts_partial",
    "Verif.Trc.reported_counts_wrap",
    "Verif.Trc.reported_counts_are_wrong",
    "Verif.Trc.reported_queue_size_is_wrong"
   ],
   "note": "Proved below 256; false of the code from 256 on and refuted."
  },
  {
   "property": "C90",
   "status": "partial",
   "theorems": [
    "Verif.Trc.pool_numbers_partial",
    "Verif.Trc.pool_numbers_disagree"
   ],
   "note": "Proved for registration, posting and releasing; false of the code for allocation and recycling."
  },
  {
   "property": "C91",
   "status": "proved",
   "theorems": [
    "Verif.Trc.announcement_suffices_iff",
    "Verif.Trc.announcement_is_read"
   ],
   "note": ""
  },
  {
   "property": "C92",
   "status": "proved",
   "theorems": [
    "Verif.SM.trace_tells_behaviour"
   ],
   "note": "Calls that run into undefined behaviour are excluded, as in C48. Calls of guards and of rkh_sm_clear_history leave no record of their own and are not part of the claim."
  },
  {
   "property": "C93",
   "status": "proved",
   "theorems": [
    "Verif.SM.trace_tells_active_states",
    "Verif.SM.replay_visible"
   ],
   "note": ""
  },
  {
   "property": "C94",
   "status": "proved",
   "theorems": [
    "Verif.SM.last_record_is_result"
   ],
   "note": ""
  },
  {
   "property": "C95",
   "status": "partial",
   "theorems": [
    "Verif.SM.dispatch_record_after_guards_partial",
    "Verif.SM.guard_records_come_first"
   ],
   "note": "False of the code and refuted; proved: only records of false guards come before the dispatch record, none if all guards are true, and the selected transition (or its absence) is reported next."
  },
  {
   "property": "C96",
   "status": "proved",
   "theorems": [
    "Verif.SM.tracing_changes_nothing"
   ],
   "note": ""
  },
  {
   "property": "C97",
   "status": "partial",
   "theorems": [
    "Verif.SM.initialised_again_is_new_partial",
    "Verif.SM.initialised_again_remembers"
   ],
   "note": "Proved if all histories were cleared; false of the code otherwise and refuted."
  },
  {
   "property": "C98",
   "status": "proved",
   "theorems": [
    "Verif.SM.initialised_again_keeps_only_histories",
    "Verif.SM.initialisation_ignores_state"
   ],
   "note": ""
  },
  {
   "property": "C99",
   "status": "proved",
   "theorems": [
    "Verif.MemPool.mempool_count_wraps"
   ],
   "note": ""
  },
  {
   "property": "C100",
   "status": "partial",
   "theorems": [
    "Verif.Queue.masked_put_acts_at_one_instant_partial",
    "Verif.Queue.get_elsewhere_is_harmless_partial",
    "Verif.Queue.unmasked_put_is_not_atomic",
    "Verif.Queue.element_delivered_twice",
    "Verif.Queue.put_eq_accesses"
   ],
   "note": "Proved for puts made with interrupts masked, and for an interrupting get anywhere but between load and store of the element count; false of the code there and refuted from every reachable state that is neither empty nor full."
  },
  {
   "property": "C101",
   "status": "proved",
   "theorems": [
    "Verif.Fwk.Trace.host_knows_the_queues",
    "Verif.Fwk.Trace.tracing_is_transparent",
    "Verif.Fwk.Trace.every_history_is_traced",
    "Verif.Fwk.Trace.naive_host_is_misled"
   ],
   "note": "A host that ignores the shown number of waiting events is contradicted (naive_host_is_misled)."
  },
  {
   "property": "C102",
   "status": "proved",
   "theorems": [
    "Verif.Fwk.Trace.host_counts_events_in_use"
   ],
   "note": ""
  },
  {
   "property": "C103",
   "status": "partial",
   "theorems": [
    "Verif.Fwk.Trace.shown_used_is_right_partial",
    "Verif.Fwk.Trace.used_field_exact",
    "Verif.Fwk.Trace.shown_used_can_be_wrong"
   ],
   "note": "Proved if never two operations on the pool are in flight at once; the exact deviation is proved in general; false of the code otherwise and refuted."
  },
  {
   "property": "C104",
   "status": "proved",
   "theorems": [
    "Verif.Fwk.Trace.post_record",
    "Verif.Fwk.Trace.get_record",
    "Verif.Fwk.Trace.publish_records",
    "Verif.Fwk.Trace.collect_record"
   ],
   "note": ""
  },
  {
   "property": "C105",
   "status": "proved",
   "theorems": [
    "Verif.Timer.host_knows_the_timers",
    "Verif.Timer.timer_records",
    "Verif.Timer.timers_traced"
   ],
   "note": ""
  },
  {
   "property": "C106",
   "status": "proved",
   "theorems": [
    "Verif.Queue.host_knows_the_event_queues",
    "Verif.Queue.queue_records",
    "Verif.Queue.queue_tracing_changes_nothing"
   ],
   "note": ""
  },
  {
   "property": "C107",
   "status": "proved",
   "theorems": [
    "Verif.MemPool.host_knows_the_pools",
    "Verif.MemPool.pool_records",
    "Verif.MemPool.pool_tracing_changes_nothing"
   ],
   "note": ""
  },
  {
   "property": "C108",
   "status": "proved",
   "theorems": [
    "Verif.Link.bytes_tell_records",
    "Verif.Link.host_knows_from_bytes",
    "Verif.Link.small_channel"
   ],
   "note": "Quantified over interleavings whose projections to each module are histories of that module (C101, C105-C107, C92)."
  },
  {
   "property": "C109",
   "status": "proved",
   "theorems": [
    "Verif.SM.complete_design_never_fails",
    "Verif.SM.complete_design_starts"
   ],
   "note": ""
  },
  {
   "property": "C110",
   "status": "proved",
   "theorems": [
    "Verif.SM.no_circles_dispatch_ends",
    "Verif.SM.no_circles_init_ends"
   ],
   "note": ""
  },
  {
   "property": "C111",
   "status": "proved",
   "theorems": [
    "Verif.Sys.sound_designs_never_fail",
    "Verif.Sys.sound_designs_come_to_rest"
   ],
   "note": ""
  },
  {
   "property": "C112",
   "status": "partial",
   "theorems": [
    "Verif.Timer.timer_expires_after_time_partial",
    "Verif.Timer.time_too_long",
    "Verif.Timer.time_zero_division",
    "Verif.Timer.time_wraps_int",
    "Verif.Timer.time_wraps_ticks",
    "Verif.Timer.short_time_is_rejected"
   ],
   "note": "Proved if the tick rate divides 1000 and nothing overflows; false of the code otherwise and refuted in each case."
  },
  {
   "property": "C113",
   "status": "proved",
   "theorems": [
    "Verif.Timer.time_rounds_down",
    "Verif.Timer.time_error_bounds"
   ],
   "note": ""
  },
  {
   "property": "C114",
   "status": "partial",
   "theorems": [
    "Verif.Fwk.Register.one_object_per_priority_partial",
    "Verif.Fwk.Register.two_objects_one_priority",
    "Verif.Fwk.Register.unregister_removes_another",
    "Verif.Fwk.Register.parts_register",
    "Verif.Fwk.Register.parts_unregister",
    "Verif.Fwk.Register.sequential_apart"
   ],
   "note": "Proved if no call begins while one for the same priority is between test and store; false of the code otherwise and refuted."
  },
  {
   "property": "C115",
   "status": "partial",
   "theorems": [
    "Verif.Fwk.PoolSize.storage_is_used_partial",
    "Verif.Fwk.PoolSize.large_storage_is_lost"
   ],
   "note": "Proved below 64 KiB; false of the code for larger storage and refuted for all of it."
  },
  {
   "property": "C116",
   "status": "proved",
   "theorems": [
    "Verif.Fwk.PoolSize.registered_pool_delivers"
   ],
   "note": ""
  },
  {
   "property": "C117",
   "status": "proved",
   "theorems": [
    "Verif.Thread.threads_use_framework_correctly",
    "Verif.Thread.thread_processes_in_order",
    "Verif.Thread.one_event_at_a_time",
    "Verif.Thread.thread_takes_front"
   ],
   "note": ""
  },
  {
   "property": "C118",
   "status": "proved",
   "theorems": [
    "Verif.Thread.no_lost_wakeup",
    "Verif.Thread.waiting_event_is_dispatched",
    "Verif.Thread.idle_thread_sleeps"
   ],
   "note": ""
  },
  {
   "property": "C119",
   "status": "proved",
   "theorems": [
    "Verif.Thread.lives_until_terminated",
    "Verif.Thread.ends_untold_only_in_race",
    "Verif.Thread.ended_forever"
   ],
   "note": "That the race happens (C77): Verif.Thread.Demo.activation_race."
  },
  {
   "property": "C120",
   "status": "proved",
   "theorems": [
    "Verif.Thread.terminated_at_most_one",
    "Verif.Thread.terminated_sleeper_stays",
    "Verif.Thread.self_termination"
   ],
   "note": ""
  },
  {
   "property": "C121",
   "status": "proved",
   "theorems": [
    "Verif.MemPool.mempool_calls_confined",
    "Verif.MemPool.mempool_confined"
   ],
   "note": ""
  },
  {
   "property": "C122",
   "status": "proved",
   "theorems": [
    "Verif.SM.any_calls_in_any_order"
   ],
   "note": ""
  },
  {
   "property": "C123",
   "status": "proved",
   "theorems": [
    "Verif.Nest.machines_take_turns"
   ],
   "note": ""
  },
  {
   "property": "C124",
   "status": "partial",
   "theorems": [
    "Verif.Nest.dispatch_inside_dispatch_partial",
    "Verif.Nest.effect_starts_machine_undefined",
    "Verif.Nest.entry_starts_machine_undefined",
    "Verif.Nest.exit_starts_machine_mixes_states"
   ],
   "note": "Proved for automatic working variables (RKH_CFGPORT_REENTRANT_EN); false of the code with static ones and refuted for effects, entry and exit actions."
  },
  {
   "property": "C125",
   "status": "partial",
   "theorems": [
    "Verif.Fwk.publish_to_terminated_asserts_partial",
    "Verif.Fwk.post_to_terminated_crashes",
    "Verif.Fwk.post_to_replaced_asserts"
   ],
   "note": "Proved for publications; false of the code for posts and refuted."
  },
  {
   "property": "C126",
   "status": "partial",
   "theorems": [
    "Verif.Fwk.activated_again_partial",
    "Verif.Fwk.activated_again_with_pending_asserts"
   ],
   "note": "Proved if nothing was waiting at the termination; false of the code otherwise and refuted."
  },
  {
   "property": "C127",
   "status": "partial",
   "theorems": [
    "Verif.Fwk.published_to_own_subscribers_partial",
    "Verif.Fwk.inherits_subscriptions",
    "Verif.Fwk.unsubscribed_by_terminated"
   ],
   "note": "Proved for histories that unsubscribe objects before they are terminated and not afterwards; false of the code otherwise and refuted."
  },
  {
   "property": "C128",
   "status": "proved",
   "theorems": [
    "Verif.Fwk.response",
    "Verif.Fwk.response_at_once",
    "Verif.Fwk.response_of_highest"
   ],
   "note": ""
  },
  {
   "property": "C129",
   "status": "proved",
   "theorems": [
    "Verif.Fwk.sent_is_dispatched_or_waiting",
    "Verif.Fwk.all_sent_is_dispatched"
   ],
   "note": ""
  },
  {
   "property": "C130",
   "status": "proved",
   "theorems": [
    "Verif.Fwk.waiting_keep_order"
   ],
   "note": ""
  },
  {
   "property": "C131",
   "status": "proved",
   "theorems": [
    "Verif.SM.covering_guards_never_fail",
    "Verif.SM.covering_guards_start",
    "Verif.App.Ahsm.ahsm_covers"
   ],
   "note": ""
  },
  {
   "property": "C132",
   "status": "proved",
   "theorems": [
    "Verif.SM.same_situation_same_future"
   ],
   "note": ""
  },
  {
   "property": "C133",
   "status": "proved",
   "theorems": [
    "Verif.App.Ahsm.ahsm_follows_its_chart",
    "Verif.App.Ahsm.chart_facts"
   ],
   "note": ""
  },
  {
   "property": "C134",
   "status": "partial",
   "theorems": [
    "Verif.App.Shared.mutual_exclusion_partial",
    "Verif.App.Shared.mutual_exclusion_fails"
   ],
   "note": "Refuted by mutual_exclusion_fails (PAUSE pressed twice); proved for all runs without PAUSE."
  },
  {
   "property": "C135",
   "status": "proved",
   "theorems": [
    "Verif.App.Shared.requests_are_kept"
   ],
   "note": ""
  },
  {
   "property": "C136",
   "status": "partial",
   "theorems": [
    "Verif.App.Shared.queues_fit_partial",
    "Verif.App.Shared.deferred_fit",
    "Verif.App.Shared.queues_fit_fails"
   ],
   "note": "Refuted for ports with threads by queues_fit_fails (five events for a queue of four); proved: bounds for every scheduler and for a scheduler that respects the priorities, without PAUSE; the bound of the deferred queue in all runs."
  },
  {
   "property": "C137",
   "status": "proved",
   "theorems": [
    "Verif.App.Shared.request_is_granted",
    "Verif.App.Shared.never_stuck"
   ],
   "note": ""
  },
  {
   "property": "C138",
   "status": "partial",
   "theorems": [
    "Verif.Timer.timer_counters_count_partial",
    "Verif.Timer.timer_counters_do_not_count",
    "Verif.MemPool.pool_counters_count_partial",
    "Verif.MemPool.pool_counters_do_not_count"
   ],
   "note": "Refuted by timer_counters_do_not_count and pool_counters_do_not_count; the partial theorems say that the counters are right exactly when nothing has happened."
  },
  {
   "property": "C139",
   "status": "proved",
   "theorems": [
    "Verif.Timer.timer_counters_stay_zero",
    "Verif.Timer.timer_counters_initially_garbage",
    "Verif.Timer.counter_calls_do_not_disturb",
    "Verif.Timer.counter_calls_never_fail",
    "Verif.MemPool.pool_counters_stay_zero",
    "Verif.MemPool.pool_counters_initially_garbage",
    "Verif.MemPool.pool_counter_calls_do_not_disturb"
   ],
   "note": ""
  },
  {
   "property": "C140",
   "status": "partial",
   "theorems": [
    "Verif.Fwk.Reinit.pools_can_be_registered_again_partial",
    "Verif.Fwk.Reinit.pools_cannot_be_registered_again",
    "Verif.Fwk.Reinit.old_event_stops_the_program",
    "Verif.Fwk.Reinit.event_in_use_is_handed_out_again"
   ],
   "note": "Refuted for rkh_dynEvt_init alone by pools_cannot_be_registered_again (for all numbers of pools); proved if rkh_evtPool_init is called too."
  },
  {
   "property": "C141",
   "status": "partial",
   "theorems": [
    "Verif.Sys.timer_with_reserved_event_is_safe_partial",
    "Verif.Sys.reserved_event_survives",
    "Verif.Sys.Demo.timer_with_dynamic_event_goes_wrong"
   ],
   "note": "Refuted for dynamic events that are not reserved; proved for static and reserved events."
  },
  {
   "property": "C142",
   "status": "partial",
   "theorems": [
    "Verif.Trc.Flush.flush_sends_what_was_taken_partial",
    "Verif.Trc.Flush.flush_sends_everything_partial",
    "Verif.Trc.Flush.flush_sends_newer_bytes",
    "Verif.Trc.Flush.two_flushes_reorder"
   ],
   "note": "Refuted by flush_sends_newer_bytes and two_flushes_reorder; proved for one flushing context while the stream has room beside the block being sent."
  },
  {
   "property": "C143",
   "status": "proved",
   "theorems": [
    "Verif.Trc.Flush.flush_sends_exactly",
    "Verif.Trc.Flush.sent_is_taken",
    "Verif.Trc.Flush.sent_is_newer",
    "Verif.Trc.Flush.bytes_sent_exactly",
    "Verif.Trc.Flush.byte_intact",
    "Verif.Trc.Flush.byte_overwritten"
   ],
   "note": ""
  },
  {
   "property": "C144",
   "status": "partial",
   "theorems": [
    "Verif.Trc.Race.race_stays_inside",
    "Verif.Trc.Race.unprotected_flush_partial",
    "Verif.Trc.Race.unprotected_flush_fails"
   ],
   "note": "Memory safety is proved for all interleavings; the contents are refuted by unprotected_flush_fails and proved for calls that do not overlap."
  },
  {
   "property": "C145",
   "status": "proved",
   "theorems": [
    "Verif.App.Blinky.blinky_never_fails",
    "Verif.App.Blinky.blinky_never_early",
    "Verif.App.Blinky.blinky_goes_on"
   ],
   "note": ""
  },
  {
   "property": "C146",
   "status": "proved",
   "theorems": [
    "Verif.App.Blinky.blinky_on_time",
    "Verif.App.Blinky.blinky_wave"
   ],
   "note": ""
  },
  {
   "property": "C147",
   "status": "partial",
   "theorems": [
    "Verif.Tz.receiver_gets_records_partial",
    "Verif.Tz.record_of_256_is_lost",
    "Verif.Tz.long_record_overflows",
    "Verif.Tz.long_text_overflows"
   ],
   "note": "Refuted for records of 256 bytes and more and for texts of 16 characters and more; proved for all lists of shorter records."
  },
  {
   "property": "C148",
   "status": "proved",
   "theorems": [
    "Verif.Tz.frame_exact",
    "Verif.Tz.other_record_changes_nothing",
    "Verif.Tz.ready_after_init"
   ],
   "note": ""
  },
  {
   "property": "C149",
   "status": "proved",
   "theorems": [
    "Verif.Tz.receiver_recovers",
    "Verif.Tz.corrupted_record_is_reported"
   ],
   "note": ""
  },
  {
   "property": "C150",
   "status": "proved",
   "theorems": [
    "Verif.Tz.responses_in_step",
    "Verif.Tz.closed_connection_fails"
   ],
   "note": ""
  },
  {
   "property": "C151",
   "status": "partial",
   "theorems": [
    "Verif.SM.Instances.objects_are_independent_partial",
    "Verif.SM.Instances.objects_share_histories"
   ],
   "note": "Refuted for machines with histories, whose variables belong to the tables (objects_share_histories); proved for all machines without histories."
  },
  {
   "property": "C152",
   "status": "partial",
   "theorems": [
    "Verif.Subm.submachine_is_insertion_partial",
    "Verif.Subm.single_use_is_insertion_partial",
    "Verif.Subm.not_an_insertion",
    "Verif.Subm.twins_skipped",
    "Verif.Subm.initial_action_first",
    "Verif.Subm.default_submachine_undefined"
   ],
   "note": "Refuted in three ways (not_an_insertion, default_submachine_undefined); proved for all machines drawn as the manual says and all runs that do not go straight from one submachine state to another of the same submachine, the initial action being part of the transition to the submachine state. The configuration does not compile at this commit (UPDATE_IN_PARENT in a for header); modelled as meant."
  },
  {
   "property": "C153",
   "status": "proved",
   "theorems": [
    "Verif.Subm.Demo.subm_follows_its_chart"
   ],
   "note": ""
  },
  {
   "property": "C154",
   "status": "partial",
   "theorems": [
    "Verif.Subm.exit_point_effects_partial",
    "Verif.Subm.entry_point_effects_partial",
    "Verif.Subm.exit_action_not_in_between",
    "Verif.Subm.entry_action_not_in_between"
   ],
   "note": "Refuted: exit and entry actions are not executed in between; proved: both effects are executed once, in order, after all exits and before all entries."
  },
  {
   "property": "C155",
   "status": "partial",
   "theorems": [
    "Verif.Subm.Objects.objects_independent_partial",
    "Verif.Subm.Objects.objects_interfere"
   ],
   "note": "Refuted for submachines used by several submachine states (objects_interfere); proved for machines in which every submachine is used once."
  },
  {
   "property": "C156",
   "status": "partial",
   "theorems": [
    "Verif.Life.clock_runs_partial",
    "Verif.Life.windows_clock_may_end",
    "Verif.Life.linux_no_ticks_without_timer_trace"
   ],
   "note": "Refuted: the clock thread may see the framework not yet running (Windows) or contain no tick (Linux without timer trace); proved for all executions in which the thread did not run before the framework was marked as running."
  },
  {
   "property": "C157",
   "status": "partial",
   "theorems": [
    "Verif.Life.stop_ends_partial",
    "Verif.Life.stop_may_hang",
    "Verif.Life.stopped_asleep_for_ever",
    "Verif.Life.linux_exit_does_not_end",
    "Verif.Life.windows_exit_ends"
   ],
   "note": "Refuted: nobody wakes a waiting main thread, and rkh_fwk_exit of linux_st does not stop the loop; proved for all moments in which the main thread is not about to wait."
  },
  {
   "property": "C158",
   "status": "partial",
   "theorems": [
    "Verif.Life.nothing_destroyed_is_used_partial",
    "Verif.Life.destroyed_section_is_used",
    "Verif.Life.late_key_uses_destroyed_section"
   ],
   "note": "Refuted: the threads are not joined; proved until rkh_fwk_enter returns, and for ever if at that moment no tick was under way and no key awaited."
  },
  {
   "property": "C159",
   "status": "partial",
   "theorems": [
    "Verif.Life.exit_hook_once_partial",
    "Verif.Life.exit_hook_exact",
    "Verif.Life.exit_hook_called_twice",
    "Verif.Life.exit_hook_called_early"
   ],
   "note": "Refuted: rkh_fwk_exit calls the hook too; proved for executions without rkh_fwk_exit, and the exact number of calls in general."
  },
  {
   "property": "C160",
   "status": "proved",
   "theorems": [
    "Verif.SM.result_code_exact"
   ],
   "note": "Companion of C46."
  },
  {
   "property": "C161",
   "status": "proved",
   "theorems": [
    "Verif.SM.result_code_of_complete_design",
    "Verif.SM.complete_design_initialises"
   ],
   "note": "Companion of C46: the design rule under which it holds."
  },
  {
   "property": "C162",
   "status": "proved",
   "theorems": [
    "Verif.SM.completes_in_final_state_only"
   ],
   "note": "Companion of C45: the design rule under which it holds."
  },
  {
   "property": "C163",
   "status": "partial",
   "theorems": [
    "Verif.Trc.one_bad_message_per_overflow_partial",
    "Verif.Trc.spliced_record_is_accepted"
   ],
   "note": "Refuted (spliced_record_is_accepted); proved: at most one message that is no record for each time the stream runs over, everything else exact and in order."
  },
  {
   "property": "C164",
   "status": "partial",
   "theorems": [
    "Verif.Trc.lost_records_counted_partial",
    "Verif.Trc.host_counts_lost_records_partial",
    "Verif.Trc.lost_records_not_noticed"
   ],
   "note": "Refuted for 256 lost records; proved modulo 256."
  },
  {
   "property": "C165",
   "status": "proved",
   "theorems": [
    "Verif.Sys.timeouts_received_exact"
   ],
   "note": ""
  },
  {
   "property": "C166",
   "status": "partial",
   "theorems": [
    "Verif.Sys.stopped_timer_partial",
    "Verif.Sys.timeout_after_stop"
   ],
   "note": "Refuted: a time-out waiting in the queue survives rkh_tmr_stop; proved: exactly the waiting ones are received after the stop."
  },
  {
   "property": "C167",
   "status": "proved",
   "theorems": [
    "Verif.Sys.stop_result_tells"
   ],
   "note": ""
  },
  {
   "property": "C168",
   "status": "partial",
   "theorems": [
    "Verif.Sys.no_early_timeout_partial",
    "Verif.Sys.early_timeout"
   ],
   "note": "Refuted: a stale time-out arrives after a restart; proved if none is waiting when the timer is started."
  },
  {
   "property": "C169",
   "status": "partial",
   "theorems": [
    "Verif.Fwk.Deplete.deplete_partial",
    "Verif.Fwk.Deplete.depleted_event_is_lost"
   ],
   "note": "Refuted in general: a depleted dynamic event is lost; proved: the queue is emptied, its object made unready and nothing else changes."
  },
  {
   "property": "C170",
   "status": "proved",
   "theorems": [
    "Verif.Fwk.Deplete.with_depletions_refines",
    "Verif.Fwk.Deplete.reference_count_with_depletions"
   ],
   "note": "Companion of C169."
  },
  {
   "property": "C171",
   "status": "partial",
   "theorems": [
    "Verif.Fwk.Deplete.deplete_any_time_partial",
    "Verif.Fwk.Deplete.deplete_after_selection_fails",
    "Verif.Fwk.Deplete.deplete_after_selection_unchecked"
   ],
   "note": "Refuted between rkh_smaPrio_findHighest and rkh_sma_get; proved for all other moments."
  },
  {
   "property": "C172",
   "status": "proved",
   "theorems": [
    "Verif.SM.same_chart_same_behaviour",
    "Verif.SM.same_chart_same_life"
   ],
   "note": ""
  },
  {
   "property": "C173",
   "status": "partial",
   "theorems": [
    "Verif.SM.ordinary_signals_partial",
    "Verif.SM.largest_signal_never_handled",
    "Verif.SM.largest_signal_hides_rows",
    "Verif.SM.completion_signal_taken_unsent",
    "Verif.SM.creation_signal_restarts",
    "Verif.SM.creation_signal_enters_twice"
   ],
   "note": "Refuted for the three largest signals the check admits (16-bit signals); proved: any two signals below 65533 can be exchanged."
  },
  {
   "property": "C174",
   "status": "proved",
   "theorems": [
    "Verif.Fwk.default_tables_change_nothing",
    "Verif.Fwk.overridden_publish",
    "Verif.Fwk.overridden_timeouts"
   ],
   "note": "Overriding functions that forward to queues or discard; the time-out events are static."
  },
  {
   "property": "C175",
   "status": "partial",
   "theorems": [
    "Verif.Fwk.recall_to_discarding_object_asserts",
    "Verif.Fwk.recall_end",
    "Verif.Fwk.recall_through_override_partial"
   ],
   "note": "Refuted for functions that discard the event; proved for functions that post it somewhere."
  },
  {
   "property": "C176",
   "status": "partial",
   "theorems": [
    "Verif.Fwk.discarded_post_leaks",
    "Verif.Fwk.discarded_publication_returns_partial"
   ],
   "note": "Refuted for a direct post of a new event; proved for a publication."
  },
  {
   "property": "C177",
   "status": "proved",
   "theorems": [
    "Verif.Bsp.first_switch"
   ],
   "note": ""
  },
  {
   "property": "C178",
   "status": "proved",
   "theorems": [
    "Verif.Bsp.pause_needs_eight",
    "Verif.Bsp.held_press_is_recognised",
    "Verif.Bsp.pauses_apart"
   ],
   "note": ""
  },
  {
   "property": "C179",
   "status": "partial",
   "theorems": [
    "Verif.Bsp.second_switch_partial",
    "Verif.Bsp.second_switch_not_sampled"
   ],
   "note": "Refuted: the second switch is not read at a tick at which the first becomes released; proved over the other ticks."
  },
  {
   "property": "C180",
   "status": "proved",
   "theorems": [
    "Verif.Bsp.Rand.client_times"
   ],
   "note": ""
  },
  {
   "property": "C181",
   "status": "partial",
   "theorems": [
    "Verif.Bsp.Rand.never_stuck_partial",
    "Verif.Bsp.Rand.stuck"
   ],
   "note": "Refuted for seeds that are multiples of 2^30; proved for all others."
  },
  {
   "property": "C182",
   "status": "proved",
   "theorems": [
    "Verif.Thread.backlog_is_worked_off",
    "Verif.Thread.backlog_in_order"
   ],
   "note": "Generalises C118 from one event to any number."
  },
  {
   "property": "C183",
   "status": "proved",
   "theorems": [
    "Verif.RdyGrp.live_traverse_exact",
    "Verif.RdyGrp.served_iff",
    "Verif.Fwk.live_publication_of_forwarding"
   ],
   "note": "Removes the simplification of C14 and C174 that the callback leaves the traversed group alone."
  },
  {
   "property": "C184",
   "status": "partial",
   "theorems": [
    "Verif.RdyGrp.presented_by_turn_partial",
    "Verif.RdyGrp.withdrawn_is_still_served",
    "Verif.Fwk.VLiveDemo.unsubscribed_object_still_gets_event",
    "Verif.Fwk.VLiveDemo.ended_object_asserts"
   ],
   "note": "Refuted for priorities still to come in the same group of eight; proved for all other calls."
  },
  {
   "property": "C185",
   "status": "partial",
   "theorems": [
    "Verif.Port.Ucos.framework_ticks",
    "Verif.Port.Ucos.tick_rate_partial",
    "Verif.Port.Ucos.no_tick_at_all",
    "Verif.Port.Ucos.tick_too_fast"
   ],
   "note": "Refuted unless the rate divides that of the operating system; exact law for all rates."
  },
  {
   "property": "C186",
   "status": "proved",
   "theorems": [
    "Verif.Port.Ucos.os_queue_is_bounded_list"
   ],
   "note": "uC/OS-III and OSA_MsgQGet/OSA_MsgQPut, which are not in /repo, are modelled as documented."
  },
  {
   "property": "C187",
   "status": "partial",
   "theorems": [
    "Verif.Port.Ucos.post_with_room_partial",
    "Verif.Port.Ucos.refused_post_leaks",
    "Verif.Port.Ucos.post_after_termination_leaks"
   ],
   "note": "Refuted for refused posts; proved while there is room."
  },
  {
   "property": "C188",
   "status": "partial",
   "theorems": [
    "Verif.Port.Ucos.record_event_partial",
    "Verif.Port.Ucos.record_shows_address"
   ],
   "note": "Refuted for the fields about the queue; proved for those about the event."
  },
  {
   "property": "C189",
   "status": "partial",
   "theorems": [
    "Verif.Port.Ucos.task_priorities_partial",
    "Verif.Port.Ucos.reserved_priority_not_rejected"
   ],
   "note": "Refuted for the rejection; proved for order and lower bound, and the upper bound for small enough priorities."
  },
  {
   "property": "C190",
   "status": "proved",
   "theorems": [
    "Verif.Bsp.Uart.line_carries_given_bytes"
   ],
   "note": ""
  },
  {
   "property": "C191",
   "status": "partial",
   "theorems": [
    "Verif.Bsp.Uart.sending_ends_partial",
    "Verif.Bsp.Uart.lost_interrupt_stops_sender"
   ],
   "note": "Refuted if the interrupt is served between two statements; proved otherwise."
  },
  {
   "property": "C192",
   "status": "partial",
   "theorems": [
    "Verif.Bsp.Uart.assertion_resets_partial",
    "Verif.Bsp.Uart.assertion_never_resets"
   ],
   "note": "Refuted for two or more bytes; proved for none or one."
  },
  {
   "property": "C193",
   "status": "partial",
   "theorems": [
    "Verif.Life.Multi.stopping_returns_partial",
    "Verif.Life.Multi.early_stop_is_lost"
   ],
   "note": "Refuted for a stop before the framework is marked as running; proved for all later ones, with bounds."
  },
  {
   "property": "C194",
   "status": "proved",
   "theorems": [
    "Verif.Life.Multi.one_tick_per_round"
   ],
   "note": ""
  },
  {
   "property": "C195",
   "status": "partial",
   "theorems": [
    "Verif.Life.Multi.nothing_closed_is_used_partial",
    "Verif.Life.Multi.objects_use_deleted_section",
    "Verif.Life.Multi.idle_uses_closed_trace"
   ],
   "note": "Refuted: the other threads are not ended; proved up to the return, and afterwards if they are silent."
  },
  {
   "property": "C196",
   "status": "partial",
   "theorems": [
    "Verif.Life.Multi.trace_in_order_partial",
    "Verif.Life.Multi.idle_and_main_interleave",
    "Verif.Life.Multi.exit_interleaves"
   ],
   "note": "Refuted for two flushes at a time; proved with one."
  },
  {
   "property": "C197",
   "status": "partial",
   "theorems": [
    "Verif.Life.Multi.exit_hook_once_partial",
    "Verif.Life.Multi.exit_hook_twice"
   ],
   "note": "Refuted with rkh_fwk_exit; the exact number of calls is proved."
  },
  {
   "property": "C198",
   "status": "partial",
   "theorems": [
    "Verif.Life.Multi.priorities_kept_partial",
    "Verif.Life.Multi.middle_priorities_are_equal",
    "Verif.Life.Multi.few_priorities_do_not_compile"
   ],
   "note": "Refuted for the middle priorities; proved for all other pairs, and never reversed."
  },
  {
   "property": "C199",
   "status": "partial",
   "theorems": [
    "Verif.Bsp.Tstamp.stamp_counts_partial",
    "Verif.Bsp.Tstamp.stamp_exact",
    "Verif.Bsp.Tstamp.stamp_not_announced",
    "Verif.Bsp.Tstamp.stamps_repeat",
    "Verif.Bsp.Tstamp.stamp_bound"
   ],
   "note": "Refuted: wrong unit, overflow interrupt not enabled; the exact value of every stamp is proved."
  },
  {
   "property": "C200",
   "status": "partial",
   "theorems": [
    "Verif.Bsp.Tstamp.stamps_in_order_partial",
    "Verif.Bsp.Tstamp.stamps_go_back",
    "Verif.Bsp.Tstamp.stamp_jumps_ahead"
   ],
   "note": "Refuted from the second period on; proved before, and within every period."
  },
  {
   "property": "C201",
   "status": "partial",
   "theorems": [
    "Verif.Bsp.Tstamp.rtc_rate_partial",
    "Verif.Bsp.Tstamp.fast_rates_tick_slowly"
   ],
   "note": "Refuted for most rates; the rates that are kept are characterised."
  },
  {
   "property": "C202",
   "status": "partial",
   "theorems": [
    "Verif.Bsp.Tstamp.systick_rate_partial",
    "Verif.Bsp.Tstamp.systick_second_too_short",
    "Verif.Bsp.Tstamp.systick_too_fast"
   ],
   "note": "Refuted for all rates; the deviation is bounded."
  }
 ]
}