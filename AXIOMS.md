# Axioms of the theorems in MANIFEST.json

Generated by `tools/axioms.py` with `#print axioms`. No axiom of our own is declared anywhere.

## none

* C24: `Willow.Props.C24_inconsistent_bounds`
* C28: `Willow.Props.C28_violated_release_status`
* C33: `Willow.Props.C33_stop_can_return`
* C59: `Willow.Props.C59_violated_heartbeat_then_timeout`
* C85: `Willow.Props.C85_client_certificate_partial`

## propext

* C03: `Willow.Props.C03_violated_collision`
* C102: `Willow.Props.C102_violated_panic_call`
* C102: `Willow.Props.C102_violated_panic_destroy`
* C102: `Willow.Props.C102_violated_exclusive`
* C103: `Willow.Props.C103_violated_created_meanwhile`
* C103: `Willow.Props.C103_violated_nan`
* C19: `Willow.Props.C19_failed_createOrFind_still_returns_an_id`
* C28: `Willow.Props.C28_heartbeat_status`
* C32: `Willow.Props.C32_violated_negative_timeout`
* C43: `Willow.Props.C43_front`
* C48: `Willow.Props.C48_when`
* C52: `Willow.Props.C52_refuses`
* C56: `Willow.Props.C56_violated_failed_create_loses_queue`
* C56: `Willow.Props.C56_violated_extra_override_panics`
* C56: `Willow.Props.C56_violated_limiter_down_panics`
* C57: `Willow.Props.C57_violated_no_properties`
* C57: `Willow.Props.C57_violated_timeout`
* C57: `Willow.Props.C57_violated_empty_subquery`
* C57: `Willow.Props.C57_violated_limiter_down`
* C70: `Willow.Props.C70_violated_rejected_delete`
* C70: `Willow.Props.C70_violated_failed_queue_delete`
* C76: `Willow.Props.C76_violated_heartbeat`
* C85: `Willow.Props.C85_bad_timeout_refused`
* C85: `Willow.Props.C85_violated_documented_variable`
* C85: `Willow.Props.C85_violated_switch`
* C85: `Willow.Props.C85_violated_port`
* C85: `Willow.Props.C85_client_iff`
* C85: `Willow.Props.C85_violated_client_certificate`
* C88: `Willow.Props.C88_appears`
* C88: `Willow.Props.C88_disappears`
* C92: `Willow.Props.C92_ends`
* C94: `Willow.Props.C94_unwatched`

## propext, Classical.choice, Quot.sound

* C01: `Willow.Props.C01_strict_total_order`
* C01: `Willow.Props.C01_natural_order`
* C02: `Willow.Props.C02_violated_NaN`
* C02: `Willow.Props.C02_order_partial`
* C03: `Willow.Props.C03_json_roundtrip_partial`
* C03: `Willow.Props.C03_text_roundtrip`
* C03: `Willow.Props.C03_violated_not_utf8`
* C04: `Willow.Props.C04_validate_iff`
* C04: `Willow.Props.C04_accepted_values_compare`
* C05: `Willow.Props.C05_decode_exact`
* C05: `Willow.Props.C05_float32_nearest`
* C05: `Willow.Props.C05_float64_nearest`
* C06: `Willow.Props.C06_tree_is_map`
* C06: `Willow.Props.C06_find_sees_the_stored_item`
* C06: `Willow.Props.C06_same_is_equal_payload`
* C07: `Willow.Props.C07_balanced`
* C07: `Willow.Props.C07_never_crashes`
* C08: `Willow.Props.C08_violated_failed_create_loses_item`
* C08: `Willow.Props.C08_failed_create_partial`
* C09: `Willow.Props.C09_delete`
* C09: `Willow.Props.C09_refused_delete_changes_no_answer`
* C10: `Willow.Props.C10_destroyAll`
* C10: `Willow.Props.C10_destroyAll_all_approved`
* C100: `Willow.Props.C100_linearizable`
* C101: `Willow.Props.C101_no_deadlock`
* C101: `Willow.Props.C101_no_deadlock_writers_first`
* C101: `Willow.Props.C101_shared_or_exclusive`
* C101: `Willow.Props.C101_no_endless_run`
* C101: `Willow.Props.C101_can_finish`
* C102: `Willow.Props.C102_exclusive_partial`
* C102: `Willow.Props.C102_refused_partial`
* C102: `Willow.Props.C102_no_panic_partial`
* C102: `Willow.Props.C102_no_deadlock_partial`
* C102: `Willow.Props.C102_no_endless_run_partial`
* C102: `Willow.Props.C102_can_finish_partial`
* C102: `Willow.Props.C102_accepts_again_partial`
* C102: `Willow.Props.C102_violated_hang`
* C103: `Willow.Props.C103_one_destroyer`
* C103: `Willow.Props.C103_refused_iff`
* C103: `Willow.Props.C103_clean`
* C103: `Willow.Props.C103_alone`
* C104: `Willow.Props.C104_snapshot_of_key`
* C104: `Willow.Props.C104_snapshot`
* C105: `Willow.Props.C105_no_key_twice`
* C105: `Willow.Props.C105_key_found`
* C105: `Willow.Props.C105_some_moment`
* C11: `Willow.Props.C11_find_concrete`
* C11: `Willow.Props.C11_find_any`
* C12: `Willow.Props.C12_findNotEqual`
* C13: `Willow.Props.C13_violated_max_type_ignored`
* C13: `Willow.Props.C13_findLessThan_partial`
* C13: `Willow.Props.C13_findLessThanOrEqual_partial`
* C13: `Willow.Props.C13_findLessThan_when_key_within_max`
* C13: `Willow.Props.C13_findLessThanOrEqual_when_key_within_max`
* C14: `Willow.Props.C14_violated_min_type_ignored`
* C14: `Willow.Props.C14_findGreaterThan_partial`
* C14: `Willow.Props.C14_findGreaterThanOrEqual_partial`
* C14: `Willow.Props.C14_findGreaterThan_when_key_within_min`
* C14: `Willow.Props.C14_findGreaterThanOrEqual_when_key_within_min`
* C15: `Willow.Props.C15_traversals_stop_when_told`
* C16: `Willow.Props.C16_violated_tree_left_locked`
* C16: `Willow.Props.C16_violated_iterate_unlocks_wrong_node`
* C16: `Willow.Props.C16_find_locks_partial`
* C16: `Willow.Props.C16_findNotEqual_locks_partial`
* C16: `Willow.Props.C16_findLess_locks_partial`
* C16: `Willow.Props.C16_findGreater_locks_partial`
* C17: `Willow.Props.C17_violated_after_failed_create`
* C17: `Willow.Props.C17_empty_iff_partial`
* C18: `Willow.Props.C18_items_unique`
* C18: `Willow.Props.C18_create_existing_fails`
* C18: `Willow.Props.C18_different_sets_are_different_items`
* C19: `Willow.Props.C19_associated_tree_is_map`
* C19: `Willow.Props.C19_failures_change_nothing`
* C19: `Willow.Props.C19_destroyTree`
* C20: `Willow.Props.C20_query_partial`
* C20: `Willow.Props.C20_index_search_is_tree_find`
* C21: `Willow.Props.C21_evaluators_agree_partial`
* C22: `Willow.Props.C22_violated_inconsistent_bounds_panic`
* C22: `Willow.Props.C22_match_partial`
* C23: `Willow.Props.C23_index_exact`
* C23: `Willow.Props.C23_no_items_no_index`
* C24: `Willow.Props.C24_permutations`
* C25: `Willow.Props.C25_refines_separate_stores`
* C25: `Willow.Props.C25_isolated`
* C25: `Willow.Props.C25_other_relations_untouched`
* C25: `Willow.Props.C25_answers_are_own`
* C25: `Willow.Props.C25_refused_changes_nothing`
* C26: `Willow.Props.C26_destroy_excludes_guarded`
* C26: `Willow.Props.C26_one_destroyer`
* C26: `Willow.Props.C26_guard_answer`
* C26: `Willow.Props.C26_wait_refused`
* C26: `Willow.Props.C26_destroyer_gets_in`
* C26: `Willow.Props.C26_destroy_starts_alone`
* C27: `Willow.Props.C27_one_holder`
* C27: `Willow.Props.C27_grants_separated`
* C27: `Willow.Props.C27_sessions_unique`
* C28: `Willow.Props.C28_success_needs_session`
* C28: `Willow.Props.C28_release_success_is_real`
* C28: `Willow.Props.C28_old_sessions_refused`
* C28: `Willow.Props.C28_refused_heartbeat`
* C28: `Willow.Props.C28_refused_heartbeat_only`
* C28: `Willow.Props.C28_refused_release`
* C29: `Willow.Props.C29_count_exact`
* C29: `Willow.Props.C29_never_underflows`
* C29: `Willow.Props.C29_lost_client_no_panic`
* C30: `Willow.Props.C30_removed_iff_unused`
* C30: `Willow.Props.C30_no_unused_lock`
* C30: `Willow.Props.C30_waiting_client_can_claim_partial`
* C30: `Willow.Props.C30_violated_stale_release_blocks_for_ever`
* C31: `Willow.Props.C31_expiry_ends_session`
* C31: `Willow.Props.C31_no_grant_before_timeout_done`
* C31: `Willow.Props.C31_timeout_frees`
* C31: `Willow.Props.C31_timeout_can_finish`
* C31: `Willow.Props.C31_live_session_has_ticker`
* C32: `Willow.Props.C32_positive_timeouts_no_crash_partial`
* C32: `Willow.Props.C32_crash_needs_bad_timeout`
* C33: `Willow.Props.C33_ends_once`
* C33: `Willow.Props.C33_nothing_after_end`
* C34: `Willow.Props.C34_timeout_after_start`
* C35: `Willow.Props.C35_limit_never_exceeded`
* C35: `Willow.Props.C35_override_limit_never_exceeded`
* C36: `Willow.Props.C36_violated_increment_past_limit`
* C36: `Willow.Props.C36_total_bounded_partial`
* C37: `Willow.Props.C37_refines`
* C37: `Willow.Props.C37_no_crash`
* C37: `Willow.Props.C37_unlimited_accepts`
* C37: `Willow.Props.C37_no_rule_accepts`
* C37: `Willow.Props.C37_zero_rejects_partial`
* C37: `Willow.Props.C37_violated_zero_after_overflow`
* C38: `Willow.Props.C38_increment_decision`
* C38: `Willow.Props.C38_limits_consulted`
* C39: `Willow.Props.C39_counters_positive_partial`
* C39: `Willow.Props.C39_counter_updates_partial`
* C39: `Willow.Props.C39_violated_overflow`
* C40: `Willow.Props.C40_unique`
* C40: `Willow.Props.C40_no_override_without_rule`
* C40: `Willow.Props.C40_rule_requests`
* C40: `Willow.Props.C40_duplicates_refused`
* C40: `Willow.Props.C40_delete_rule`
* C41: `Willow.Props.C41_no_overlap`
* C41: `Willow.Props.C41_common_lock`
* C41: `Willow.Props.C41_limited_takes_locks`
* C41: `Willow.Props.C41_total_bounded`
* C41: `Willow.Props.C41_limit_never_exceeded`
* C41: `Willow.Props.C41_override_limit_never_exceeded`
* C42: `Willow.Props.C42_no_deadlock`
* C42: `Willow.Props.C42_no_crash`
* C43: `Willow.Props.C43_order`
* C44: `Willow.Props.C44_one_place`
* C44: `Willow.Props.C44_handed_to_one`
* C44: `Willow.Props.C44_reasons`
* C45: `Willow.Props.C45_update`
* C45: `Willow.Props.C45_append`
* C46: `Willow.Props.C46_removes`
* C46: `Willow.Props.C46_not_found`
* C47: `Willow.Props.C47_at_most`
* C47: `Willow.Props.C47_removed`
* C47: `Willow.Props.C47_not_before`
* C48: `Willow.Props.C48_position`
* C49: `Willow.Props.C49_exact`
* C49: `Willow.Props.C49_partial`
* C49: `Willow.Props.C49_violated`
* C50: `Willow.Props.C50_partial`
* C51: `Willow.Props.C51_never_empty`
* C51: `Willow.Props.C51_no_crash`
* C51: `Willow.Props.C51_notifications`
* C52: `Willow.Props.C52_only_empty`
* C53: `Willow.Props.C53_partial`
* C53: `Willow.Props.C53_lowered_partial`
* C53: `Willow.Props.C53_violated`
* C54: `Willow.Props.C54_partial`
* C55: `Willow.Props.C55_violated_all_stall`
* C55: `Willow.Props.C55_violated`
* C56: `Willow.Props.C56_map_partial`
* C56: `Willow.Props.C56_violated_failed_update_reported`
* C57: `Willow.Props.C57_answers_partial`
* C57: `Willow.Props.C57_create_crashes_iff`
* C57: `Willow.Props.C57_channel_delete_crashes_iff`
* C57: `Willow.Props.C57_dequeue_crashes_iff`
* C57: `Willow.Props.C57_heartbeater_crash_iff`
* C57: `Willow.Props.C57_violated_empty_delete`
* C58: `Willow.Props.C58_bounded_overlap_partial`
* C59: `Willow.Props.C59_timeout_needs_full_period_partial`
* C60: `Willow.Props.C60_partial`
* C60: `Willow.Props.C60_only_deadlocks_partial`
* C60: `Willow.Props.C60_violated_meets_timeout`
* C60: `Willow.Props.C60_violated_ack_never_answered`
* C60: `Willow.Props.C60_violated_failed_and_heartbeat`
* C60: `Willow.Props.C60_violated_early_heartbeat`
* C61: `Willow.Props.C61_partial`
* C62: `Willow.Props.C62_partial`
* C63: `Willow.Props.C63_heartbeat`
* C64: `Willow.Props.C64_no_lost_increment`
* C66: `Willow.Props.C66_partial`
* C66: `Willow.Props.C66_rule_partial`
* C66: `Willow.Props.C66_override_partial`
* C66: `Willow.Props.C66_violated_stale_ack`
* C66: `Willow.Props.C66_violated_delete`
* C67: `Willow.Props.C67_start_partial`
* C67: `Willow.Props.C67_violated_restart`
* C68: `Willow.Props.C68_offered_partial`
* C68: `Willow.Props.C68_violated_empty_query`
* C69: `Willow.Props.C69_only_wanted_partial`
* C69: `Willow.Props.C69_violated_not_equals`
* C69: `Willow.Props.C69_violated_only_ors`
* C70: `Willow.Props.C70_error_changes_nothing_partial`
* C71: `Willow.Props.C71_heartbeats_keep_the_lock`
* C72: `Willow.Props.C72_no_overlap_partial`
* C72: `Willow.Props.C72_bounded_overlap_partial`
* C74: `Willow.Props.C74_reports_are_true`
* C74: `Willow.Props.C74_no_duplicates`
* C74: `Willow.Props.C74_answered_iff_all_held_partial`
* C74: `Willow.Props.C74_violated_free_lock_fails_query`
* C74: `Willow.Props.C74_violated_release_after_visit`
* C75: `Willow.Props.C75_query_rules_partial`
* C75: `Willow.Props.C75_match_rules_partial`
* C75: `Willow.Props.C75_query_overrides_partial`
* C75: `Willow.Props.C75_match_overrides_partial`
* C75: `Willow.Props.C75_missing_rule`
* C75: `Willow.Props.C75_violated_reads_crash`
* C76: `Willow.Props.C76_reaches_its_queue_iff`
* C76: `Willow.Props.C76_create_iff`
* C77: `Willow.Props.C77_results_partial`
* C78: `Willow.Props.C78_violated_gives_up`
* C78: `Willow.Props.C78_first_timeout_partial`
* C79: `Willow.Props.C79_effect_partial`
* C79: `Willow.Props.C79_isolation_partial`
* C79: `Willow.Props.C79_history_partial`
* C79: `Willow.Props.C79_conservation_partial`
* C80: `Willow.Props.C80_linearizable`
* C80: `Willow.Props.C80_one_creator`
* C81: `Willow.Props.C81_no_deadlock`
* C81: `Willow.Props.C81_no_endless_run`
* C81: `Willow.Props.C81_can_finish`
* C82: `Willow.Props.C82_malformed`
* C82: `Willow.Props.C82_answers_partial`
* C82: `Willow.Props.C82_history_partial`
* C82: `Willow.Props.C82_violated_reads_panic`
* C82: `Willow.Props.C82_violated_delete_stalls`
* C83: `Willow.Props.C83_reaches_iff`
* C83: `Willow.Props.C83_results_partial`
* C83: `Willow.Props.C83_violated_slash`
* C83: `Willow.Props.C83_violated_fragment`
* C83: `Willow.Props.C83_violated_wrong_list`
* C83: `Willow.Props.C83_violated_not_utf8`
* C83: `Willow.Props.C83_violated_missing_unexplained`
* C84: `Willow.Props.C84_violated_limit_exceeded`
* C84: `Willow.Props.C84_total_bounded`
* C84: `Willow.Props.C84_override_total_bounded`
* C84: `Willow.Props.C84_excess_counted`
* C84: `Willow.Props.C84_limit_kept_partial`
* C84: `Willow.Props.C84_no_overlap`
* C84: `Willow.Props.C84_locks_exclusive`
* C84: `Willow.Props.C84_no_deadlock`
* C84: `Willow.Props.C84_no_lost_increment`
* C85: `Willow.Props.C85_settings_partial`
* C85: `Willow.Props.C85_bad_value_refused`
* C85: `Willow.Props.C85_unknown_flag_refused`
* C85: `Willow.Props.C85_checked_partial`
* C86: `Willow.Props.C86_linearizable`
* C86: `Willow.Props.C86_created_once`
* C86: `Willow.Props.C86_ids_differ`
* C86: `Willow.Props.C86_find_after_create`
* C86: `Willow.Props.C86_removed_once`
* C86: `Willow.Props.C86_deleted_not_found`
* C86: `Willow.Props.C86_found_was_created`
* C86: `Willow.Props.C86_answers`
* C86: `Willow.Props.C86_violated_failed_create`
* C87: `Willow.Props.C87_finite`
* C87: `Willow.Props.C87_no_deadlock`
* C87: `Willow.Props.C87_no_deadlock_destroy`
* C87: `Willow.Props.C87_violated_create_destroy`
* C87: `Willow.Props.C87_violated_lock_leak`
* C89: `Willow.Props.C89_right_lock`
* C89: `Willow.Props.C89_always_lock`
* C89: `Willow.Props.C89_exclusive_clients`
* C89: `Willow.Props.C89_shared_object`
* C89: `Willow.Props.C89_not_released_before`
* C89: `Willow.Props.C89_finite`
* C89: `Willow.Props.C89_waits_partial`
* C89: `Willow.Props.C89_one_at_a_time`
* C89: `Willow.Props.C89_violated_deadlock`
* C89: `Willow.Props.C89_violated_free_lock`
* C90: `Willow.Props.C90_reported_matches`
* C90: `Willow.Props.C90_reported_once`
* C90: `Willow.Props.C90_stops`
* C90: `Willow.Props.C90_returned`
* C90: `Willow.Props.C90_complete_partial`
* C90: `Willow.Props.C90_complete_without_removals`
* C90: `Willow.Props.C90_violated_stable_item_missed`
* C91: `Willow.Props.C91_effect`
* C91: `Willow.Props.C91_refused`
* C91: `Willow.Props.C91_deleted`
* C91: `Willow.Props.C91_no_orphans`
* C91: `Willow.Props.C91_no_false_refusal`
* C91: `Willow.Props.C91_limits_kept_partial`
* C91: `Willow.Props.C91_answered`
* C92: `Willow.Props.C92_exact`
* C92: `Willow.Props.C92_goes_on`
* C92: `Willow.Props.C92_completes`
* C92: `Willow.Props.C92_offers`
* C92: `Willow.Props.C92_sleeps_only_at_limit`
* C92: `Willow.Props.C92_waits_partial`
* C92: `Willow.Props.C92_crashes_only`
* C92: `Willow.Props.C92_channels`
* C92: `Willow.Props.C92_violated_busy`
* C92: `Willow.Props.C92_violated_crash`
* C93: `Willow.Props.C93_stops_working`
* C93: `Willow.Props.C93_ended_or_hangs`
* C93: `Willow.Props.C93_stop_completes_partial`
* C93: `Willow.Props.C93_violated_refused_lock`
* C93: `Willow.Props.C93_violated_timeout_blocks_stop`
* C93: `Willow.Props.C93_violated_stale_release`
* C94: `Willow.Props.C94_bounded`
* C94: `Willow.Props.C94_ended_or_hangs`
* C94: `Willow.Props.C94_stop_completes_partial`
* C94: `Willow.Props.C94_deleted_completes_partial`
* C95: `Willow.Props.C95_reported`
* C95: `Willow.Props.C95_stable`
* C95: `Willow.Props.C95_once`
* C95: `Willow.Props.C95_stops`
* C95: `Willow.Props.C95_no_panic`
* C95: `Willow.Props.C95_returned`
* C95: `Willow.Props.C95_violated_not_equals`
* C95: `Willow.Props.C95_violated_empty_query_destroying`
* C96: `Willow.Props.C96_bounded`
* C96: `Willow.Props.C96_served_or_stale`
* C96: `Willow.Props.C96_all_served_partial`
* C96: `Willow.Props.C96_nobody_turned_away`
* C96: `Willow.Props.C96_violated_stale`
* C97: `Willow.Props.C97_bounded`
* C97: `Willow.Props.C97_rest_empty`
* C97: `Willow.Props.C97_all_delivered`
* C98: `Willow.Props.C98_no_starvation`
* C99: `Willow.Props.C99_stable`
* C99: `Willow.Props.C99_absent`
* C99: `Willow.Props.C99_in_range`
* C99: `Willow.Props.C99_created_meanwhile`
* C99: `Willow.Props.C99_deleted_meanwhile`

## propext, Quot.sound

* C20: `Willow.Props.C20_violated_two_not_equals`
* C20: `Willow.Props.C20_violated_type_restriction`
* C20: `Willow.Props.C20_violated_empty_subquery_panics`
* C21: `Willow.Props.C21_violated_only_ors`
* C21: `Willow.Props.C21_violated_ids_ignored`
* C26: `Willow.Props.C26_calls_enabled`
* C33: `Willow.Props.C33_blocked_calls_return`
* C38: `Willow.Props.C38_own_limit_irrelevant`
* C42: `Willow.Props.C42_global_order`
* C49: `Willow.Props.C49_after_delete`
* C50: `Willow.Props.C50_violated_stale_ack`
* C50: `Willow.Props.C50_violated_delete`
* C54: `Willow.Props.C54_violated`
* C55: `Willow.Props.C55_reading_partial`
* C58: `Willow.Props.C58_violated_blocked_heartbeat`
* C58: `Willow.Props.C58_violated_late_grant`
* C58: `Willow.Props.C58_violated_old_tick`
* C61: `Willow.Props.C61_violated`
* C62: `Willow.Props.C62_violated`
* C71: `Willow.Props.C71_bound_is_needed`
* C71: `Willow.Props.C71_violated_tiny_timeout`
* C72: `Willow.Props.C72_violated_rounding`
* C72: `Willow.Props.C72_violated_late_answer`
* C72: `Willow.Props.C72_violated_foreign_ack`
* C72: `Willow.Props.C72_with_header_fifth`
* C72: `Willow.Props.C72_with_header_shared_heartbeats`
* C73: `Willow.Props.C73_no_crash_partial`
* C73: `Willow.Props.C73_violated_ack_during_heartbeat`
* C73: `Willow.Props.C73_violated_tiny_timeout`
* C74: `Willow.Props.C74_none_left_out`
* C76: `Willow.Props.C76_list`
* C76: `Willow.Props.C76_violated_fragment`
* C76: `Willow.Props.C76_violated_deletes_other`
* C76: `Willow.Props.C76_violated_percent`
* C76: `Willow.Props.C76_violated_slash`
* C76: `Willow.Props.C76_violated_delete_ends_service`
* C76: `Willow.Props.C76_violated_get_consumes`
* C76: `Willow.Props.C76_violated_not_utf8`
* C77: `Willow.Props.C77_violated_failed_delete`
* C77: `Willow.Props.C77_violated_names`
* C78: `Willow.Props.C78_violated_never_answered_200`
* C78: `Willow.Props.C78_violated_never_renewed`
* C78: `Willow.Props.C78_violated_run`
* C83: `Willow.Props.C83_rejected`
* C83: `Willow.Props.C83_not_delivered`
* C83: `Willow.Props.C83_does_what_is_delivered`
* C83: `Willow.Props.C83_violated_reserved`
* C88: `Willow.Props.C88_guarded`
* C88: `Willow.Props.C88_one_deletion`
* C88: `Willow.Props.C88_deleted_is_empty`
* C88: `Willow.Props.C88_refused`
* C88: `Willow.Props.C88_items_change`
* C88: `Willow.Props.C88_enqueue_counts`
* C88: `Willow.Props.C88_crash_only_by_stragglers`
* C88: `Willow.Props.C88_no_delete_partial`
* C88: `Willow.Props.C88_violated_scan`
* C88: `Willow.Props.C88_violated_timeout`
* C89: `Willow.Props.C89_release_frees`
* C89: `Willow.Props.C89_held_was_obtained`
* C89: `Willow.Props.C89_violated_shared`
* C89: `Willow.Props.C89_violated_nothing`
* C91: `Willow.Props.C91_violated_limit_ignored`
* C92: `Willow.Props.C92_violated_unreachable`
* C94: `Willow.Props.C94_violated_hangs`
* C94: `Willow.Props.C94_violated_call_meets_timeout`
* C94: `Willow.Props.C94_violated_early_heartbeat`
* C97: `Willow.Props.C97_violated_limited`
