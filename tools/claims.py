CLAIMS = {
"C01": ("proved", ["C01_strict_total_order", "C01_natural_order"], "values as type code + payload; floats as IEEE bit patterns"),
"C02": ("partial", ["C02_violated_NaN", "C02_order_partial"], "false of the code for NaN (witness proved); proved for all accepted non-NaN values"),
"C03": ("partial", ["C03_json_roundtrip_partial", "C03_text_roundtrip", "C03_violated_not_utf8", "C03_violated_collision"], "proved for every value except strings that are not UTF-8; the claim is false for those: validation accepts them, encoding/json replaces the offending bytes, and different strings become the same key. strconv float text and encoding/json strings are modelled by their documented results"),
"C04": ("proved", ["C04_validate_iff", "C04_accepted_values_compare"], ""),
"C05": ("proved", ["C05_decode_exact", "C05_float32_nearest", "C05_float64_nearest"], "float texts: decimal numerals, inf and nan; hexadecimal floats and underscores are a parameter of the model; nearest is proved for exponents below 100000"),

"C06": ("proved", ["C06_tree_is_map", "C06_find_sees_the_stored_item", "C06_same_is_equal_payload"], "all node sizes >= 2, all histories of creates that succeed"),
"C07": ("proved", ["C07_balanced", "C07_never_crashes"], ""),
"C08": ("partial", ["C08_violated_failed_create_loses_item", "C08_failed_create_partial"], "false of the code: a failed create callback can lose a stored item (witness proved); what holds is proved"),
"C09": ("proved", ["C09_delete", "C09_refused_delete_changes_no_answer"], ""),
"C10": ("proved", ["C10_destroyAll", "C10_destroyAll_all_approved"], ""),
"C11": ("proved", ["C11_find_concrete", "C11_find_any"], ""),
"C12": ("proved", ["C12_findNotEqual"], ""),
"C13": ("partial", ["C13_violated_max_type_ignored", "C13_findLessThan_partial", "C13_findLessThanOrEqual_partial", "C13_findLessThan_when_key_within_max", "C13_findLessThanOrEqual_when_key_within_max"], "the maximum type is ignored by the code (witness proved); exact visited set proved, full claim when the key's type is within the maximum"),
"C14": ("partial", ["C14_violated_min_type_ignored", "C14_findGreaterThan_partial", "C14_findGreaterThanOrEqual_partial", "C14_findGreaterThan_when_key_within_min", "C14_findGreaterThanOrEqual_when_key_within_min"], "the minimum type is ignored by the code (witness proved); exact visited set proved, full claim when the key's type is within the minimum"),
"C15": ("proved", ["C15_traversals_stop_when_told"], ""),
"C16": ("partial", ["C16_violated_tree_left_locked", "C16_violated_iterate_unlocks_wrong_node", "C16_find_locks_partial", "C16_findNotEqual_locks_partial", "C16_findLess_locks_partial", "C16_findGreater_locks_partial"], "false of the code (two witnesses proved); lock balance proved outside those cases"),
"C17": ("partial", ["C17_violated_after_failed_create", "C17_empty_iff_partial"], "false of the code after a failed create on an empty tree (witness proved); proved for all other histories"),

"C18": ("proved", ["C18_items_unique", "C18_create_existing_fails", "C18_different_sets_are_different_items"], "ids from the generator are assumed never to repeat; one operation at a time"),
"C19": ("proved", ["C19_associated_tree_is_map", "C19_failures_change_nothing", "C19_destroyTree", "C19_failed_createOrFind_still_returns_an_id"], "one operation at a time (locks and 'destroying' flags not modelled)"),
"C20": ("partial", ["C20_violated_two_not_equals", "C20_violated_type_restriction", "C20_violated_empty_subquery_panics", "C20_query_partial", "C20_index_search_is_tree_find"], "false of the code for three classes of valid queries (witnesses proved); exactness proved for all other valid queries"),
"C21": ("partial", ["C21_violated_only_ors", "C21_violated_ids_ignored", "C21_evaluators_agree_partial"], "false of the code for queries with only Ors and for queries by id (witnesses proved); agreement proved otherwise"),
"C22": ("partial", ["C22_violated_inconsistent_bounds_panic", "C22_match_partial"], "false of the code when min > max (panic, proved for every such request); exactness proved for all consistent bounds"),
"C23": ("proved", ["C23_index_exact", "C23_no_items_no_index"], ""),
"C24": ("proved", ["C24_permutations", "C24_inconsistent_bounds"], ""),

"C27": ("proved", ["C27_one_holder", "C27_grants_separated", "C27_sessions_unique"], "all schedules of any number of clients, timeouts and shutdown; session ids from the generator are assumed never to repeat"),
"C28": ("partial", ["C28_success_needs_session", "C28_release_success_is_real", "C28_old_sessions_refused", "C28_refused_heartbeat", "C28_refused_heartbeat_only", "C28_refused_release", "C28_heartbeat_status", "C28_violated_release_status"], "the service refuses and changes nothing (proved); but the release handler drops the conflict and answers 204 (proved), so the refusal part is false of the code for releases"),
"C29": ("proved", ["C29_count_exact", "C29_never_underflows", "C29_lost_client_no_panic"], ""),
"C30": ("partial", ["C30_removed_iff_unused", "C30_no_unused_lock", "C30_waiting_client_can_claim_partial", "C30_violated_stale_release_blocks_for_ever"], "removal exactness proved; 'a waiting client can always claim' proved as: some continuation grants it (fair scheduling is not modelled); a stale second release can block the key-values for ever once the last waiting client is disconnecting (witness proved)"),
"C31": ("proved", ["C31_expiry_ends_session", "C31_no_grant_before_timeout_done", "C31_timeout_frees", "C31_timeout_can_finish", "C31_live_session_has_ticker"], "the clock is a nondeterministic event; 'is freed' = the timeout can always be processed from every reachable state of a running service"),
"C32": ("partial", ["C32_positive_timeouts_no_crash_partial", "C32_crash_needs_bad_timeout", "C32_violated_negative_timeout"], "false of the code: negative timeouts pass validation and crash the service (proved); no crash with positive timeouts (proved)"),

"C25": ("proved", ["C25_refines_separate_stores", "C25_isolated", "C25_other_relations_untouched", "C25_answers_are_own", "C25_refused_changes_nothing"], "one request at a time; the refusals during a concurrent destroy are not modelled"),
"C26": ("proved", ["C26_destroy_excludes_guarded", "C26_one_destroyer", "C26_guard_answer", "C26_calls_enabled", "C26_wait_refused", "C26_destroyer_gets_in", "C26_destroy_starts_alone"], ""),
"C33": ("proved", ["C33_ends_once", "C33_nothing_after_end", "C33_blocked_calls_return", "C33_stop_can_return"], "calls made from inside the heartbeater's own callback are not modelled"),
"C34": ("proved", ["C34_timeout_after_start"], ""),
"C59": ("partial", ["C59_timeout_needs_full_period_partial", "C59_violated_heartbeat_then_timeout"], "false of the code: a heartbeat processed while a tick already waits in the ticker channel does not prevent the timeout (Go 1.22 Reset does not drain); proved for heartbeats processed before the tick"),

"C35": ("proved", ["C35_limit_never_exceeded", "C35_override_limit_never_exceeded"], "for histories whose increments sum to less than 2^63 (beyond that int64 wraps around, see C39); one request at a time here, interleavings in C41"),
"C36": ("partial", ["C36_violated_increment_past_limit", "C36_total_bounded_partial"], "false of the code: one increment larger than 1 can pass the limit (witness proved); the bound that does hold, limit - 1 + largest increment, is proved"),
"C37": ("partial", ["C37_refines", "C37_no_crash", "C37_unlimited_accepts", "C37_no_rule_accepts", "C37_zero_rejects_partial", "C37_violated_zero_after_overflow"], "-1 never rejects proved for all histories; 0 always rejects proved while no counter overflows, and false of the code after an int64 overflow (witness proved)"),
"C38": ("proved", ["C38_increment_decision", "C38_own_limit_irrelevant", "C38_limits_consulted"], ""),
"C39": ("partial", ["C39_counters_positive_partial", "C39_counter_updates_partial", "C39_violated_overflow"], "proved while the sum of the increments is below 2^63; false of the code after an int64 overflow (witness proved)"),
"C40": ("proved", ["C40_unique", "C40_no_override_without_rule", "C40_rule_requests", "C40_duplicates_refused", "C40_delete_rule"], "one request at a time"),

"C41": ("proved", ["C41_no_overlap", "C41_common_lock", "C41_limited_takes_locks", "C41_total_bounded", "C41_limit_never_exceeded", "C41_override_limit_never_exceeded"], "all interleavings of any number of increments with all other requests; locks are exclusive (C27) and their leases are assumed not to expire while held; the sum of amounts is assumed below 2^63"),
"C42": ("proved", ["C42_no_deadlock", "C42_global_order", "C42_no_crash"], ""),
"C43":("proved",["C43_front","C43_order"],"model: transition system of one channel (Model/Channel.lean); C43_order: of two items that never failed, the one enqueued first is handed out first or was dropped in favour of another item"),
"C44":("proved",["C44_one_place","C44_handed_to_one","C44_reasons"],"conservation law for every id in every reachable state; until the channel is deleted by force"),
"C45":("proved",["C45_update","C45_append"],""),
"C46":("proved",["C46_removes","C46_not_found"],"for ACKs that are answered: an ACK that meets the timeout callback of its item does not return (C60)"),
"C47":("proved",["C47_at_most","C47_removed","C47_not_before"],""),
"C48":("proved",["C48_position","C48_when"],""),
"C49":("partial",["C49_exact","C49_partial","C49_after_delete","C49_violated"],"the English claim is false of the code: items dropped by a failing item are never subtracted (C49_violated: an empty channel can be counted as n items, for every n); C49_exact is the exact value"),
"C50":("partial",["C50_partial","C50_violated_stale_ack","C50_violated_delete"],"the English claim is false of the code in two histories; C50_partial: it holds in all others"),
"C51":("proved",["C51_never_empty","C51_no_crash","C51_notifications"],"outside of forced deletions (C61)"),
"C52":("proved",["C52_only_empty","C52_refuses"],""),
"C54":("partial",["C54_partial","C54_violated"],"the English claim is false of the code: a failed ACK of a waiting item is answered with success; C54_partial: it changes nothing in that case"),
"C61":("partial",["C61_partial","C61_violated"],"the English claim is false of the code; C61_partial: only while the items of a forcibly deleted channel are being destroyed"),
"C62":("partial",["C62_partial","C62_violated"],"the English claim is false of the code: an update keeps the old timeout"),
"C60":("partial",["C60_partial","C60_only_deadlocks_partial","C60_violated_meets_timeout","C60_violated_ack_never_answered","C60_violated_failed_and_heartbeat","C60_violated_early_heartbeat"],"the English claim is false of the code: an ack or heartbeat that meets a firing timeout, and a heartbeat before the success callback, block for ever; C60_partial: in all other situations every call is answered"),
"C63":("proved",["C63_heartbeat"],"for heartbeats that return (C60: some do not)"),
"C64":("proved",["C64_no_lost_increment"],"for amounts that do not overflow int64 (C39)"),
"C53":("partial",["C53_partial","C53_lowered_partial","C53_violated"],"the English claim is false of the code: an item whose key 'queue_name' names another queue is counted there; C53_partial: it holds if no item has one of the keys 'queue_name', 'enqueued', '_willow_enqueued' and nobody else changes willow's counters"),
"C66":("partial",["C66_partial","C66_rule_partial","C66_override_partial","C66_violated_stale_ack","C66_violated_delete"],"the English claim is false of the code (stale ack followed by a failed delivery; failed delivery of a deleted and recreated channel); C66_partial: it holds in all other histories without colliding keys"),
"C56":("partial",["C56_map_partial","C56_violated_failed_create_loses_queue","C56_violated_failed_update_reported","C56_violated_extra_override_panics","C56_violated_limiter_down_panics"],"the English claim is false of the code: a failed create can remove another queue; C56_map_partial: all histories in which creates fail only when at most one queue has a greater name, updates do not fail and the limiter answers queries"),
"C67":("partial",["C67_start_partial","C67_violated_restart"],"the English claim is false of the code: the second start always ends in logger.Fatal because the rule exists (C67_violated_restart); C67_start_partial: it starts on every limiter that does not have the rule"),
"C68":("partial",["C68_offered_partial","C68_violated_empty_query"],"the English claim is false of the code for the empty query (C68_violated_empty_query: a channel announced before the client registers and inserted after it looked is never offered); C68_offered_partial: it holds for every valid non-empty query without ids and without empty sub-queries"),
"C69":("partial",["C69_only_wanted_partial","C69_violated_not_equals","C69_violated_only_ors"],"the English claim is false of the code (a channel created between the searches of a != query; queries of Ors only); C69_only_wanted_partial: it holds for all other queries, except type restrictions the tree search ignores (C20)"),
"C55":("partial",["C55_reading_partial","C55_violated_all_stall","C55_violated"],"the English claim is false of the code (C55_violated: consumer, create, enqueue; C55_violated_all_stall: every continuation is stuck until the consumer's client gives up); C55_reading_partial: it holds while no queue is created or deleted"),
"C57":("partial",["C57_answers_partial","C57_create_crashes_iff","C57_channel_delete_crashes_iff","C57_dequeue_crashes_iff","C57_heartbeater_crash_iff","C57_violated_no_properties","C57_violated_timeout","C57_violated_empty_subquery","C57_violated_empty_delete","C57_violated_limiter_down"],"the English claim is false of the code (five kinds of crashes, each shown); C57_answers_partial: every history without them is answered; the _iff theorems give the exact conditions for creates, channel deletes and dequeues"),
"C70":("partial",["C70_error_changes_nothing_partial","C70_violated_rejected_delete","C70_violated_failed_queue_delete"],"the English claim is false of the code: a rejected delete of a channel deletes it, and a failed delete of a queue destroys its items (and C56: failed creates and updates); C70_error_changes_nothing_partial: all other requests"),
"C58":("partial",["C58_bounded_overlap_partial","C58_violated_blocked_heartbeat","C58_violated_late_grant","C58_violated_old_tick"],"the English claim is false of the code: a heartbeat request without a timeout blocks the client's own timer, a late grant is believed for a whole timeout, and a heartbeat answered 200 while the server's tick is buffered does not keep the lock; C58_bounded_overlap_partial: with bounded delays the overlap is at most their sum"),
"C71":("proved",["C71_heartbeats_keep_the_lock","C71_bound_is_needed","C71_violated_tiny_timeout"],"the bound is exact (C71_bound_is_needed); timeouts below 3 ns make the client panic (C71_violated_tiny_timeout)"),
"C72":("partial",["C72_no_overlap_partial","C72_bounded_overlap_partial","C72_violated_rounding","C72_violated_late_answer","C72_violated_foreign_ack","C72_with_header_fifth","C72_with_header_shared_heartbeats"],"the English claim is false of the code: late answers to dequeues, timeouts for which (T - T/10) is no multiple of 3, and late ACKs give two consumers the item; C72_no_overlap_partial: it holds for the other timeouts with delays below a tenth of the timeout and without late ACKs; C72_bounded_overlap_partial: for all timeouts the overlap is below a fifth of the timeout and the delays; C72_with_header_*: what stays wrong if the missing Content-Type header of heartbeats (C78) is added"),
"C73":("partial",["C73_no_crash_partial","C73_violated_ack_during_heartbeat","C73_violated_tiny_timeout"],"the English claim is false of the code: a heartbeat that fails after ACK dereferences a nil response; C73_no_crash_partial: it holds if ACK is not called during a heartbeat request and the timeout is at least 3 ns"),
"C74":("partial",["C74_reports_are_true","C74_none_left_out","C74_no_duplicates","C74_answered_iff_all_held_partial","C74_violated_free_lock_fails_query","C74_violated_release_after_visit"],"the English claim is false of the code: one selected lock that nobody holds at the moment makes the whole query fail with 500, and so does a lock released between its visit and the end of the query; what is reported is true, complete and without duplicates, and the query succeeds exactly when every selected lock is held"),
"C75":("partial",["C75_query_rules_partial","C75_match_rules_partial","C75_query_overrides_partial","C75_match_overrides_partial","C75_missing_rule","C75_violated_reads_crash"],"exact for every history and all queries and matches outside the counterexamples of C20 and C22; some valid queries crash the request (C75_violated_reads_crash)"),
"C78":("partial",["C78_violated_never_answered_200","C78_violated_never_renewed","C78_violated_gives_up","C78_violated_run","C78_first_timeout_partial"],"the English claim is false of the code: the item client sends heartbeats without a Content-Type header and the service answers 400 to all of them, so no delivery is ever renewed and every consumer gives up; C78_first_timeout_partial: before its timeout has passed the item is not taken away"),
"C76":("partial",["C76_reaches_its_queue_iff","C76_create_iff","C76_list","C76_violated_heartbeat","C76_violated_fragment","C76_violated_deletes_other","C76_violated_percent","C76_violated_slash","C76_violated_delete_ends_service","C76_violated_get_consumes","C76_violated_not_utf8"],"the English claim is false of the code: names are put into URLs as they are; C76_reaches_its_queue_iff and C76_create_iff give the exact condition on the name"),
"C77":("partial",["C77_results_partial","C77_violated_failed_delete","C77_violated_names"],"the English claim is false of the code for names with special bytes (C76) and for DeleteQueue while the limiter cannot be reached; C77_results_partial: all other calls after every history outside the crashes of C56 and C57; requests one after the other"),
"C79":("partial",["C79_effect_partial","C79_isolation_partial","C79_history_partial","C79_conservation_partial"],"for all histories outside the crashes and damages of C56 and C57; requests one after the other; what dequeue queries select is exact outside the counterexamples of C20"),
"C80":("proved",["C80_linearizable","C80_one_creator"],"Create, CreateOrFind, exact Find and Delete; onCreate returns a value (C08 otherwise)"),
"C81":("proved",["C81_no_deadlock","C81_no_endless_run","C81_can_finish"],"Create, CreateOrFind, exact Find and Delete; callbacks return"),
"C82":("partial",["C82_malformed","C82_answers_partial","C82_history_partial","C82_violated_reads_panic","C82_violated_delete_stalls"],"C82_malformed for all bodies; C82_answers_partial and C82_history_partial: all histories and all requests outside the counterexamples of C20 and C22, with amounts below 2^63 in total; the English claim is false for the others: some valid reads panic, and if they read overrides the rule can never be deleted again"),
"C83":("partial",["C83_rejected","C83_not_delivered","C83_does_what_is_delivered","C83_reaches_iff","C83_results_partial","C83_violated_slash","C83_violated_fragment","C83_violated_reserved","C83_violated_wrong_list","C83_violated_not_utf8","C83_violated_missing_unexplained"],"the English claim is false of the code for names with special bytes, for keys that are not UTF-8, and for the 404 of DeleteRule, QueryOverrides and MatchOverrides; C83_reaches_iff gives the exact condition on names, keys and queries; C83_results_partial: all other calls after every history, outside the counterexamples of C20 and C22; calls one after the other"),
"C84":("partial",["C84_violated_limit_exceeded","C84_total_bounded","C84_override_total_bounded","C84_excess_counted","C84_limit_kept_partial","C84_no_overlap","C84_locks_exclusive","C84_no_deadlock","C84_no_lost_increment"],"the English claim is false of the code: locks are looked at once, before the limits are checked, so an increment whose lock is lost after that overlaps with others and the limit is exceeded; C84_total_bounded and C84_excess_counted: by at most the amounts of the accepted increments that lost a lock (reached by the example); C84_limit_kept_partial: not at all if no accepted increment lost one; the rest holds for all runs"),
"C85":("partial",["C85_settings_partial","C85_bad_value_refused","C85_unknown_flag_refused","C85_bad_timeout_refused","C85_checked_partial","C85_violated_documented_variable","C85_violated_switch","C85_violated_port","C85_client_iff","C85_client_certificate_partial","C85_violated_client_certificate"],"the English claim is false of the code: four documented environment variables are not the ones that are read, switches cannot be switched off by their variable, negative ports (willow: any port) are accepted, and a client certificate without a CA is never used; C85_settings_partial: all other settings, for all command lines and environments"),
"C86":("partial",["C86_linearizable","C86_created_once","C86_ids_differ","C86_find_after_create","C86_removed_once","C86_deleted_not_found","C86_found_was_created","C86_answers","C86_violated_failed_create"],"proved for all interleavings of calls whose onCreate returns an item; the English claim is false if an onCreate can return nil (as in the lock client): another CreateOrFind for the same key-values can then return an id without having created or found anything"),
"C87":("partial",["C87_finite","C87_no_deadlock","C87_no_deadlock_destroy","C87_violated_create_destroy","C87_violated_lock_leak"],"the English claim is false of the code: a create and a DestroyByAssociatedID of an item that shares a pair with the new one wait for each other for ever (the limiter: deleting a rule while creating another), and a Delete that meets a destruction returns with locks held; C87_no_deadlock: all interleavings without destructions; C87_finite: no run goes on for ever"),
"C88":("partial",["C88_guarded","C88_one_deletion","C88_deleted_is_empty","C88_appears","C88_disappears","C88_refused","C88_items_change","C88_enqueue_counts","C88_crash_only_by_stragglers","C88_no_delete_partial","C88_violated_scan","C88_violated_timeout"],"the English claim is false of the code: the goroutine a dequeue leaves behind panics, and the timeout of a delivered item calls logger.Fatal, if they run while the queue is being deleted; C88_crash_only_by_stragglers: nothing else ends the service"),
"C89":("partial",["C89_right_lock","C89_always_lock","C89_exclusive_clients","C89_shared_object","C89_release_frees","C89_not_released_before","C89_held_was_obtained","C89_finite","C89_waits_partial","C89_one_at_a_time","C89_violated_shared","C89_violated_deadlock","C89_violated_free_lock","C89_violated_nothing"],"the English claim is false of the code: goroutines of one client that obtain the same lock share one lock object, so that one of them can free the lock the other holds; an ObtainLock that waits locks its pairs in the tree of the client, so that other ObtainLocks and Releases with a common pair wait with it, up to a deadlock of two clients in which no Release ever returns; after a cancelled ObtainLock another one can return nothing at all. C89_one_at_a_time: no such thing happens if no client releases while one of its goroutines waits. Leases are kept (C58, C84)"),
"C90":("partial",["C90_reported_matches","C90_reported_once","C90_stops","C90_returned","C90_complete_partial","C90_complete_without_removals","C90_violated_stable_item_missed"],"the English claim is false of the code: a match that comes across an item that is being destroyed (or is gone meanwhile) ends at once and silently, so that matching items that are there all the time are not reported; C90_complete_partial: only then; C90_complete_without_removals: never if nothing is removed meanwhile; queries without bounds on the number of key-values"),
"C91":("partial",["C91_effect","C91_refused","C91_deleted","C91_no_orphans","C91_no_false_refusal","C91_limits_kept_partial","C91_answered","C91_violated_limit_ignored"],"the English claim is false of the code: while a rule is being deleted, an increment of a counter it applies to can ignore all other rules, because the match ends there (C90), and exceed their limits; C91_limits_kept_partial: not if no rule being deleted applies; the rest for all histories of valid requests whose amounts together are an int64; each request is one step, a deletion three"),
"C92":("partial",["C92_exact","C92_goes_on","C92_ends","C92_completes","C92_offers","C92_sleeps_only_at_limit","C92_waits_partial","C92_crashes_only","C92_channels","C92_violated_busy","C92_violated_crash","C92_violated_unreachable"],"the English claim is false of the code: a reached limit whose rule or override has a wildcard is not noticed, so that the channel offers the item again and again without a pause; a rule that is deleted between two calls of the check, or an answer that is lost, ends the whole willow service by a panic; C92_waits_partial: it waits for limits without wildcards; C92_crashes_only: nothing else ends the service; overflow of counters (C39) and panicking reads (C82) are excluded"),
"C93":("partial",["C93_stops_working","C93_ended_or_hangs","C93_stop_completes_partial","C93_violated_refused_lock","C93_violated_timeout_blocks_stop","C93_violated_stale_release"],"the English claim is false of the code: a lock asked for after the stop is saved without being started, so that the next request for it, and every disconnect, hangs for ever; a heartbeat, release or disconnect next to a pending timeout makes lock, timeout and request wait for each other; C93_ended_or_hangs: these and the stale release of C30 are the only ways it hangs; C93_stop_completes_partial: it ends in every schedule if there are only waiting clients, held locks and timeouts"),
"C94":("partial",["C94_bounded","C94_ended_or_hangs","C94_stop_completes_partial","C94_deleted_completes_partial","C94_violated_hangs","C94_violated_call_meets_timeout","C94_violated_early_heartbeat","C94_unwatched"],"the English claim is false of the code: an ACK, a heartbeat or a forced delete that comes when the timeout of the item has fired but is not processed yet, or a heartbeat before the delivery is completed, keeps Execute and the manager of the heartbeats from returning for ever; C94_ended_or_hangs: there are no other ways to hang; C94_stop_completes_partial and C94_deleted_completes_partial: otherwise the channel comes to its end; work is bounded but for repeated refusals of the limiter (C94_bounded)"),
"C95":("partial",["C95_reported","C95_stable","C95_once","C95_stops","C95_no_panic","C95_returned","C95_violated_not_equals","C95_violated_empty_query_destroying"],"the English claim is false of the code: a query with != searches for the equal ones first and for everything after that, so that an item created in between is reported although it has the excluded value; the empty query reports items whose destruction has begun; C95_reported: all valid queries without != (outside of the deviations of C20); C95_stable: all valid queries, also with !=, for items that are there during the whole query; the walk through one ordered tree visits what is there all the time, in any order"),
"C96":("partial",["C96_bounded","C96_served_or_stale","C96_all_served_partial","C96_nobody_turned_away","C96_violated_stale"],"the English claim is false of the code: a late release or heartbeat of a lock nobody holds hangs together with a client that goes away at that time, and then nobody ever gets the lock again (C30); C96_served_or_stale: this is the only way; C96_all_served_partial: every waiting client is granted the lock in every schedule if no client goes away; no new requests arrive meanwhile (a client that keeps heartbeating keeps its lock, C71)"),
"C97":("partial",["C97_bounded","C97_rest_empty","C97_all_delivered","C97_violated_limited"],"in a schedule without new enqueues, refusals of the limiter and deletions, in which every delivery reaches its consumer, every item that waited is handed out or superseded, and the channel ends empty; C97_violated_limited: over its limit the channel goes on for ever without handing anything out; missing: an ACK or heartbeat that meets a timeout that fires hangs with it (C60) and is no step of this model"),
"C98":("proved",["C98_no_starvation"],"until the item is handed out or superseded, and as long as the channel is not deleted; the example reaches the bound"),
"C99":("proved",["C99_stable","C99_absent","C99_in_range","C99_created_meanwhile","C99_deleted_meanwhile"],"one descent from the root (the additional exact look-up of the key Any is a Find, C80); what a search does when its callback asks for no more: C16"),
"C100":("proved",["C100_linearizable"],"Create, CreateOrFind, exact Find and Delete next to range searches"),
"C101":("proved",["C101_no_deadlock","C101_no_deadlock_writers_first","C101_shared_or_exclusive","C101_no_endless_run","C101_can_finish"],"the callbacks of the searches return and do not use the same tree themselves"),
"C102":("partial",["C102_exclusive_partial","C102_refused_partial","C102_no_panic_partial","C102_no_deadlock_partial","C102_no_endless_run_partial","C102_can_finish_partial","C102_accepts_again_partial","C102_violated_panic_call","C102_violated_hang","C102_violated_panic_destroy","C102_violated_exclusive"],"the English claim is false of the code: the calls are counted with a sync.WaitGroup, whose Add on a zero counter must not meet a Wait; a call that begins at the moment the last one leaves panics, both of them do and DestroyAll then sleeps for ever and every later call is refused, or DestroyAll itself panics, or the counter becomes negative and a later DestroyAll does not wait; proved: exclusion as long as nobody has panicked, and everything when no call begins while DestroyAll sleeps"),
"C103":("partial",["C103_one_destroyer","C103_refused_iff","C103_clean","C103_alone","C103_violated_created_meanwhile","C103_violated_nan"],"proved for keys that are equal to themselves; for a NaN the English claim is false of the code: two Destroys of it are under way at once and the key stays in the list for ever (the services only destroy strings); C103_violated_created_meanwhile shows that the hypothesis of C103_alone, no call that had begun before, is needed; the work on the tree is one step (C80)"),
"C104":("proved",["C104_snapshot_of_key","C104_snapshot"],"the moment is the one at which the search gets the lock of the root; one descent (the second descent of some searches for the key Any is a Find); the callback asks for more each time; keys with a call under way at that moment: C99"),
"C105":("proved",["C105_no_key_twice","C105_key_found","C105_some_moment"],"one descent (the second descent of some searches for the key Any is a Find); the callback asks for more each time"),
}
