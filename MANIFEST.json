{
 "claims": [
  {
   "property": "C01",
   "status": "proved",
   "theorems": [
    "Willow.Props.C01_strict_total_order",
    "Willow.Props.C01_natural_order"
   ],
   "note": "values as type code + payload; floats as IEEE bit patterns"
  },
  {
   "property": "C02",
   "status": "partial",
   "theorems": [
    "Willow.Props.C02_violated_NaN",
    "Willow.Props.C02_order_partial"
   ],
   "note": "false of the code for NaN (witness proved); proved for all accepted non-NaN values"
  },
  {
   "property": "C03",
   "status": "partial",
   "theorems": [
    "Willow.Props.C03_json_roundtrip_partial",
    "Willow.Props.C03_text_roundtrip",
    "Willow.Props.C03_violated_not_utf8",
    "Willow.Props.C03_violated_collision"
   ],
   "note": "proved for every value except strings that are not UTF-8; the claim is false for those: validation accepts them, encoding/json replaces the offending bytes, and different strings become the same key. strconv float text and encoding/json strings are modelled by their documented results"
  },
  {
   "property": "C04",
   "status": "proved",
   "theorems": [
    "Willow.Props.C04_validate_iff",
    "Willow.Props.C04_accepted_values_compare"
   ],
   "note": ""
  },
  {
   "property": "C05",
   "status": "proved",
   "theorems": [
    "Willow.Props.C05_decode_exact",
    "Willow.Props.C05_float32_nearest",
    "Willow.Props.C05_float64_nearest"
   ],
   "note": "float texts: decimal numerals, inf and nan; hexadecimal floats and underscores are a parameter of the model; nearest is proved for exponents below 100000"
  },
  {
   "property": "C06",
   "status": "proved",
   "theorems": [
    "Willow.Props.C06_tree_is_map",
    "Willow.Props.C06_find_sees_the_stored_item",
    "Willow.Props.C06_same_is_equal_payload"
   ],
   "note": "all node sizes >= 2, all histories of creates that succeed"
  },
  {
   "property": "C07",
   "status": "proved",
   "theorems": [
    "Willow.Props.C07_balanced",
    "Willow.Props.C07_never_crashes"
   ],
   "note": ""
  },
  {
   "property": "C08",
   "status": "partial",
   "theorems": [
    "Willow.Props.C08_violated_failed_create_loses_item",
    "Willow.Props.C08_failed_create_partial"
   ],
   "note": "false of the code: a failed create callback can lose a stored item (witness proved); what holds is proved"
  },
  {
   "property": "C09",
   "status": "proved",
   "theorems": [
    "Willow.Props.C09_delete",
    "Willow.Props.C09_refused_delete_changes_no_answer"
   ],
   "note": ""
  },
  {
   "property": "C10",
   "status": "proved",
   "theorems": [
    "Willow.Props.C10_destroyAll",
    "Willow.Props.C10_destroyAll_all_approved"
   ],
   "note": ""
  },
  {
   "property": "C100",
   "status": "proved",
   "theorems": [
    "Willow.Props.C100_linearizable"
   ],
   "note": "Create, CreateOrFind, exact Find and Delete next to range searches"
  },
  {
   "property": "C101",
   "status": "proved",
   "theorems": [
    "Willow.Props.C101_no_deadlock",
    "Willow.Props.C101_no_deadlock_writers_first",
    "Willow.Props.C101_shared_or_exclusive",
    "Willow.Props.C101_no_endless_run",
    "Willow.Props.C101_can_finish"
   ],
   "note": "the callbacks of the searches return and do not use the same tree themselves"
  },
  {
   "property": "C102",
   "status": "partial",
   "theorems": [
    "Willow.Props.C102_exclusive_partial",
    "Willow.Props.C102_refused_partial",
    "Willow.Props.C102_no_panic_partial",
    "Willow.Props.C102_no_deadlock_partial",
    "Willow.Props.C102_no_endless_run_partial",
    "Willow.Props.C102_can_finish_partial",
    "Willow.Props.C102_accepts_again_partial",
    "Willow.Props.C102_violated_panic_call",
    "Willow.Props.C102_violated_hang",
    "Willow.Props.C102_violated_panic_destroy",
    "Willow.Props.C102_violated_exclusive"
   ],
   "note": "the English claim is false of the code: the calls are counted with a sync.WaitGroup, whose Add on a zero counter must not meet a Wait; a call that begins at the moment the last one leaves panics, both of them do and DestroyAll then sleeps for ever and every later call is refused, or DestroyAll itself panics, or the counter becomes negative and a later DestroyAll does not wait; proved: exclusion as long as nobody has panicked, and everything when no call begins while DestroyAll sleeps"
  },
  {
   "property": "C103",
   "status": "partial",
   "theorems": [
    "Willow.Props.C103_one_destroyer",
    "Willow.Props.C103_refused_iff",
    "Willow.Props.C103_clean",
    "Willow.Props.C103_alone",
    "Willow.Props.C103_violated_created_meanwhile",
    "Willow.Props.C103_violated_nan"
   ],
   "note": "proved for keys that are equal to themselves; for a NaN the English claim is false of the code: two Destroys of it are under way at once and the key stays in the list for ever (the services only destroy strings); C103_violated_created_meanwhile shows that the hypothesis of C103_alone, no call that had begun before, is needed; the work on the tree is one step (C80)"
  },
  {
   "property": "C104",
   "status": "proved",
   "theorems": [
    "Willow.Props.C104_snapshot_of_key",
    "Willow.Props.C104_snapshot"
   ],
   "note": "the moment is the one at which the search gets the lock of the root; one descent (the second descent of some searches for the key Any is a Find); the callback asks for more each time; keys with a call under way at that moment: C99"
  },
  {
   "property": "C105",
   "status": "proved",
   "theorems": [
    "Willow.Props.C105_no_key_twice",
    "Willow.Props.C105_key_found",
    "Willow.Props.C105_some_moment"
   ],
   "note": "one descent (the second descent of some searches for the key Any is a Find); the callback asks for more each time"
  },
  {
   "property": "C11",
   "status": "proved",
   "theorems": [
    "Willow.Props.C11_find_concrete",
    "Willow.Props.C11_find_any"
   ],
   "note": ""
  },
  {
   "property": "C12",
   "status": "proved",
   "theorems": [
    "Willow.Props.C12_findNotEqual"
   ],
   "note": ""
  },
  {
   "property": "C13",
   "status": "partial",
   "theorems": [
    "Willow.Props.C13_violated_max_type_ignored",
    "Willow.Props.C13_findLessThan_partial",
    "Willow.Props.C13_findLessThanOrEqual_partial",
    "Willow.Props.C13_findLessThan_when_key_within_max",
    "Willow.Props.C13_findLessThanOrEqual_when_key_within_max"
   ],
   "note": "the maximum type is ignored by the code (witness proved); exact visited set proved, full claim when the key's type is within the maximum"
  },
  {
   "property": "C14",
   "status": "partial",
   "theorems": [
    "Willow.Props.C14_violated_min_type_ignored",
    "Willow.Props.C14_findGreaterThan_partial",
    "Willow.Props.C14_findGreaterThanOrEqual_partial",
    "Willow.Props.C14_findGreaterThan_when_key_within_min",
    "Willow.Props.C14_findGreaterThanOrEqual_when_key_within_min"
   ],
   "note": "the minimum type is ignored by the code (witness proved); exact visited set proved, full claim when the key's type is within the minimum"
  },
  {
   "property": "C15",
   "status": "proved",
   "theorems": [
    "Willow.Props.C15_traversals_stop_when_told"
   ],
   "note": ""
  },
  {
   "property": "C16",
   "status": "partial",
   "theorems": [
    "Willow.Props.C16_violated_tree_left_locked",
    "Willow.Props.C16_violated_iterate_unlocks_wrong_node",
    "Willow.Props.C16_find_locks_partial",
    "Willow.Props.C16_findNotEqual_locks_partial",
    "Willow.Props.C16_findLess_locks_partial",
    "Willow.Props.C16_findGreater_locks_partial"
   ],
   "note": "false of the code (two witnesses proved); lock balance proved outside those cases"
  },
  {
   "property": "C17",
   "status": "partial",
   "theorems": [
    "Willow.Props.C17_violated_after_failed_create",
    "Willow.Props.C17_empty_iff_partial"
   ],
   "note": "false of the code after a failed create on an empty tree (witness proved); proved for all other histories"
  },
  {
   "property": "C18",
   "status": "proved",
   "theorems": [
    "Willow.Props.C18_items_unique",
    "Willow.Props.C18_create_existing_fails",
    "Willow.Props.C18_different_sets_are_different_items"
   ],
   "note": "ids from the generator are assumed never to repeat; one operation at a time"
  },
  {
   "property": "C19",
   "status": "proved",
   "theorems": [
    "Willow.Props.C19_associated_tree_is_map",
    "Willow.Props.C19_failures_change_nothing",
    "Willow.Props.C19_destroyTree",
    "Willow.Props.C19_failed_createOrFind_still_returns_an_id"
   ],
   "note": "one operation at a time (locks and 'destroying' flags not modelled)"
  },
  {
   "property": "C20",
   "status": "partial",
   "theorems": [
    "Willow.Props.C20_violated_two_not_equals",
    "Willow.Props.C20_violated_type_restriction",
    "Willow.Props.C20_violated_empty_subquery_panics",
    "Willow.Props.C20_query_partial",
    "Willow.Props.C20_index_search_is_tree_find"
   ],
   "note": "false of the code for three classes of valid queries (witnesses proved); exactness proved for all other valid queries"
  },
  {
   "property": "C21",
   "status": "partial",
   "theorems": [
    "Willow.Props.C21_violated_only_ors",
    "Willow.Props.C21_violated_ids_ignored",
    "Willow.Props.C21_evaluators_agree_partial"
   ],
   "note": "false of the code for queries with only Ors and for queries by id (witnesses proved); agreement proved otherwise"
  },
  {
   "property": "C22",
   "status": "partial",
   "theorems": [
    "Willow.Props.C22_violated_inconsistent_bounds_panic",
    "Willow.Props.C22_match_partial"
   ],
   "note": "false of the code when min > max (panic, proved for every such request); exactness proved for all consistent bounds"
  },
  {
   "property": "C23",
   "status": "proved",
   "theorems": [
    "Willow.Props.C23_index_exact",
    "Willow.Props.C23_no_items_no_index"
   ],
   "note": ""
  },
  {
   "property": "C24",
   "status": "proved",
   "theorems": [
    "Willow.Props.C24_permutations",
    "Willow.Props.C24_inconsistent_bounds"
   ],
   "note": ""
  },
  {
   "property": "C25",
   "status": "proved",
   "theorems": [
    "Willow.Props.C25_refines_separate_stores",
    "Willow.Props.C25_isolated",
    "Willow.Props.C25_other_relations_untouched",
    "Willow.Props.C25_answers_are_own",
    "Willow.Props.C25_refused_changes_nothing"
   ],
   "note": "one request at a time; the refusals during a concurrent destroy are not modelled"
  },
  {
   "property": "C26",
   "status": "proved",
   "theorems": [
    "Willow.Props.C26_destroy_excludes_guarded",
    "Willow.Props.C26_one_destroyer",
    "Willow.Props.C26_guard_answer",
    "Willow.Props.C26_calls_enabled",
    "Willow.Props.C26_wait_refused",
    "Willow.Props.C26_destroyer_gets_in",
    "Willow.Props.C26_destroy_starts_alone"
   ],
   "note": ""
  },
  {
   "property": "C27",
   "status": "proved",
   "theorems": [
    "Willow.Props.C27_one_holder",
    "Willow.Props.C27_grants_separated",
    "Willow.Props.C27_sessions_unique"
   ],
   "note": "all schedules of any number of clients, timeouts and shutdown; session ids from the generator are assumed never to repeat"
  },
  {
   "property": "C28",
   "status": "partial",
   "theorems": [
    "Willow.Props.C28_success_needs_session",
    "Willow.Props.C28_release_success_is_real",
    "Willow.Props.C28_old_sessions_refused",
    "Willow.Props.C28_refused_heartbeat",
    "Willow.Props.C28_refused_heartbeat_only",
    "Willow.Props.C28_refused_release",
    "Willow.Props.C28_heartbeat_status",
    "Willow.Props.C28_violated_release_status"
   ],
   "note": "the service refuses and changes nothing (proved); but the release handler drops the conflict and answers 204 (proved), so the refusal part is false of the code for releases"
  },
  {
   "property": "C29",
   "status": "proved",
   "theorems": [
    "Willow.Props.C29_count_exact",
    "Willow.Props.C29_never_underflows",
    "Willow.Props.C29_lost_client_no_panic"
   ],
   "note": ""
  },
  {
   "property": "C30",
   "status": "partial",
   "theorems": [
    "Willow.Props.C30_removed_iff_unused",
    "Willow.Props.C30_no_unused_lock",
    "Willow.Props.C30_waiting_client_can_claim_partial",
    "Willow.Props.C30_violated_stale_release_blocks_for_ever"
   ],
   "note": "removal exactness proved; 'a waiting client can always claim' proved as: some continuation grants it (fair scheduling is not modelled); a stale second release can block the key-values for ever once the last waiting client is disconnecting (witness proved)"
  },
  {
   "property": "C31",
   "status": "proved",
   "theorems": [
    "Willow.Props.C31_expiry_ends_session",
    "Willow.Props.C31_no_grant_before_timeout_done",
    "Willow.Props.C31_timeout_frees",
    "Willow.Props.C31_timeout_can_finish",
    "Willow.Props.C31_live_session_has_ticker"
   ],
   "note": "the clock is a nondeterministic event; 'is freed' = the timeout can always be processed from every reachable state of a running service"
  },
  {
   "property": "C32",
   "status": "partial",
   "theorems": [
    "Willow.Props.C32_positive_timeouts_no_crash_partial",
    "Willow.Props.C32_crash_needs_bad_timeout",
    "Willow.Props.C32_violated_negative_timeout"
   ],
   "note": "false of the code: negative timeouts pass validation and crash the service (proved); no crash with positive timeouts (proved)"
  },
  {
   "property": "C33",
   "status": "proved",
   "theorems": [
    "Willow.Props.C33_ends_once",
    "Willow.Props.C33_nothing_after_end",
    "Willow.Props.C33_blocked_calls_return",
    "Willow.Props.C33_stop_can_return"
   ],
   "note": "calls made from inside the heartbeater's own callback are not modelled"
  },
  {
   "property": "C34",
   "status": "proved",
   "theorems": [
    "Willow.Props.C34_timeout_after_start"
   ],
   "note": ""
  },
  {
   "property": "C35",
   "status": "proved",
   "theorems": [
    "Willow.Props.C35_limit_never_exceeded",
    "Willow.Props.C35_override_limit_never_exceeded"
   ],
   "note": "for histories whose increments sum to less than 2^63 (beyond that int64 wraps around, see C39); one request at a time here, interleavings in C41"
  },
  {
   "property": "C36",
   "status": "partial",
   "theorems": [
    "Willow.Props.C36_violated_increment_past_limit",
    "Willow.Props.C36_total_bounded_partial"
   ],
   "note": "false of the code: one increment larger than 1 can pass the limit (witness proved); the bound that does hold, limit - 1 + largest increment, is proved"
  },
  {
   "property": "C37",
   "status": "partial",
   "theorems": [
    "Willow.Props.C37_refines",
    "Willow.Props.C37_no_crash",
    "Willow.Props.C37_unlimited_accepts",
    "Willow.Props.C37_no_rule_accepts",
    "Willow.Props.C37_zero_rejects_partial",
    "Willow.Props.C37_violated_zero_after_overflow"
   ],
   "note": "-1 never rejects proved for all histories; 0 always rejects proved while no counter overflows, and false of the code after an int64 overflow (witness proved)"
  },
  {
   "property": "C38",
   "status": "proved",
   "theorems": [
    "Willow.Props.C38_increment_decision",
    "Willow.Props.C38_own_limit_irrelevant",
    "Willow.Props.C38_limits_consulted"
   ],
   "note": ""
  },
  {
   "property": "C39",
   "status": "partial",
   "theorems": [
    "Willow.Props.C39_counters_positive_partial",
    "Willow.Props.C39_counter_updates_partial",
    "Willow.Props.C39_violated_overflow"
   ],
   "note": "proved while the sum of the increments is below 2^63; false of the code after an int64 overflow (witness proved)"
  },
  {
   "property": "C40",
   "status": "proved",
   "theorems": [
    "Willow.Props.C40_unique",
    "Willow.Props.C40_no_override_without_rule",
    "Willow.Props.C40_rule_requests",
    "Willow.Props.C40_duplicates_refused",
    "Willow.Props.C40_delete_rule"
   ],
   "note": "one request at a time"
  },
  {
   "property": "C41",
   "status": "proved",
   "theorems": [
    "Willow.Props.C41_no_overlap",
    "Willow.Props.C41_common_lock",
    "Willow.Props.C41_limited_takes_locks",
    "Willow.Props.C41_total_bounded",
    "Willow.Props.C41_limit_never_exceeded",
    "Willow.Props.C41_override_limit_never_exceeded"
   ],
   "note": "all interleavings of any number of increments with all other requests; locks are exclusive (C27) and their leases are assumed not to expire while held; the sum of amounts is assumed below 2^63"
  },
  {
   "property": "C42",
   "status": "proved",
   "theorems": [
    "Willow.Props.C42_no_deadlock",
    "Willow.Props.C42_global_order",
    "Willow.Props.C42_no_crash"
   ],
   "note": ""
  },
  {
   "property": "C43",
   "status": "proved",
   "theorems": [
    "Willow.Props.C43_front",
    "Willow.Props.C43_order"
   ],
   "note": "model: transition system of one channel (Model/Channel.lean); C43_order: of two items that never failed, the one enqueued first is handed out first or was dropped in favour of another item"
  },
  {
   "property": "C44",
   "status": "proved",
   "theorems": [
    "Willow.Props.C44_one_place",
    "Willow.Props.C44_handed_to_one",
    "Willow.Props.C44_reasons"
   ],
   "note": "conservation law for every id in every reachable state; until the channel is deleted by force"
  },
  {
   "property": "C45",
   "status": "proved",
   "theorems": [
    "Willow.Props.C45_update",
    "Willow.Props.C45_append"
   ],
   "note": ""
  },
  {
   "property": "C46",
   "status": "proved",
   "theorems": [
    "Willow.Props.C46_removes",
    "Willow.Props.C46_not_found"
   ],
   "note": "for ACKs that are answered: an ACK that meets the timeout callback of its item does not return (C60)"
  },
  {
   "property": "C47",
   "status": "proved",
   "theorems": [
    "Willow.Props.C47_at_most",
    "Willow.Props.C47_removed",
    "Willow.Props.C47_not_before"
   ],
   "note": ""
  },
  {
   "property": "C48",
   "status": "proved",
   "theorems": [
    "Willow.Props.C48_position",
    "Willow.Props.C48_when"
   ],
   "note": ""
  },
  {
   "property": "C49",
   "status": "partial",
   "theorems": [
    "Willow.Props.C49_exact",
    "Willow.Props.C49_partial",
    "Willow.Props.C49_after_delete",
    "Willow.Props.C49_violated"
   ],
   "note": "the English claim is false of the code: items dropped by a failing item are never subtracted (C49_violated: an empty channel can be counted as n items, for every n); C49_exact is the exact value"
  },
  {
   "property": "C50",
   "status": "partial",
   "theorems": [
    "Willow.Props.C50_partial",
    "Willow.Props.C50_violated_stale_ack",
    "Willow.Props.C50_violated_delete"
   ],
   "note": "the English claim is false of the code in two histories; C50_partial: it holds in all others"
  },
  {
   "property": "C51",
   "status": "proved",
   "theorems": [
    "Willow.Props.C51_never_empty",
    "Willow.Props.C51_no_crash",
    "Willow.Props.C51_notifications"
   ],
   "note": "outside of forced deletions (C61)"
  },
  {
   "property": "C52",
   "status": "proved",
   "theorems": [
    "Willow.Props.C52_only_empty",
    "Willow.Props.C52_refuses"
   ],
   "note": ""
  },
  {
   "property": "C53",
   "status": "partial",
   "theorems": [
    "Willow.Props.C53_partial",
    "Willow.Props.C53_lowered_partial",
    "Willow.Props.C53_violated"
   ],
   "note": "the English claim is false of the code: an item whose key 'queue_name' names another queue is counted there; C53_partial: it holds if no item has one of the keys 'queue_name', 'enqueued', '_willow_enqueued' and nobody else changes willow's counters"
  },
  {
   "property": "C54",
   "status": "partial",
   "theorems": [
    "Willow.Props.C54_partial",
    "Willow.Props.C54_violated"
   ],
   "note": "the English claim is false of the code: a failed ACK of a waiting item is answered with success; C54_partial: it changes nothing in that case"
  },
  {
   "property": "C55",
   "status": "partial",
   "theorems": [
    "Willow.Props.C55_reading_partial",
    "Willow.Props.C55_violated_all_stall",
    "Willow.Props.C55_violated"
   ],
   "note": "the English claim is false of the code (C55_violated: consumer, create, enqueue; C55_violated_all_stall: every continuation is stuck until the consumer's client gives up); C55_reading_partial: it holds while no queue is created or deleted"
  },
  {
   "property": "C56",
   "status": "partial",
   "theorems": [
    "Willow.Props.C56_map_partial",
    "Willow.Props.C56_violated_failed_create_loses_queue",
    "Willow.Props.C56_violated_failed_update_reported",
    "Willow.Props.C56_violated_extra_override_panics",
    "Willow.Props.C56_violated_limiter_down_panics"
   ],
   "note": "the English claim is false of the code: a failed create can remove another queue; C56_map_partial: all histories in which creates fail only when at most one queue has a greater name, updates do not fail and the limiter answers queries"
  },
  {
   "property": "C57",
   "status": "partial",
   "theorems": [
    "Willow.Props.C57_answers_partial",
    "Willow.Props.C57_create_crashes_iff",
    "Willow.Props.C57_channel_delete_crashes_iff",
    "Willow.Props.C57_dequeue_crashes_iff",
    "Willow.Props.C57_heartbeater_crash_iff",
    "Willow.Props.C57_violated_no_properties",
    "Willow.Props.C57_violated_timeout",
    "Willow.Props.C57_violated_empty_subquery",
    "Willow.Props.C57_violated_empty_delete",
    "Willow.Props.C57_violated_limiter_down"
   ],
   "note": "the English claim is false of the code (five kinds of crashes, each shown); C57_answers_partial: every history without them is answered; the _iff theorems give the exact conditions for creates, channel deletes and dequeues"
  },
  {
   "property": "C58",
   "status": "partial",
   "theorems": [
    "Willow.Props.C58_bounded_overlap_partial",
    "Willow.Props.C58_violated_blocked_heartbeat",
    "Willow.Props.C58_violated_late_grant",
    "Willow.Props.C58_violated_old_tick"
   ],
   "note": "the English claim is false of the code: a heartbeat request without a timeout blocks the client's own timer, a late grant is believed for a whole timeout, and a heartbeat answered 200 while the server's tick is buffered does not keep the lock; C58_bounded_overlap_partial: with bounded delays the overlap is at most their sum"
  },
  {
   "property": "C59",
   "status": "partial",
   "theorems": [
    "Willow.Props.C59_timeout_needs_full_period_partial",
    "Willow.Props.C59_violated_heartbeat_then_timeout"
   ],
   "note": "false of the code: a heartbeat processed while a tick already waits in the ticker channel does not prevent the timeout (Go 1.22 Reset does not drain); proved for heartbeats processed before the tick"
  },
  {
   "property": "C60",
   "status": "partial",
   "theorems": [
    "Willow.Props.C60_partial",
    "Willow.Props.C60_only_deadlocks_partial",
    "Willow.Props.C60_violated_meets_timeout",
    "Willow.Props.C60_violated_ack_never_answered",
    "Willow.Props.C60_violated_failed_and_heartbeat",
    "Willow.Props.C60_violated_early_heartbeat"
   ],
   "note": "the English claim is false of the code: an ack or heartbeat that meets a firing timeout, and a heartbeat before the success callback, block for ever; C60_partial: in all other situations every call is answered"
  },
  {
   "property": "C61",
   "status": "partial",
   "theorems": [
    "Willow.Props.C61_partial",
    "Willow.Props.C61_violated"
   ],
   "note": "the English claim is false of the code; C61_partial: only while the items of a forcibly deleted channel are being destroyed"
  },
  {
   "property": "C62",
   "status": "partial",
   "theorems": [
    "Willow.Props.C62_partial",
    "Willow.Props.C62_violated"
   ],
   "note": "the English claim is false of the code: an update keeps the old timeout"
  },
  {
   "property": "C63",
   "status": "proved",
   "theorems": [
    "Willow.Props.C63_heartbeat"
   ],
   "note": "for heartbeats that return (C60: some do not)"
  },
  {
   "property": "C64",
   "status": "proved",
   "theorems": [
    "Willow.Props.C64_no_lost_increment"
   ],
   "note": "for amounts that do not overflow int64 (C39)"
  },
  {
   "property": "C66",
   "status": "partial",
   "theorems": [
    "Willow.Props.C66_partial",
    "Willow.Props.C66_rule_partial",
    "Willow.Props.C66_override_partial",
    "Willow.Props.C66_violated_stale_ack",
    "Willow.Props.C66_violated_delete"
   ],
   "note": "the English claim is false of the code (stale ack followed by a failed delivery; failed delivery of a deleted and recreated channel); C66_partial: it holds in all other histories without colliding keys"
  },
  {
   "property": "C67",
   "status": "partial",
   "theorems": [
    "Willow.Props.C67_start_partial",
    "Willow.Props.C67_violated_restart"
   ],
   "note": "the English claim is false of the code: the second start always ends in logger.Fatal because the rule exists (C67_violated_restart); C67_start_partial: it starts on every limiter that does not have the rule"
  },
  {
   "property": "C68",
   "status": "partial",
   "theorems": [
    "Willow.Props.C68_offered_partial",
    "Willow.Props.C68_violated_empty_query"
   ],
   "note": "the English claim is false of the code for the empty query (C68_violated_empty_query: a channel announced before the client registers and inserted after it looked is never offered); C68_offered_partial: it holds for every valid non-empty query without ids and without empty sub-queries"
  },
  {
   "property": "C69",
   "status": "partial",
   "theorems": [
    "Willow.Props.C69_only_wanted_partial",
    "Willow.Props.C69_violated_not_equals",
    "Willow.Props.C69_violated_only_ors"
   ],
   "note": "the English claim is false of the code (a channel created between the searches of a != query; queries of Ors only); C69_only_wanted_partial: it holds for all other queries, except type restrictions the tree search ignores (C20)"
  },
  {
   "property": "C70",
   "status": "partial",
   "theorems": [
    "Willow.Props.C70_error_changes_nothing_partial",
    "Willow.Props.C70_violated_rejected_delete",
    "Willow.Props.C70_violated_failed_queue_delete"
   ],
   "note": "the English claim is false of the code: a rejected delete of a channel deletes it, and a failed delete of a queue destroys its items (and C56: failed creates and updates); C70_error_changes_nothing_partial: all other requests"
  },
  {
   "property": "C71",
   "status": "proved",
   "theorems": [
    "Willow.Props.C71_heartbeats_keep_the_lock",
    "Willow.Props.C71_bound_is_needed",
    "Willow.Props.C71_violated_tiny_timeout"
   ],
   "note": "the bound is exact (C71_bound_is_needed); timeouts below 3 ns make the client panic (C71_violated_tiny_timeout)"
  },
  {
   "property": "C72",
   "status": "partial",
   "theorems": [
    "Willow.Props.C72_no_overlap_partial",
    "Willow.Props.C72_bounded_overlap_partial",
    "Willow.Props.C72_violated_rounding",
    "Willow.Props.C72_violated_late_answer",
    "Willow.Props.C72_violated_foreign_ack",
    "Willow.Props.C72_with_header_fifth",
    "Willow.Props.C72_with_header_shared_heartbeats"
   ],
   "note": "the English claim is false of the code: late answers to dequeues, timeouts for which (T - T/10) is no multiple of 3, and late ACKs give two consumers the item; C72_no_overlap_partial: it holds for the other timeouts with delays below a tenth of the timeout and without late ACKs; C72_bounded_overlap_partial: for all timeouts the overlap is below a fifth of the timeout and the delays; C72_with_header_*: what stays wrong if the missing Content-Type header of heartbeats (C78) is added"
  },
  {
   "property": "C73",
   "status": "partial",
   "theorems": [
    "Willow.Props.C73_no_crash_partial",
    "Willow.Props.C73_violated_ack_during_heartbeat",
    "Willow.Props.C73_violated_tiny_timeout"
   ],
   "note": "the English claim is false of the code: a heartbeat that fails after ACK dereferences a nil response; C73_no_crash_partial: it holds if ACK is not called during a heartbeat request and the timeout is at least 3 ns"
  },
  {
   "property": "C74",
   "status": "partial",
   "theorems": [
    "Willow.Props.C74_reports_are_true",
    "Willow.Props.C74_none_left_out",
    "Willow.Props.C74_no_duplicates",
    "Willow.Props.C74_answered_iff_all_held_partial",
    "Willow.Props.C74_violated_free_lock_fails_query",
    "Willow.Props.C74_violated_release_after_visit"
   ],
   "note": "the English claim is false of the code: one selected lock that nobody holds at the moment makes the whole query fail with 500, and so does a lock released between its visit and the end of the query; what is reported is true, complete and without duplicates, and the query succeeds exactly when every selected lock is held"
  },
  {
   "property": "C75",
   "status": "partial",
   "theorems": [
    "Willow.Props.C75_query_rules_partial",
    "Willow.Props.C75_match_rules_partial",
    "Willow.Props.C75_query_overrides_partial",
    "Willow.Props.C75_match_overrides_partial",
    "Willow.Props.C75_missing_rule",
    "Willow.Props.C75_violated_reads_crash"
   ],
   "note": "exact for every history and all queries and matches outside the counterexamples of C20 and C22; some valid queries crash the request (C75_violated_reads_crash)"
  },
  {
   "property": "C76",
   "status": "partial",
   "theorems": [
    "Willow.Props.C76_reaches_its_queue_iff",
    "Willow.Props.C76_create_iff",
    "Willow.Props.C76_list",
    "Willow.Props.C76_violated_heartbeat",
    "Willow.Props.C76_violated_fragment",
    "Willow.Props.C76_violated_deletes_other",
    "Willow.Props.C76_violated_percent",
    "Willow.Props.C76_violated_slash",
    "Willow.Props.C76_violated_delete_ends_service",
    "Willow.Props.C76_violated_get_consumes",
    "Willow.Props.C76_violated_not_utf8"
   ],
   "note": "the English claim is false of the code: names are put into URLs as they are; C76_reaches_its_queue_iff and C76_create_iff give the exact condition on the name"
  },
  {
   "property": "C77",
   "status": "partial",
   "theorems": [
    "Willow.Props.C77_results_partial",
    "Willow.Props.C77_violated_failed_delete",
    "Willow.Props.C77_violated_names"
   ],
   "note": "the English claim is false of the code for names with special bytes (C76) and for DeleteQueue while the limiter cannot be reached; C77_results_partial: all other calls after every history outside the crashes of C56 and C57; requests one after the other"
  },
  {
   "property": "C78",
   "status": "partial",
   "theorems": [
    "Willow.Props.C78_violated_never_answered_200",
    "Willow.Props.C78_violated_never_renewed",
    "Willow.Props.C78_violated_gives_up",
    "Willow.Props.C78_violated_run",
    "Willow.Props.C78_first_timeout_partial"
   ],
   "note": "the English claim is false of the code: the item client sends heartbeats without a Content-Type header and the service answers 400 to all of them, so no delivery is ever renewed and every consumer gives up; C78_first_timeout_partial: before its timeout has passed the item is not taken away"
  },
  {
   "property": "C79",
   "status": "partial",
   "theorems": [
    "Willow.Props.C79_effect_partial",
    "Willow.Props.C79_isolation_partial",
    "Willow.Props.C79_history_partial",
    "Willow.Props.C79_conservation_partial"
   ],
   "note": "for all histories outside the crashes and damages of C56 and C57; requests one after the other; what dequeue queries select is exact outside the counterexamples of C20"
  },
  {
   "property": "C80",
   "status": "proved",
   "theorems": [
    "Willow.Props.C80_linearizable",
    "Willow.Props.C80_one_creator"
   ],
   "note": "Create, CreateOrFind, exact Find and Delete; onCreate returns a value (C08 otherwise)"
  },
  {
   "property": "C81",
   "status": "proved",
   "theorems": [
    "Willow.Props.C81_no_deadlock",
    "Willow.Props.C81_no_endless_run",
    "Willow.Props.C81_can_finish"
   ],
   "note": "Create, CreateOrFind, exact Find and Delete; callbacks return"
  },
  {
   "property": "C82",
   "status": "partial",
   "theorems": [
    "Willow.Props.C82_malformed",
    "Willow.Props.C82_answers_partial",
    "Willow.Props.C82_history_partial",
    "Willow.Props.C82_violated_reads_panic",
    "Willow.Props.C82_violated_delete_stalls"
   ],
   "note": "C82_malformed for all bodies; C82_answers_partial and C82_history_partial: all histories and all requests outside the counterexamples of C20 and C22, with amounts below 2^63 in total; the English claim is false for the others: some valid reads panic, and if they read overrides the rule can never be deleted again"
  },
  {
   "property": "C83",
   "status": "partial",
   "theorems": [
    "Willow.Props.C83_rejected",
    "Willow.Props.C83_not_delivered",
    "Willow.Props.C83_does_what_is_delivered",
    "Willow.Props.C83_reaches_iff",
    "Willow.Props.C83_results_partial",
    "Willow.Props.C83_violated_slash",
    "Willow.Props.C83_violated_fragment",
    "Willow.Props.C83_violated_reserved",
    "Willow.Props.C83_violated_wrong_list",
    "Willow.Props.C83_violated_not_utf8",
    "Willow.Props.C83_violated_missing_unexplained"
   ],
   "note": "the English claim is false of the code for names with special bytes, for keys that are not UTF-8, and for the 404 of DeleteRule, QueryOverrides and MatchOverrides; C83_reaches_iff gives the exact condition on names, keys and queries; C83_results_partial: all other calls after every history, outside the counterexamples of C20 and C22; calls one after the other"
  },
  {
   "property": "C84",
   "status": "partial",
   "theorems": [
    "Willow.Props.C84_violated_limit_exceeded",
    "Willow.Props.C84_total_bounded",
    "Willow.Props.C84_override_total_bounded",
    "Willow.Props.C84_excess_counted",
    "Willow.Props.C84_limit_kept_partial",
    "Willow.Props.C84_no_overlap",
    "Willow.Props.C84_locks_exclusive",
    "Willow.Props.C84_no_deadlock",
    "Willow.Props.C84_no_lost_increment"
   ],
   "note": "the English claim is false of the code: locks are looked at once, before the limits are checked, so an increment whose lock is lost after that overlaps with others and the limit is exceeded; C84_total_bounded and C84_excess_counted: by at most the amounts of the accepted increments that lost a lock (reached by the example); C84_limit_kept_partial: not at all if no accepted increment lost one; the rest holds for all runs"
  },
  {
   "property": "C85",
   "status": "partial",
   "theorems": [
    "Willow.Props.C85_settings_partial",
    "Willow.Props.C85_bad_value_refused",
    "Willow.Props.C85_unknown_flag_refused",
    "Willow.Props.C85_bad_timeout_refused",
    "Willow.Props.C85_checked_partial",
    "Willow.Props.C85_violated_documented_variable",
    "Willow.Props.C85_violated_switch",
    "Willow.Props.C85_violated_port",
    "Willow.Props.C85_client_iff",
    "Willow.Props.C85_client_certificate_partial",
    "Willow.Props.C85_violated_client_certificate"
   ],
   "note": "the English claim is false of the code: four documented environment variables are not the ones that are read, switches cannot be switched off by their variable, negative ports (willow: any port) are accepted, and a client certificate without a CA is never used; C85_settings_partial: all other settings, for all command lines and environments"
  },
  {
   "property": "C86",
   "status": "partial",
   "theorems": [
    "Willow.Props.C86_linearizable",
    "Willow.Props.C86_created_once",
    "Willow.Props.C86_ids_differ",
    "Willow.Props.C86_find_after_create",
    "Willow.Props.C86_removed_once",
    "Willow.Props.C86_deleted_not_found",
    "Willow.Props.C86_found_was_created",
    "Willow.Props.C86_answers",
    "Willow.Props.C86_violated_failed_create"
   ],
   "note": "proved for all interleavings of calls whose onCreate returns an item; the English claim is false if an onCreate can return nil (as in the lock client): another CreateOrFind for the same key-values can then return an id without having created or found anything"
  },
  {
   "property": "C87",
   "status": "partial",
   "theorems": [
    "Willow.Props.C87_finite",
    "Willow.Props.C87_no_deadlock",
    "Willow.Props.C87_no_deadlock_destroy",
    "Willow.Props.C87_violated_create_destroy",
    "Willow.Props.C87_violated_lock_leak"
   ],
   "note": "the English claim is false of the code: a create and a DestroyByAssociatedID of an item that shares a pair with the new one wait for each other for ever (the limiter: deleting a rule while creating another), and a Delete that meets a destruction returns with locks held; C87_no_deadlock: all interleavings without destructions; C87_finite: no run goes on for ever"
  },
  {
   "property": "C88",
   "status": "partial",
   "theorems": [
    "Willow.Props.C88_guarded",
    "Willow.Props.C88_one_deletion",
    "Willow.Props.C88_deleted_is_empty",
    "Willow.Props.C88_appears",
    "Willow.Props.C88_disappears",
    "Willow.Props.C88_refused",
    "Willow.Props.C88_items_change",
    "Willow.Props.C88_enqueue_counts",
    "Willow.Props.C88_crash_only_by_stragglers",
    "Willow.Props.C88_no_delete_partial",
    "Willow.Props.C88_violated_scan",
    "Willow.Props.C88_violated_timeout"
   ],
   "note": "the English claim is false of the code: the goroutine a dequeue leaves behind panics, and the timeout of a delivered item calls logger.Fatal, if they run while the queue is being deleted; C88_crash_only_by_stragglers: nothing else ends the service"
  },
  {
   "property": "C89",
   "status": "partial",
   "theorems": [
    "Willow.Props.C89_right_lock",
    "Willow.Props.C89_always_lock",
    "Willow.Props.C89_exclusive_clients",
    "Willow.Props.C89_shared_object",
    "Willow.Props.C89_release_frees",
    "Willow.Props.C89_not_released_before",
    "Willow.Props.C89_held_was_obtained",
    "Willow.Props.C89_finite",
    "Willow.Props.C89_waits_partial",
    "Willow.Props.C89_one_at_a_time",
    "Willow.Props.C89_violated_shared",
    "Willow.Props.C89_violated_deadlock",
    "Willow.Props.C89_violated_free_lock",
    "Willow.Props.C89_violated_nothing"
   ],
   "note": "the English claim is false of the code: goroutines of one client that obtain the same lock share one lock object, so that one of them can free the lock the other holds; an ObtainLock that waits locks its pairs in the tree of the client, so that other ObtainLocks and Releases with a common pair wait with it, up to a deadlock of two clients in which no Release ever returns; after a cancelled ObtainLock another one can return nothing at all. C89_one_at_a_time: no such thing happens if no client releases while one of its goroutines waits. Leases are kept (C58, C84)"
  },
  {
   "property": "C90",
   "status": "partial",
   "theorems": [
    "Willow.Props.C90_reported_matches",
    "Willow.Props.C90_reported_once",
    "Willow.Props.C90_stops",
    "Willow.Props.C90_returned",
    "Willow.Props.C90_complete_partial",
    "Willow.Props.C90_complete_without_removals",
    "Willow.Props.C90_violated_stable_item_missed"
   ],
   "note": "the English claim is false of the code: a match that comes across an item that is being destroyed (or is gone meanwhile) ends at once and silently, so that matching items that are there all the time are not reported; C90_complete_partial: only then; C90_complete_without_removals: never if nothing is removed meanwhile; queries without bounds on the number of key-values"
  },
  {
   "property": "C91",
   "status": "partial",
   "theorems": [
    "Willow.Props.C91_effect",
    "Willow.Props.C91_refused",
    "Willow.Props.C91_deleted",
    "Willow.Props.C91_no_orphans",
    "Willow.Props.C91_no_false_refusal",
    "Willow.Props.C91_limits_kept_partial",
    "Willow.Props.C91_answered",
    "Willow.Props.C91_violated_limit_ignored"
   ],
   "note": "the English claim is false of the code: while a rule is being deleted, an increment of a counter it applies to can ignore all other rules, because the match ends there (C90), and exceed their limits; C91_limits_kept_partial: not if no rule being deleted applies; the rest for all histories of valid requests whose amounts together are an int64; each request is one step, a deletion three"
  },
  {
   "property": "C92",
   "status": "partial",
   "theorems": [
    "Willow.Props.C92_exact",
    "Willow.Props.C92_goes_on",
    "Willow.Props.C92_ends",
    "Willow.Props.C92_completes",
    "Willow.Props.C92_offers",
    "Willow.Props.C92_sleeps_only_at_limit",
    "Willow.Props.C92_waits_partial",
    "Willow.Props.C92_crashes_only",
    "Willow.Props.C92_channels",
    "Willow.Props.C92_violated_busy",
    "Willow.Props.C92_violated_crash",
    "Willow.Props.C92_violated_unreachable"
   ],
   "note": "the English claim is false of the code: a reached limit whose rule or override has a wildcard is not noticed, so that the channel offers the item again and again without a pause; a rule that is deleted between two calls of the check, or an answer that is lost, ends the whole willow service by a panic; C92_waits_partial: it waits for limits without wildcards; C92_crashes_only: nothing else ends the service; overflow of counters (C39) and panicking reads (C82) are excluded"
  },
  {
   "property": "C93",
   "status": "partial",
   "theorems": [
    "Willow.Props.C93_stops_working",
    "Willow.Props.C93_ended_or_hangs",
    "Willow.Props.C93_stop_completes_partial",
    "Willow.Props.C93_violated_refused_lock",
    "Willow.Props.C93_violated_timeout_blocks_stop",
    "Willow.Props.C93_violated_stale_release"
   ],
   "note": "the English claim is false of the code: a lock asked for after the stop is saved without being started, so that the next request for it, and every disconnect, hangs for ever; a heartbeat, release or disconnect next to a pending timeout makes lock, timeout and request wait for each other; C93_ended_or_hangs: these and the stale release of C30 are the only ways it hangs; C93_stop_completes_partial: it ends in every schedule if there are only waiting clients, held locks and timeouts"
  },
  {
   "property": "C94",
   "status": "partial",
   "theorems": [
    "Willow.Props.C94_bounded",
    "Willow.Props.C94_ended_or_hangs",
    "Willow.Props.C94_stop_completes_partial",
    "Willow.Props.C94_deleted_completes_partial",
    "Willow.Props.C94_violated_hangs",
    "Willow.Props.C94_violated_call_meets_timeout",
    "Willow.Props.C94_violated_early_heartbeat",
    "Willow.Props.C94_unwatched"
   ],
   "note": "the English claim is false of the code: an ACK, a heartbeat or a forced delete that comes when the timeout of the item has fired but is not processed yet, or a heartbeat before the delivery is completed, keeps Execute and the manager of the heartbeats from returning for ever; C94_ended_or_hangs: there are no other ways to hang; C94_stop_completes_partial and C94_deleted_completes_partial: otherwise the channel comes to its end; work is bounded but for repeated refusals of the limiter (C94_bounded)"
  },
  {
   "property": "C95",
   "status": "partial",
   "theorems": [
    "Willow.Props.C95_reported",
    "Willow.Props.C95_stable",
    "Willow.Props.C95_once",
    "Willow.Props.C95_stops",
    "Willow.Props.C95_no_panic",
    "Willow.Props.C95_returned",
    "Willow.Props.C95_violated_not_equals",
    "Willow.Props.C95_violated_empty_query_destroying"
   ],
   "note": "the English claim is false of the code: a query with != searches for the equal ones first and for everything after that, so that an item created in between is reported although it has the excluded value; the empty query reports items whose destruction has begun; C95_reported: all valid queries without != (outside of the deviations of C20); C95_stable: all valid queries, also with !=, for items that are there during the whole query; the walk through one ordered tree visits what is there all the time, in any order"
  },
  {
   "property": "C96",
   "status": "partial",
   "theorems": [
    "Willow.Props.C96_bounded",
    "Willow.Props.C96_served_or_stale",
    "Willow.Props.C96_all_served_partial",
    "Willow.Props.C96_nobody_turned_away",
    "Willow.Props.C96_violated_stale"
   ],
   "note": "the English claim is false of the code: a late release or heartbeat of a lock nobody holds hangs together with a client that goes away at that time, and then nobody ever gets the lock again (C30); C96_served_or_stale: this is the only way; C96_all_served_partial: every waiting client is granted the lock in every schedule if no client goes away; no new requests arrive meanwhile (a client that keeps heartbeating keeps its lock, C71)"
  },
  {
   "property": "C97",
   "status": "partial",
   "theorems": [
    "Willow.Props.C97_bounded",
    "Willow.Props.C97_rest_empty",
    "Willow.Props.C97_all_delivered",
    "Willow.Props.C97_violated_limited"
   ],
   "note": "in a schedule without new enqueues, refusals of the limiter and deletions, in which every delivery reaches its consumer, every item that waited is handed out or superseded, and the channel ends empty; C97_violated_limited: over its limit the channel goes on for ever without handing anything out; missing: an ACK or heartbeat that meets a timeout that fires hangs with it (C60) and is no step of this model"
  },
  {
   "property": "C98",
   "status": "proved",
   "theorems": [
    "Willow.Props.C98_no_starvation"
   ],
   "note": "until the item is handed out or superseded, and as long as the channel is not deleted; the example reaches the bound"
  },
  {
   "property": "C99",
   "status": "proved",
   "theorems": [
    "Willow.Props.C99_stable",
    "Willow.Props.C99_absent",
    "Willow.Props.C99_in_range",
    "Willow.Props.C99_created_meanwhile",
    "Willow.Props.C99_deleted_meanwhile"
   ],
   "note": "one descent from the root (the additional exact look-up of the key Any is a Find, C80); what a search does when its callback asks for no more: C16"
  }
 ]
}