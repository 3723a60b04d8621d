#!/usr/bin/env python3
"""Writes properties.jsonl.  P(id, title, statement, quantifier, why_tests_cant, anchors)"""
import json, os
out = []
def P(id, title, statement, quantifier, why, anchors):
    out.append(dict(id=id, title=title, statement=statement, quantifier=quantifier, why_tests_cant=why, anchors=anchors))

DT="pkg/models/datatypes/"; BT="internal/datastructures/btree/"; AS="internal/datastructures/btree_associated/"
OM="internal/datastructures/btree_one_to_many/"; LM="internal/locker/lock_manager/"; LI="internal/limiter/"; WI="internal/willow/brokers/"
QA="pkg/models/api/common/v1/query_associated_action/"; MA="pkg/models/api/common/v1/query_match_action/"

P("C01","Key comparison is a strict total order on non-NaN values",
 "Comparing two valid key values with the strict (type-matching) comparison is irreflexive, asymmetric, transitive and total: two values are either ordered one way or the other, or have the same type and equal payloads. Values of different types are ordered by type, and 'any' is the greatest.",
 "all triples of valid key values of every type and payload, floats other than NaN included",
 "the value space (64-bit integers, floats, arbitrary strings) is infinite and the law needs triples",
 [DT+"encapsulated_value.go:LessMatchType",DT+"encapsulated_value.go:lessValueMatchTyoe",DT+"datatypes.go:LessMatchType"])
P("C02","Every value the API accepts can be used as an ordered key",
 "For every value that passes validation the strict comparison is a consistent order, so an item stored under one value is never confused with an item stored under a different value.",
 "all values accepted by Validate, NaN payloads included",
 "a test suite has no reason to try NaN against every other payload; the claim is about all pairs",
 [DT+"encapsulated_value.go:ValidateTypeAndData",DT+"encapsulated_value.go:StringDecoding",DT+"encapsulated_value.go:lessValueMatchTyoe"])
P("C03","JSON encode/decode of a key value is the identity",
 "Writing any value that passes validation to JSON succeeds, and reading it back gives the same type and payload, for every width of integers, for float32 and float64 bit for bit (a NaN stays a NaN), for strings and for any.",
 "all values of the ten integer types, the two float types, all strings and any",
 "each of the widths has up to 2^64 payloads and boundary behaviour at both ends; the shortest decimal form of a float must round back to it",
 [DT+"encapsulated_value.go:StringEncoding",DT+"encapsulated_value.go:StringDecoding",DT+"encapsulated_value.go:MarshalJSON",DT+"encapsulated_value.go:UnmarshalJSON"])
P("C04","Value validation accepts exactly well-typed values in the allowed range",
 "A value is accepted iff its type code is known, its data has exactly the kind the type names (nil for any) and the type code lies in the allowed inclusive range; an accepted value can always be compared without a crash.",
 "all type codes (any integer), all dynamic data kinds, all allowed ranges",
 "type codes are arbitrary integers coming from clients and data is dynamically typed",
 [DT+"encapsulated_value.go:ValidateTypeAndData",DT+"datatypes.go:GeneralDataTypes"])
P("C05","Decoding never yields an out-of-range or wrapped number",
 "If decoding the data string of a request succeeds, the decoded payload is the number written in the string (for floats: the nearest one, a number too large is refused), it lies in the range of the declared type, and the decoded value passes validation.",
 "all strings and all type codes",
 "the set of strings is infinite; wrap-around appears only at rarely tested boundaries",
 [DT+"encapsulated_value.go:StringDecoding",DT+"encapsulated_value.go:ValidateTypeAndData"])
P("C06","The ordered tree behaves as a map for every operation history",
 "Starting from an empty tree of any node size of at least two, any sequence of Create, CreateOrFind, Find and Delete calls (whose create callbacks succeed) returns the same results and leaves the same contents as a plain map from keys to values: Create fails with 'already exists' iff the key is present, Find sees exactly the value stored, Delete removes exactly the key.",
 "all node sizes >= 2, all operation histories, all keys (no NaN) and values",
 "splits, rotations and merges depend on the whole history; tests sample a few shapes",
 [BT+"threadsafe_create.go:create",BT+"threadsafe_create.go:splitNode",BT+"threadsafe_delete.go:remove",BT+"threadsafe_delete.go:rebalance",BT+"threadsafe_find.go:findMatchType"])
P("C07","The tree stays balanced and its nodes stay within bounds",
 "After any history every leaf of the tree is at the same depth, every non-root node holds between nodeSize/2 and nodeSize values, an inner node has exactly one more child than values, and the in-order sequence of keys is strictly increasing; no operation indexes outside a node.",
 "all node sizes >= 2 and all operation histories",
 "the invariant is about every reachable shape",
 [BT+"threadsafe_create.go:splitLeaf",BT+"threadsafe_create.go:insertNode",BT+"threadsafe_delete.go:mergeDown",BT+"threadsafe_delete.go:rotateLeft",BT+"threadsafe_delete.go:rotateRight",BT+"threadsafe_delete.go:swap"])
P("C08","A create whose callback fails stores nothing and loses nothing",
 "If the create callback returns nil (creation failed), the contents of the tree are exactly what they were before the call.",
 "all trees, all keys",
 "whether neighbours survive depends on where the key would land in its leaf",
 [BT+"threadsafe_create.go:createTreeItem",BT+"threadsafe_create.go:createOrFindTreeItem"])
P("C09","Delete honours the canDelete callback",
 "If canDelete returns false the tree is unchanged; if it returns true or is absent exactly the given key disappears; canDelete is called at most once, only with the stored key and value of the requested key; deleting an absent key changes nothing and never calls it.",
 "all trees, keys and callbacks",
 "the internal-node path deletes a different slot from the one the user named",
 [BT+"threadsafe_delete.go:Delete",BT+"threadsafe_delete.go:removeNodeItem",BT+"threadsafe_delete.go:removeLeafItem"])
P("C10","DestroyAll empties the tree unless a callback refuses",
 "DestroyAll calls the callback once per stored item; if every call returns true the tree is empty afterwards; if a call returns false, exactly the items approved before it are gone and all others remain.",
 "all trees and all callbacks",
 "each deletion rebalances the tree under the iteration",
 [BT+"threadsafe_destroy.go:DestroyAll",BT+"threadsafe_destroy.go:iterateDestroy"])
P("C11","Exact find and the any-wildcard find return exactly the matching items",
 "Find with a concrete key visits the item stored under that key iff the key's type is inside the type restriction, plus the item stored under 'any' iff the restriction's maximum is any; Find with 'any' visits exactly the items whose type is inside the restriction; nothing is visited twice.",
 "all trees, keys and type restrictions",
 "subtrees are skipped by type; every tree shape matters",
 [BT+"threadsafe_find.go:Find",BT+"threadsafe_find.go:findMatchType",BT+"threadsafe_find.go:iterate"])
P("C12","FindNotEqual visits exactly the other keys within the type restriction",
 "FindNotEqual visits every stored item whose type is inside the restriction and whose key differs from the given key, and nothing else.",
 "all trees, keys and type restrictions",
 "subtrees are skipped by type; every tree shape matters",
 [BT+"threadsafe_find.go:FindNotEqual",BT+"threadsafe_find.go:iterate"])
P("C13","FindLessThan and FindLessThanOrEqual visit exactly the smaller keys within the type restriction",
 "FindLessThan (OrEqual) visits exactly the stored items whose key is smaller than (or equal to) the given key and whose type is inside the restriction, plus the 'any' item iff the restriction's maximum is any.",
 "all trees, keys and type restrictions",
 "all combinations of three type codes and tree shapes",
 [BT+"threadsafe_find.go:FindLessThan",BT+"threadsafe_find.go:FindLessThanOrEqual"])
P("C14","FindGreaterThan and FindGreaterThanOrEqual visit exactly the greater keys within the type restriction",
 "FindGreaterThan (OrEqual) visits exactly the stored items whose key is greater than (or equal to) the given key and whose type is inside the restriction.",
 "all trees, keys and type restrictions",
 "all combinations of three type codes and tree shapes",
 [BT+"threadsafe_find.go:FindGreaterThan",BT+"threadsafe_find.go:FindGreaterThanOrEqual"])
P("C15","A traversal stops as soon as the callback says so",
 "For every traversal, if the callback returns false it is not called again in that traversal (the wildcard item included), and the calls made are a prefix of the calls a never-stopping callback would see.",
 "all trees, keys, restrictions and stateful callbacks",
 "callbacks are arbitrary; stopping points are arbitrary",
 [BT+"threadsafe_find.go:iterate",BT+"threadsafe_find.go:findLessThan",BT+"threadsafe_find.go:findGreaterThan"])
P("C16","Every read leaves the tree unlocked",
 "Every call of a find operation releases the tree's lock before returning, whatever the key and type restriction, so later writers are never blocked by a finished read.",
 "all keys and type restrictions accepted by validation",
 "a leaked read lock shows only as a hang of a later writer",
 [BT+"threadsafe_find.go:Find",BT+"threadsafe_find.go:FindLessThan",BT+"threadsafe_find.go:FindGreaterThan"])
P("C17","Empty() tells whether the tree holds no items",
 "Empty returns true iff no item is stored, after every history, histories with failed creates included.",
 "all operation histories",
 "depends on the history, in particular on failed creates",
 [BT+"threadsafe_b_tree.go:Empty",BT+"threadsafe_create.go:Create",BT+"threadsafe_delete.go:delete"])
P("C18","Associated items are unique per key-value set",
 "At any time at most one item is stored for a given set of key-values; Create on an existing set fails and changes nothing; sets that differ in any key, value or size are different items.",
 "all histories of creates and deletes over all key-value sets",
 "uniqueness is decided by intersecting id lists built by the whole history",
 [AS+"threadsafe_create.go:Create",AS+"threadsafe_create.go:CreateOrFind"])
P("C19","The associated tree behaves as a map from key-value sets to items",
 "Any history of Create, CreateOrFind, Delete and delete-by-id gives the same results and the same stored items as a map from key-value sets to values; a failed create or a refused delete leaves the map unchanged.",
 "all histories",
 "index structures (per key, per value, per size) must stay consistent with the items over every history",
 [AS+"threadsafe_create.go:Create",AS+"threadsafe_create.go:CreateOrFind",AS+"threadsafe_delete.go:Delete",AS+"threadsafe_delete.go:DeleteByAssociatedID"])
P("C20","A query returns exactly the items that satisfy it",
 "A query (selection by ids, per-key comparisons with type restrictions, min/max number of key-values, nested And/Or) visits exactly the stored items whose own key-values satisfy the query predicate ((selection and all Ands) or any Or), each at most once.",
 "all trees and all valid queries",
 "the query language is recursive and the index evaluation order matters",
 [AS+"threadsafe_query.go:QueryAction",AS+"threadsafe_query.go:findIDs",QA+"selection.go:MatchKeyValues"])
P("C21","A query evaluated on a new channel agrees with the query evaluated on stored channels",
 "For every query and every key-value set, the predicate used to attach a newly created channel to a waiting consumer gives the same answer as querying a store that contains only this key-value set.",
 "all queries and key-value sets",
 "two independent evaluators of one recursive language",
 [QA+"associated_action_query.go:MatchTags",AS+"threadsafe_query.go:QueryAction",WI+"queue_channels/queue_channels_client_local.go:updateClientsWaiting"])
P("C22","A match visits exactly the stored sets covered by the given key-values",
 "Match visits exactly the stored items all of whose key-values are matched by the request (same key, equal value or 'any' as the type restriction allows) and whose size is inside the requested bounds, each once.",
 "all trees and match requests",
 "implemented by enumerating subsets of keys; exponential space of combinations",
 [AS+"threadsafe_match.go:MatchAction",MA+"match_query.go",  "pkg/datamanipulation/slice_manipulation.go"])
P("C23","Deleting items leaves no dangling index entries",
 "After deleting an item no per-key or per-value index still mentions its id, key and value entries without items are removed, and every id in an index belongs to a stored item having that key and value.",
 "all histories",
 "garbage is invisible to simple lookups until ids collide",
 [AS+"threadsafe_delete.go:Delete",AS+"threadsafe_associated_values.go"])
P("C24","Permutation generation yields every subset in the size bounds exactly once, in order",
 "The generator of tag combinations returns every sub-collection of the given distinct keys whose size lies in the inclusive bounds (-1 meaning unbounded above), each exactly once, ordered by size.",
 "all key lists and bounds",
 "exponentially many outputs",
 ["pkg/datamanipulation/slice_manipulation.go"])
P("C25","One-to-many relations are isolated from each other",
 "An operation on one relation id never changes, visits or deletes items of another relation id.",
 "all histories over all relation ids",
 "isolation is a property of all interleaved histories",
 [OM+"threadsafe_create.go",OM+"threadsafe_destroy.go",OM+"threadsafe_query.go"])
P("C26","Destroy excludes guarded operations",
 "While a destroy holds the syncer no guarded operation is running, while a guarded operation runs no destroy proceeds, at most one destroyer runs, and after ClearDestroy operations can be guarded again.",
 "all interleavings of guard, clear, wait and clear-destroy steps of any number of threads",
 "interleavings",
 ["pkg/async/destroy.go:DestroySync"])
P("C27","At most one session holds a lock",
 "At any time at most one claimed session exists per lock: two clients never hold the same set of key-values at once, from the service's point of view.",
 "all interleavings of any number of clients claiming, heartbeating, releasing, disconnecting and timing out",
 "interleavings and unbounded numbers of clients",
 [LM+"exclusive_lock.go:Execute",LM+"exclusive_locker.go:ObtainLock"])
P("C28","Only the current session can heartbeat or release a lock",
 "A heartbeat or release carrying any session id other than the current holder's is refused with a conflict and changes nothing; session ids of earlier holders stay refused forever.",
 "all histories and all session ids",
 "needs every history of previous sessions",
 [LM+"exclusive_lock.go:Heartbeat",LM+"exclusive_lock.go:ReleaseLock"])
P("C29","The waiting count of a lock is exact and never underflows",
 "The lock's internal client count always equals the clients waiting plus one if the lock is held (or its timeout is being processed); it never goes below zero and the lost-client panic is unreachable.",
 "all interleavings",
 "counter drift needs specific interleavings",
 [LM+"exclusive_lock.go:GetClaimChannel",LM+"exclusive_lock.go:LostClient"])
P("C30","A lock is removed exactly when nobody holds or waits for it",
 "Release, disconnect and timeout report 'remove' exactly when no other client is waiting or holding; a waiting client can always claim a lock that is free.",
 "all interleavings",
 "races between the last release and a new client",
 [LM+"exclusive_lock.go:ReleaseLock",LM+"exclusive_locker.go:Release",LM+"exclusive_locker.go:timeout"])
P("C31","A lock whose holder stops heartbeating is freed",
 "When the ticker fires the session is invalidated before any other client can claim the lock, and once the timeout has been processed the lock is free for the next client or removed.",
 "all interleavings of timeout with release, heartbeat, claim and disconnect",
 "races of the timer with API calls",
 [LM+"exclusive_lock.go:Execute",LM+"exclusive_lock.go:TimeOut"])
P("C32","Validated lock requests cannot crash the service",
 "Every lock request accepted by validation can be served without a crash; in particular the timeout is usable as a timer period.",
 "all accepted requests",
 "the failing values are outside the tested ones",
 ["pkg/models/api/locker/v1/lock.go",LM+"exclusive_lock.go:Execute"])
P("C33","A heartbeater ends exactly once, by stop, timeout or shutdown",
 "For each heartbeater, at most one of these happens: a Stop call returns true, the timeout callback runs, the shutdown callback runs; after that every Stop, Start and Heartbeat returns false; if Stop returned true the timeout callback never runs.",
 "all interleavings of Start, Stop, Heartbeat calls, timer ticks and shutdown",
 "races of timer and stop",
 ["internal/heartbeater/heartbeater.go"])
P("C34","A heartbeater cannot time out before it is started or twice",
 "The timeout callback runs at most once and only after Start succeeded; Start succeeds at most once.",
 "all interleavings",
 "races",
 ["internal/heartbeater/heartbeater.go:Start","internal/heartbeater/heartbeater.go:Execute"])
P("C35","Counter increments never push a limit past its value",
 "With increments of one, no rule deletion or reset, for every rule without overrides, after any history of accepted increments and decrements the total of the counters matching the rule's group for given values never exceeds the limit.",
 "all histories of counter updates, all rules",
 "totals depend on the whole history",
 [LI+"counters/counter_client_local.go:IncrementCounters",LI+"counters/counter_client_local.go:checkCounters"])
P("C36","Increments larger than one also respect the limit",
 "An accepted increment of any positive amount leaves the total at or below the limit.",
 "all positive increments",
 "unit tests increment by one",
 [LI+"counters/counter_client_local.go:IncrementCounters","pkg/models/api/limiter/v1/counter.go"])
P("C37","Limits of -1 never reject and limits of 0 always reject",
 "An increment is never rejected because of a limit of -1 and is always rejected when a matching effective limit is 0; with no matching rule it is always accepted.",
 "all rule sets and counters",
 "early exits in the limit search interact with the order of rules",
 [LI+"rules/rules_client_local.go:FindLimits",LI+"counters/counter_client_local.go:IncrementCounters"])
P("C38","Matching overrides replace the rule's own limit",
 "When overrides of a matching rule match the counter, the effective limits are exactly those of the matching overrides and the rule's own limit is not applied; otherwise the rule's own limit is applied.",
 "all rules, overrides and counters",
 "combinations",
 [LI+"counters/counter_client_local.go:IncrementCounters",LI+"overrides/overrides_client_local.go"])
P("C39","Counters stay positive and are removed at zero",
 "Stored counters are always positive: a decrement that would reach zero or less removes the counter, decrementing an absent counter changes nothing, setting a counter to zero or less removes it, setting it to a positive value stores exactly this value.",
 "all histories",
 "histories",
 [LI+"counters/counter_client_local.go:DecrementCounters",LI+"counters/counter_client_local.go:SetCounter",LI+"counters/memory/counter.go"])
P("C40","Rule and override identity and lifecycle",
 "Rules are unique per group-by key-values, overrides are unique per rule and key-values; deleting a rule removes its overrides; no override exists without its rule.",
 "all histories",
 "histories",
 [LI+"rules/rules_client_local.go",LI+"overrides/overrides_client_local.go"])
P("C41","Concurrent increments on a shared group are serialized",
 "Two increments whose counters agree on the group-by values of a rule both match always contend on at least one common lock, so their check-and-update phases do not overlap.",
 "all pairs of counters and rules",
 "needs all pairs and all interleavings",
 [LI+"counters/counter_client_local.go:IncrementCounters"])
P("C42","Limiter increments never deadlock on each other's locks",
 "Increments acquire their locks in one global order, so no set of concurrent increments can wait for each other in a cycle.",
 "any number of concurrent increments with any key sets",
 "deadlocks need specific interleavings",
 [LI+"counters/counter_client_local.go:IncrementCounters",DT+"map_string_encapsulated_value.go:SortedKeys"])
P("C43","Items leave a channel in queue order",
 "A dequeue hands out the item at the front of the channel; items that were enqueued and not updated, retried or dropped are delivered in the order they were enqueued.",
 "all histories of enqueue, dequeue, ack, fail and timeout",
 "histories",
 [WI+"queue_channels/memory/memory_queue_channel.go:dequeue",WI+"queue_channels/memory/memory_queue_channel.go:Enqueue"])
P("C44","No item is lost or duplicated",
 "Every stored item is at every time in exactly one place: waiting exactly once in the queue order or being processed by exactly one consumer; an item leaves the channel only by a successful ack, by using up its retries, by being superseded while updateable, or by deletion of the channel.",
 "all histories and interleavings",
 "histories",
 [WI+"queue_channels/memory/memory_queue_channel.go"])
P("C45","Enqueue updates only an updateable last item",
 "An enqueue replaces the payload of the last waiting item iff that item is updateable; otherwise it appends a new item; no other item changes.",
 "all channel states",
 "state space",
 [WI+"queue_channels/memory/memory_queue_channel.go:Enqueue"])
P("C46","A successful ack removes exactly the acked, processing item",
 "Acking an item as passed removes it iff it is being processed, and then removes only it; for any other id the answer is not-found and nothing changes.",
 "all channel states and item ids",
 "state space",
 [WI+"queue_channels/memory/memory_queue_channel.go:ACK"])
P("C47","A failed item is retried at most the configured number of times",
 "An item that is never updated is handed out at most RetryAttempts+1 times successfully (deliveries that could not be sent to the client not counted), then it is removed.",
 "all histories, all retry settings",
 "histories",
 [WI+"queue_channels/memory/memory_queue_channel.go:failItem"])
P("C48","A failed item goes back to the position its owner chose",
 "A failed item with retries left goes to the front or to the back as configured, unless it is superseded (front, updateable, something waiting) or supersedes (back, last waiting item updateable).",
 "all channel states",
 "state space",
 [WI+"queue_channels/memory/memory_queue_channel.go:failItem"])
P("C49","The enqueued counter in the limiter equals the number of stored items",
 "At every quiescent point the limiter's enqueued count for a channel equals the number of items stored in the channel, so removed items free capacity.",
 "all histories",
 "drift appears only after specific histories",
 [WI+"queue_channels/memory/memory_queue_channel.go:failItem",WI+"queue_channels/memory/memory_queue_channel.go:limiterUpdateEnqueuedValue"])
P("C50","The running counter in the limiter equals the number of items being processed",
 "At every quiescent point the limiter's running count for a channel equals the number of items handed out and not yet acked, failed or timed out.",
 "all histories",
 "drift appears only after specific histories",
 [WI+"queue_channels/memory/memory_queue_channel.go:limterUpdateRunningValue",WI+"queue_channels/memory/memory_queue_channel.go:dequeue"])
P("C51","Dequeue never runs on an empty channel",
 "The notifier's pending count matches the number of waiting items, so the dequeue callback always finds an item and never crashes.",
 "all histories and interleavings",
 "histories",
 [WI+"queue_channels/memory/memory_queue_channel.go:dequeue",WI+"queue_channels/memory/memory_queue_channel.go:Execute"])
P("C52","A channel is auto-deleted only when it holds no items",
 "The automatic deletion after an ack or timeout removes a channel only if it has neither waiting nor processing items.",
 "all histories",
 "races between ack and enqueue",
 [WI+"queue_channels/memory/memory_queue_channel.go:Delete",WI+"queue_channels/queue_channels_client_local.go:ACK"])
P("C53","A queue never stores more items than its maximum",
 "With the limiter enforcing the queue's override, the number of items stored over all channels of a queue never exceeds MaxItems while MaxItems is not lowered.",
 "all histories over all channels of a queue",
 "histories across two services",
 [WI+"queues/memory/memory_queue.go",WI+"queue_channels/memory/memory_queue_channel.go:Enqueue",LI+"counters/counter_client_local.go"])
P("C54","Failing one item reports success only if it was being processed",
 "Acking an item as failed answers not-found unless the item is being processed, in which case it is retried or dropped.",
 "all channel states and item ids",
 "state space",
 [WI+"queue_channels/memory/memory_queue_channel.go:ACK",WI+"queue_channels/memory/memory_queue_channel.go:failItem"])
P("C55","A waiting consumer does not block other clients",
 "While a consumer waits in dequeue for an item, other clients can still create queues and enqueue items, so the wait can end.",
 "all interleavings of a waiting consumer, a queue creator and a producer",
 "needs an interleaving of three clients",
 [WI+"queues/queues_client_local.go:Dequeue",WI+"queues/queues_client_local.go:CreateQueue",BT+"threadsafe_find.go:findMatchType",BT+"threadsafe_create.go:Create"])
P("C56","Queues form a map from names to queues",
 "Create fails iff a queue of this name exists, get/list/update/delete act on exactly the named queue, and a failed create or a failed delete leaves all queues as they were.",
 "all histories of queue operations",
 "histories, with failures of the limiter in between",
 [WI+"queues/queues_client_local.go"])
P("C57","No willow request crashes the service",
 "Every queue, channel or item request, valid or not, is answered, and the service goes on: no nil dereference, no invalid timer, no panic in a query, no fatal error.",
 "all histories of requests with all bodies, and all failures of the limiter",
 "the failing values are outside the tested ones",
 ["pkg/models/api/willow/v1/queue.go","pkg/models/api/willow/v1/item.go",WI+"queues/memory/memory_queue.go:New",WI+"queue_channels/memory/memory_queue_channel_item.go:CreateHeartbeater"])
P("C58","A client that believes it holds a lock really holds it",
 "As long as a lock client has not signalled Done, the service has not granted the lock to anybody else.",
 "all timings of heartbeats, responses and timers",
 "real-time races",
 ["pkg/clients/locker_client/lock.go",LM+"exclusive_lock.go"])
P("C59","A processed heartbeat postpones the timeout by the full period",
 "If a heartbeat of an item (or Start) was processed, the timeout callback is not called before the full timeout has passed since then.",
 "all timings of heartbeats and ticks",
 "needs the tick and the heartbeat at the same moment",
 ["internal/heartbeater/heartbeater.go:Execute"])
P("C60","Every ack, heartbeat and dequeue of an item is answered",
 "A call to ack or heartbeat an item always returns, whatever the state of the item's timeout, and does not stop other calls on the channel from returning.",
 "all interleavings of ack, heartbeat, dequeue callbacks and timeouts",
 "the deadlocks need a call to meet a timeout that is just firing",
 [WI+"queue_channels/memory/memory_queue_channel.go:ACK",WI+"queue_channels/memory/memory_queue_channel.go:Heartbeat",WI+"queue_channels/memory/memory_queue_channel_item.go","internal/heartbeater/heartbeater.go"])
P("C61","Deleting a channel never crashes the service",
 "While a channel or its queue is deleted, dequeues and timeouts of its items that happen at the same time do not crash the process.",
 "all interleavings of a deletion with dequeues, acks and timeouts",
 "races",
 [WI+"queue_channels/memory/memory_queue_channel.go:ForceDelete",WI+"queue_channels/memory/memory_queue_channel.go:failItem",BT+"threadsafe_destroy.go"])
P("C62","The timeout of an item is the one last requested for it",
 "After an enqueue stores or updates an item, its heartbeat timeout is the one in that request.",
 "all histories of enqueues",
 "histories",
 [WI+"queue_channels/memory/memory_queue_channel.go:Enqueue"])
P("C63","A heartbeat is answered with success exactly for items being processed",
 "A heartbeat that returns reports success if the item was handed out and not yet acked, failed or timed out, and not-found otherwise; it changes no item, no order and no counter.",
 "all channel states and item ids",
 "state space",
 [WI+"queue_channels/memory/memory_queue_channel.go:Heartbeat",WI+"queue_channels/memory/memory_queue_channel_item.go:Heartbeat"])
P("C64","Concurrent increments of a counter are never lost",
 "After any interleaving of increments, the value of a counter is what it was before plus the amounts of exactly the increments of it that were accepted.",
 "all interleavings of increments with each other, with changes of rules and with changes of other counters",
 "lost updates appear only in specific schedules",
 ["internal/limiter/counters/counter_client_local.go:IncrementCounters","internal/limiter/counters/memory/counter.go"])
P("C66","Limits on processing hold over all channels and queues",
 "If a rule or override of the limiter limits a group of willow's running counters, the number of items being processed at the same time over all channels that belong to the group never exceeds the limit while the limit is not changed.",
 "all histories of all channels, interleaved with any requests to the limiter that leave the rule alone",
 "histories across two services",
 [WI+"queue_channels/memory/memory_queue_channel.go:dequeue",WI+"queue_channels/memory/memory_queue_channel.go:limterUpdateRunningValue",LI+"counters/counter_client_local.go"])
P("C67","Willow can be started on every limiter it can reach",
 "When willow starts, it sets up its rule on the limiter and serves requests; in particular a willow that crashed or was stopped can be started again on the same limiter.",
 "all histories of the limiter before the start, including earlier runs of willow",
 "histories across restarts",
 ["cmd/willow/main.go",WI+"queues/queues_client_local.go:NewLocalQueueClient",LI+"rules/rules_client_local.go:CreateRule"])
P("C68","A waiting consumer hears of every matching channel",
 "A client that waits in a dequeue request is listening to every channel of the queue that its query selects, whether the channel existed before the request, was created while the request was looking for channels, or afterwards; an item for such a channel can therefore wake it.",
 "all interleavings of the steps of any number of dequeue requests with the steps of channel creations and deletions",
 "lost wake-ups appear only in specific schedules",
 [WI+"queue_channels/queue_channels_client_local.go:DequeueQueueItem",WI+"queue_channels/queue_channels_client_local.go:EnqueueQueueItem",WI+"queue_channels/queue_channels_client_local.go:updateClientsWaiting",AS+"threadsafe_create.go:CreateOrFind",AS+"threadsafe_query.go:QueryAction"])
P("C69","A consumer only listens to channels its query selects",
 "A dequeue request is connected only to channels whose key-values satisfy its query, so it never takes an item from another channel.",
 "all interleavings of dequeue requests with channel creations and deletions",
 "wrong matches appear only in specific schedules or queries",
 [WI+"queue_channels/queue_channels_client_local.go:DequeueQueueItem",WI+"queue_channels/queue_channels_client_local.go:updateClientsWaiting",AS+"threadsafe_query.go:findIDs"])
P("C70","A willow request answered with an error changes nothing",
 "If willow answers a request with 400, 404, 409 or 500, all queues, their limits, channels and waiting items are as before.",
 "all histories of requests with all bodies, and all failures of the limiter",
 "depends on partial effects before a late failure; needs all histories",
 ["internal/willow/api/v1/handlers/channel_handler.go:ChannelDelete","internal/willow/api/v1/handlers/item_handler.go",WI+"queues/queues_client_local.go:DeleteQueue",WI+"queue_channels/queue_channels_client_local.go"])
P("C71","Heartbeats that get through keep a lock",
 "If the answers to ObtainLock and to the heartbeats of a lock client arrive with delays that together with one heartbeat period stay below the lock's timeout, the client never loses the lock: the service does not expire it and the client's Done stays open until Release.",
 "all interleavings and delays of clients, heartbeats and timers within the bound, any number of clients",
 "real-time races",
 ["pkg/clients/locker_client/lock.go:newLock","internal/locker/lock_manager/exclusive_lock.go:Execute"])
P("C72","An item is with one consumer at a time",
 "As long as the Done channel of a dequeued item has not been closed at its consumer, the service has not delivered the item to another consumer.",
 "all timings of heartbeats, responses, acknowledgements and timers, any number of deliveries",
 "real-time races",
 ["pkg/clients/willow_client/item.go:newItem",WI+"queue_channels/memory/memory_queue_channel.go:Heartbeat",WI+"queue_channels/memory/memory_queue_channel.go:ACK","internal/heartbeater/heartbeater.go:Execute"])
P("C73","A dequeued item does not crash its consumer",
 "The background heartbeats of a dequeued item never panic, whatever the network does and whenever ACK is called.",
 "all interleavings of heartbeats, failures and ACK, all timeouts",
 "needs a failing request at the moment of the ACK",
 ["pkg/clients/willow_client/item.go:newItem","pkg/clients/willow_client/item.go:ACK"])
P("C74","Querying locks answers with every matching lock",
 "A query of the locks is answered with exactly the locks it selects, each once, with the id, the session currently holding it (if any) and the number of clients holding or waiting for it.",
 "all states and schedules of any number of clients and key-values while the query runs",
 "depends on the moment each lock is visited relative to grants, releases and timeouts",
 ["internal/locker/lock_manager/exclusive_locker.go:LocksQuery","internal/locker/api/v1/handlers/locker_handler.go:Query","pkg/models/api/locker/v1/lock.go:Validate","pkg/models/api/server.go:ModelEncodeResponse"])
P("C75","Reads of rules and overrides return exactly the matching ones",
 "Querying or matching rules answers with exactly the stored rules the request selects, each once with its current limit; the same for the overrides of one rule; a missing rule is answered with 404.",
 "all histories of limiter requests and all valid queries and matches",
 "quantifies over all histories and all queries",
 ["internal/limiter/rules/rules_client_local.go:QueryRules","internal/limiter/rules/rules_client_local.go:MatchRules","internal/limiter/rules/rules_client_local.go:QueryOverrides","internal/limiter/rules/rules_client_local.go:MatchOverrides","internal/limiter/overrides/overrides_client_local.go:QueryOverrides","internal/limiter/overrides/overrides_client_local.go:MatchOverrides"])
P("C78","A consumer that heartbeats keeps its item",
 "While a consumer of the Go client holds a dequeued item and its heartbeat requests reach the service in time, the service does not expire the delivery and the item's Done stays open until the consumer calls ACK.",
 "all interleavings and delays of consumers, heartbeats and timers within the bound, all timeouts, any number of deliveries",
 "real-time behaviour of the client's loop against the server's timer over unboundedly many heartbeats",
 ["pkg/clients/willow_client/item.go:newItem","internal/middleware/encoder.go:ValidateReqHeaders","internal/willow/api/v1/router/willow_url_router.go:AddV1WillowRoutes",WI+"queue_channels/memory/memory_queue_channel.go:Heartbeat"])
P("C76","A client call that names a queue reaches exactly that queue",
 "A call of the willow client that names a queue acts on the queue of that name, and on no other, whatever the name is.",
 "all calls of the client, all byte strings as names, HTTP/1.1 and HTTP/2",
 "quantifies over all names; tests use plain ones",
 ["pkg/clients/willow_client/queue.go","pkg/clients/willow_client/channel.go","pkg/clients/willow_client/item.go","internal/willow/api/v1/router/willow_url_router.go:AddV1WillowRoutes","internal/middleware/encoder.go:ValidateReqHeaders"])
P("C77","What a client call returns is what happened",
 "If a call of the willow client returns no error, it did what it asked for and returned what it found; if it returns an error, nothing changed at the service.",
 "all histories of requests, all calls with all arguments, and all failures of the limiter",
 "needs every history before the call and every point of failure",
 ["pkg/clients/willow_client/queue.go","pkg/clients/willow_client/channel.go","pkg/clients/willow_client/item.go:ACK","pkg/models/api/client.go","pkg/models/api/server.go"])
P("C79","A request does what it is for and nothing else",
 "A request to willow that is not answered with an error does exactly what it is for: it creates, changes or removes the queue it names, puts an item at the end of the channel with its key-values, or takes the oldest item of one channel that its query selects; limits, channels and items of all other queues stay as they are, and no item is lost, duplicated or invented.",
 "all histories of requests, one after the other",
 "quantifies over all histories",
 ["internal/willow/api/v1/handlers/queue_handler.go","internal/willow/api/v1/handlers/channel_handler.go","internal/willow/api/v1/handlers/item_handler.go",WI+"queues/queues_client_local.go",WI+"queue_channels/queue_channels_client_local.go"])
P("C80","Overlapping calls on a tree behave as if each happened at one moment",
 "Whatever the interleaving of Create, CreateOrFind, exact Find and Delete calls by any number of goroutines, every call returns what it would return if each call had happened in one indivisible step between its start and its end, and the tree then holds exactly the items of that order of steps; in particular at most one of several simultaneous creators of a key is told that it created it.",
 "all interleavings of any number of calls, all keys and items, all node sizes of at least two",
 "the schedules of goroutines over the locks of all nodes are unbounded; the race detector sees only those that happen",
 ["internal/datastructures/btree/threadsafe_create.go","internal/datastructures/btree/threadsafe_find.go:find","internal/datastructures/btree/threadsafe_delete.go"])
P("C81","Every call on a tree returns",
 "Calls on a tree never deadlock or run for ever: as long as a call has not returned some call can go on, and unless new calls are made again and again all calls return.",
 "all interleavings of any number of Create, CreateOrFind, exact Find and Delete calls",
 "a deadlock needs a particular schedule of several goroutines; termination is about infinite runs",
 ["internal/datastructures/btree/threadsafe_create.go","internal/datastructures/btree/threadsafe_find.go:find","internal/datastructures/btree/threadsafe_delete.go"])
P("C82","Every request to the limiter does to rules, overrides and counters what it says, and is answered",
 "A request to the limiter with a body that does not pass validation is answered 400 and changes nothing; any other request changes the rules, overrides and counters exactly as its documentation says, is answered with what is then there (or 404, 409), and leaves everything else alone.",
 "all histories of requests of all fifteen endpoints with arbitrary bodies, one after the other",
 "quantifies over all histories and all bodies",
 ["internal/limiter/api/v1/handlers/rules_handler.go","internal/limiter/api/v1/handlers/overrides_handler.go","internal/limiter/api/v1/handlers/counters_handler.go","internal/limiter/rules/rules_client_local.go","internal/limiter/overrides/overrides_client_local.go","internal/limiter/counters/counter_client_local.go"])
P("C83","What a call of the limiter client returns is what happened",
 "A call of the limiter client acts on the rule, override or counter that it names and on nothing else: if it returns no error it did what it asked for and returned what is there; if it returns an error nothing changed at the service, and an error of the service is passed on with its status.",
 "all histories of requests, all calls with all arguments, HTTP/1.1 and HTTP/2",
 "quantifies over all names, keys, queries and histories",
 ["pkg/clients/limiter_client/rule.go","pkg/clients/limiter_client/override.go","pkg/clients/limiter_client/counter.go","internal/limiter/api/v1/router/url_router.go","pkg/models/api/client.go"])
P("C84","Limits hold although locks can be lost",
 "However increments interleave, and whichever of their locks the locker takes back at whatever moment (a lease that ran out, a locker that was restarted), the total of a group of counters never exceeds its limit, no increment waits for ever, and every counter is what the accepted increments add up to.",
 "all interleavings of any number of increments, other requests and losses of locks",
 "the moments at which leases can run out relative to the steps of other requests are unbounded",
 ["internal/limiter/counters/counter_client_local.go:IncrementCounters","pkg/clients/locker_client/lock.go","internal/locker/lock_manager"])
P("C85","Settings take effect",
 "Each setting of the locker, the limiter and willow has the value of its documented environment variable if that is set and not empty, otherwise of the last flag on the command line, otherwise its documented default; a service starts exactly with a usable configuration (known log level, existing port, matching certificates, positive timeout, known storage); client certificates that are configured are used.",
 "all command lines, environments and client configurations",
 "quantifies over all arguments and environments; the service exits on errors, which unit tests do not exercise",
 ["internal/config/locker_config.go:Locker","internal/config/limiter_config.go:Limiter","internal/config/willow_config.go:Willow","pkg/clients/client_config.go:Validate","pkg/clients/http_client.go:NewHTTPClient"])
P("C86","Overlapping calls on an associated tree behave as if each acted at one moment",
 "Whatever the interleaving of any number of calls on a tree of key-values (create, create or find, exact query, delete, destroy by id), what the callers see is a history of a map from key-values to items on which each call acts at one moment between its call and its return: of several creates of the same key-values one creates the item, what was created is found, an item is removed once, ids are unique, and every create-or-find returns an item.",
 "all interleavings of any number of calls with arbitrary key-values",
 "quantifies over all schedules of unboundedly many goroutines",
 ["internal/datastructures/btree_associated/threadsafe_create.go","internal/datastructures/btree_associated/threadsafe_query.go:QueryAction","internal/datastructures/btree_associated/threadsafe_delete.go:Delete","internal/datastructures/btree_associated/threadsafe_destroy.go:DestroyByAssociatedID"])
P("C87","Every call on an associated tree returns",
 "Calls on a tree of key-values never wait for each other for ever and never run for ever: creating, finding and removing rules, counters, locks and channels at the same time always ends.",
 "all interleavings of any number of calls with arbitrary key-values",
 "a deadlock needs a particular schedule of several goroutines; termination is about infinite runs",
 ["internal/datastructures/btree_associated/threadsafe_create.go","internal/datastructures/btree_associated/threadsafe_delete.go:Delete","internal/datastructures/btree_associated/threadsafe_destroy.go:DestroyByAssociatedID","internal/limiter/rules/rules_client_local.go"])
P("C88","A queue may be deleted while it is in use",
 "DeleteQueue at any moment, next to any other requests, removes exactly that queue with its items or leaves it, never ends the service, and requests on the queue are served before it, refused or told that the queue is missing: nothing is accepted into a queue that is being removed, at most one deletion works on a queue, and a queue created again under the same name begins empty.",
 "all interleavings of any number of requests, deletions and deliveries that run out of time",
 "the crash needs a goroutine of an earlier request to run in the middle of a deletion; quantifies over all schedules",
 ["internal/willow/brokers/queues/queues_client_local.go:DeleteQueue","internal/willow/brokers/queue_channels/queue_channels_client_local.go:DequeueQueueItem","internal/willow/brokers/queue_channels/queue_channels_client_local.go:attemptDeleteChannel","internal/datastructures/btree/threadsafe_destroy.go:Destroy"])
P("C89","A lock client can be shared by goroutines",
 "Goroutines that share a lock client, or use several, can call ObtainLock and Release in any order: ObtainLock returns a lock for the key-values it was called with as soon as it is free; at most one goroutine holds the lock of given key-values; Release always returns and frees the lock; nobody waits for a lock that was released.",
 "all histories of any number of goroutines and clients, with arbitrary key-values",
 "deadlocks and double holders need particular schedules of several goroutines in several processes",
 ["pkg/clients/locker_client/locker_client.go:ObtainLock","pkg/clients/locker_client/lock.go:Release","internal/datastructures/btree_associated/threadsafe_create.go:CreateOrFind","internal/datastructures/btree_associated/threadsafe_delete.go:Delete"])
P("C90","A match reports what matches, next to other calls",
 "MatchAction on a tree of key-values (which rules, overrides or limits apply to these key-values?) may be called while other calls create, find and remove items: what its callback is called with is there at that moment, matches and is reported once; every matching item that is there during the whole match is reported unless the callback asks for no more; items that are being removed are skipped.",
 "all interleavings of any number of matches and of other calls, with arbitrary key-values and callbacks",
 "the item is missed only if the match comes across another one in the middle of its destruction; quantifies over all schedules",
 ["internal/datastructures/btree_associated/threadsafe_match.go:MatchAction","internal/datastructures/btree_associated/threadsafe_destroy.go:DestroyByAssociatedID","internal/limiter/rules/rules_client_local.go:FindLimits","internal/limiter/overrides/overrides_client_local.go:FindOverrideLimits"])
P("C91","A rule may be deleted while other requests are served",
 "DeleteRule next to any other requests removes exactly that rule with its overrides: from its beginning on requests for the rule are told that it is missing or being deleted, no override is left behind or attached to another rule, nothing else changes, and increments of counters obey the limits of all rules that nobody is deleting, neither refused by mistake nor accepted by mistake.",
 "all histories of requests with any number of deletions under way, all keys and limits",
 "the window between marking a rule and removing it is only seen by requests served at that moment; quantifies over all histories",
 ["internal/limiter/rules/rules_client_local.go:DeleteRule","internal/limiter/rules/rules_client_local.go:FindLimits","internal/limiter/overrides/overrides_client_local.go:DestroyOverrides","internal/limiter/counters/counter_client_local.go:IncrementCounters","internal/datastructures/btree_associated/threadsafe_match.go:MatchAction"])
P("C92","A channel that hit a processing limit waits until it is free",
 "After the limiter refused to count an item of a channel as running, the channel checks the limits that apply to it, waits as long as one of them is reached and offers the item again as soon as none is; a check always ends, changes nothing, and never ends the service, whatever other requests the limiter serves meanwhile.",
 "all histories of the limiter before and during the check, all rules, overrides and counters, all keys of a channel, all orders of answers, lost answers",
 "the check is several calls with other requests in between; the busy loop and the crash need particular rules or a deletion at one moment",
 ["internal/willow/brokers/queue_channels/memory/memory_queue_channel.go:Execute","pkg/clients/limiter_client/limiter_client.go:MatchRules","pkg/clients/limiter_client/limiter_client.go:MatchOverrides","pkg/clients/limiter_client/limiter_client.go:QueryCounters"])
P("C93","The locker can be stopped",
 "After the locker is told to stop, every request that is being served is answered, within a bounded number of steps, and every goroutine ends: a lock still held is given up, waiting clients are told to retry, pending timeouts are processed, and requests that come in during the stop are refused.",
 "all reachable states at the moment of the stop and all schedules after it",
 "the hangs need a timeout, a request and the stop within the same instant, or a request in the window between the stop of the locks and of the HTTP server",
 [LM+"exclusive_lock.go:Execute",LM+"exclusive_locker.go:ObtainLock",LM+"exclusive_lock.go:LostClient",LM+"exclusive_lock.go:Heartbeat","internal/locker/api/locker_server_tcp.go:Execute"])
P("C94","Willow can be stopped",
 "After willow is told to stop, or a channel is deleted, the channel comes to its end: consumers that wait for an item are answered, a delivery in progress is completed, every goroutine returns, and an ACK or heartbeat that arrives meanwhile is answered.",
 "all reachable states of a channel at the moment of the stop or the deletion, all schedules and arrivals after it",
 "the hangs need an ACK or heartbeat in the instant between the timeout of an item and its processing, or before the delivery is completed",
 ["internal/willow/brokers/queue_channels/memory/memory_queue_channel.go:Execute","internal/willow/brokers/queue_channels/memory/memory_queue_channel.go:ACK","internal/willow/brokers/queue_channels/memory/memory_queue_channel.go:Heartbeat","internal/willow/brokers/queue_channels/memory/memory_queue_channel.go:ForceDelete","internal/heartbeater/heartbeater.go:Execute"])
P("C95","A query reports what it selects, next to other calls",
 "QueryAction on a tree of key-values (list rules, overrides, counters or locks that satisfy a query) may be called while other calls create, find and remove items: what its callback is called with is there at that moment, nobody has begun to remove it, it satisfies the query and is reported once; an item that is there during the whole query is reported if and only if it satisfies the query, unless the callback asks for no more; nothing is reported after that, and the query does not panic.",
 "all interleavings of any number of queries and of other calls, with arbitrary queries, key-values and callbacks, in every order in which the index is walked",
 "a query is many separate reads; the wrong report needs a create between two of them; quantifies over all schedules",
 ["internal/datastructures/btree_associated/threadsafe_query.go:QueryAction","internal/datastructures/btree_associated/threadsafe_query.go:query","internal/datastructures/btree_associated/threadsafe_query.go:findIDs","internal/limiter/counters/counter_client_local.go:QueryCounters"])
P("C96","Every client that waits for a lock gets it",
 "While the locker runs, every client that waits for a lock is granted it in the end, in every schedule, once the clients that hold it release it or stop sending heartbeats: nobody who waits is forgotten or turned away, whichever requests are being served at that time; when all are served the lock is removed.",
 "all reachable states of a running service, all schedules after it",
 "a forgotten client would only be seen in a particular interleaving of timeouts, releases, disconnects and claims; that all schedules end cannot be tested",
 [LM+"exclusive_lock.go:Execute",LM+"exclusive_locker.go:ObtainLock",LM+"exclusive_lock.go:ReleaseLock",LM+"exclusive_lock.go:TimeOut",LM+"exclusive_locker.go:timeout"])
P("C97","Every item that waits in a channel is handed out",
 "While consumers keep asking a channel for items and take what they are offered, and the limiter allows it, every item that waits in the channel is handed out in the end, or a newer item takes its place: whichever items are acked, fail, time out, are retried or superseded, and in whatever order; then all retries are used up and the channel is empty.",
 "all reachable states of a channel, all schedules of deliveries, ACKs, heartbeats and timeouts after it",
 "a lost notification would only be seen in a particular interleaving; that all schedules end cannot be tested",
 ["internal/willow/brokers/queue_channels/memory/memory_queue_channel.go:Execute","internal/willow/brokers/queue_channels/memory/memory_queue_channel.go:failItem","internal/willow/brokers/queue_channels/memory/memory_queue_channel.go:dequeue","internal/willow/brokers/queue_channels/memory/memory_queue_channel.go:ACK"])
P("C98","No item starves",
 "However many items are enqueued, retried or superseded meanwhile, an item that waits in a channel is handed out after a number of deliveries that is fixed from the start: the items in front of it and those being processed, each with the retries it has left, and one more for each delivery that is lost with its consumer; unless a newer item takes its place first.",
 "all reachable states of a channel, all items that wait in it, all histories after it",
 "starvation shows only in histories of any length; the bound must hold whatever is enqueued and whatever fails",
 ["internal/willow/brokers/queue_channels/memory/memory_queue_channel.go:Enqueue","internal/willow/brokers/queue_channels/memory/memory_queue_channel.go:failItem","internal/willow/brokers/queue_channels/memory/memory_queue_channel.go:dequeue"])
P("C99","A range search reports what is there, next to other calls",
 "While any number of goroutines create, find, delete and search, a range search of a tree whose callback always asks for more gets every pair that is in the tree from before the search begins until it is over exactly once if its key belongs to the range, and no pair outside the range and none that is never in the tree meanwhile; a pair that is created or deleted once meanwhile is reported at most once.",
 "all interleavings of any number of calls and range searches, all ranges, keys and items, all node sizes of at least two",
 "splits, rotations and merges next to a search need a particular schedule; a pair that is moved past the search would be lost or doubled silently",
 ["internal/datastructures/btree/threadsafe_find.go:iterate","internal/datastructures/btree/threadsafe_find.go:findLessThan","internal/datastructures/btree/threadsafe_find.go:findLessThanOrEqual","internal/datastructures/btree/threadsafe_find.go:findGreaterThan","internal/datastructures/btree/threadsafe_find.go:findGreaterThanOrEqual","internal/datastructures/btree/threadsafe_create.go","internal/datastructures/btree/threadsafe_delete.go"])
P("C100","Range searches do not disturb other calls",
 "Whatever the interleaving of Create, CreateOrFind, exact Find and Delete calls with range searches of the same tree, every call returns what it would return if each call had happened in one indivisible step between its start and its end, and the tree holds exactly the items of that order.",
 "all interleavings of any number of calls and range searches, all keys and items, all node sizes of at least two",
 "the schedules over the locks of all nodes are unbounded",
 ["internal/datastructures/btree/threadsafe_find.go","internal/datastructures/btree/threadsafe_create.go","internal/datastructures/btree/threadsafe_delete.go"])
P("C101","Searches and calls end",
 "However many calls and range searches of one tree are under way at the same time, they never all wait for each other: some of them can always go on until every call has returned and every search is over, and all of them end unless new ones are begun again and again.",
 "all interleavings of any number of calls and range searches, all ranges, keys and items, all node sizes of at least two",
 "a deadlock between a search that holds several nodes and a split or merge that locks several nodes needs a particular schedule; that all schedules end cannot be tested",
 ["internal/datastructures/btree/threadsafe_find.go:iterate","internal/datastructures/btree/threadsafe_find.go:findLessThan","internal/datastructures/btree/threadsafe_find.go:findLessThanOrEqual","internal/datastructures/btree/threadsafe_find.go:findGreaterThan","internal/datastructures/btree/threadsafe_find.go:findGreaterThanOrEqual","internal/datastructures/btree/threadsafe_create.go","internal/datastructures/btree/threadsafe_delete.go"])
P("C102","Destroying all values next to other calls",
 "While DestroyAll of the ordered tree deletes the values no other call of the tree is at work and no second DestroyAll is under way: calls that come meanwhile return ErrorTreeDestroying. DestroyAll waits for the calls that had begun before, then goes on and returns, whatever calls are made meanwhile; nobody panics, and afterwards the tree accepts calls again.",
 "all interleavings of any number of calls and any number of DestroyAlls of one tree, down to the single atomic operations of the counter of calls",
 "the windows between two atomic operations inside Add and Wait of the sync.WaitGroup are a few instructions wide and no test can place another call there; that a DestroyAll sleeps for ever is not observable in a finite run",
 ["internal/datastructures/btree/threadsafe_destroy.go:DestroyAll","internal/datastructures/btree/threadsafe_destroy.go:Destroy","internal/datastructures/btree/threadsafe_create.go:Create","internal/datastructures/btree/threadsafe_find.go:Find","internal/datastructures/btree/threadsafe_delete.go:Delete","internal/datastructures/btree/threadsafe_b_tree.go:checkDestroying"])
P("C103","Destroying one key",
 "Of one key of the ordered tree at most one Destroy is under way. A call that begins while a Destroy of its key is under way is refused with ErrorKeyDestroying and has no effect; no other call is refused; when no Destroy is under way nothing is remembered of it. A Destroy that meets no call on its key that had begun before is alone with it: until its work is done the key keeps its value, and if the callback agrees, the value that was there is removed and the key stays gone until the Destroy returns.",
 "all interleavings of any number of Create, CreateOrFind, exact Find, Delete and Destroy calls on any keys of one tree, all answers of the callbacks",
 "two Destroys of one key, or a call between the registration of a key and its removal from the list, need a particular schedule; and the list of keys is compacted by swapping, which goes wrong only for certain orders of returns",
 ["internal/datastructures/btree/threadsafe_destroy.go:Destroy","internal/datastructures/btree/threadsafe_b_tree.go:checkDestroyingWithKey","internal/datastructures/btree/threadsafe_create.go:Create","internal/datastructures/btree/threadsafe_find.go:Find","internal/datastructures/btree/threadsafe_delete.go:Delete"])
P("C104","A range search shows one moment",
 "A range search shows the ordered tree as it was when the search began: if no call about a key is under way at that moment, the callback gets the item of the key exactly once if the key was in the tree at that moment and belongs to the range, and never otherwise, however many calls about this and other keys are made, do their work and return until the search is over. So calls that begin later never show, not even in part, and a search that begins when no call is under way reports exactly the items that were there.",
 "all interleavings of any number of calls and range searches, all ranges, keys and items, all node sizes of at least two",
 "calls that change the tree in front of and behind a search at the same time need a particular schedule, and whether what was reported was ever in the tree together depends on the whole history",
 ["internal/datastructures/btree/threadsafe_find.go:iterate","internal/datastructures/btree/threadsafe_find.go:findLessThan","internal/datastructures/btree/threadsafe_find.go:findLessThanOrEqual","internal/datastructures/btree/threadsafe_find.go:findGreaterThan","internal/datastructures/btree/threadsafe_find.go:findGreaterThanOrEqual","internal/datastructures/btree/threadsafe_create.go","internal/datastructures/btree/threadsafe_delete.go"])
P("C105","A range search never reports a key twice",
 "The callback of a range search over the ordered tree never gets two items with the same key, even if the item is deleted and created again under that key, behind or in front of the search, as often as one likes; and if from before the search begins until it is over there is an item of a key that belongs to the range, the callback gets exactly one item of that key, exactly once. So for every key of the range a finished search tells what was true at some moment while it was under way: the item it reports, or none, is what the tree held under that key at that moment.",
 "all interleavings of any number of calls and range searches, all ranges, keys and items, all node sizes of at least two, every moment of the search",
 "an item would be seen twice only if rotations, merges or a deletion followed by a creation brought its key in front of the search again, which needs a particular schedule and tree shape",
 ["internal/datastructures/btree/threadsafe_find.go:iterate","internal/datastructures/btree/threadsafe_find.go:findLessThan","internal/datastructures/btree/threadsafe_find.go:findLessThanOrEqual","internal/datastructures/btree/threadsafe_find.go:findGreaterThan","internal/datastructures/btree/threadsafe_find.go:findGreaterThanOrEqual","internal/datastructures/btree/threadsafe_create.go","internal/datastructures/btree/threadsafe_delete.go"])
p=os.path.join(os.path.dirname(__file__),"..","properties.jsonl")
with open(p,"w") as f:
    for o in out: f.write(json.dumps(o)+"\n")
print(len(out))
