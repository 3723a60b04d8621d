{"id": "C01", "title": "Key comparison is a strict total order on non-NaN values", "statement": "Comparing two valid key values with the strict (type-matching) comparison is irreflexive, asymmetric, transitive and total: two values are either ordered one way or the other, or have the same type and equal payloads. Values of different types are ordered by type, and 'any' is the greatest.", "quantifier": "all triples of valid key values of every type and payload, floats other than NaN included", "why_tests_cant": "the value space (64-bit integers, floats, arbitrary strings) is infinite and the law needs triples", "anchors": ["pkg/models/datatypes/encapsulated_value.go:LessMatchType", "pkg/models/datatypes/encapsulated_value.go:lessValueMatchTyoe", "pkg/models/datatypes/datatypes.go:LessMatchType"]}
{"id": "C02", "title": "Every value the API accepts can be used as an ordered key", "statement": "For every value that passes validation the strict comparison is a consistent order, so an item stored under one value is never confused with an item stored under a different value.", "quantifier": "all values accepted by Validate, NaN payloads included", "why_tests_cant": "a test suite has no reason to try NaN against every other payload; the claim is about all pairs", "anchors": ["pkg/models/datatypes/encapsulated_value.go:ValidateTypeAndData", "pkg/models/datatypes/encapsulated_value.go:StringDecoding", "pkg/models/datatypes/encapsulated_value.go:lessValueMatchTyoe"]}
{"id": "C03", "title": "JSON encode/decode of a key value is the identity", "statement": "Writing any value that passes validation to JSON succeeds, and reading it back gives the same type and payload, for every width of integers, for float32 and float64 bit for bit (a NaN stays a NaN), for strings and for any.", "quantifier": "all values of the ten integer types, the two float types, all strings and any", "why_tests_cant": "each of the widths has up to 2^64 payloads and boundary behaviour at both ends; the shortest decimal form of a float must round back to it", "anchors": ["pkg/models/datatypes/encapsulated_value.go:StringEncoding", "pkg/models/datatypes/encapsulated_value.go:StringDecoding", "pkg/models/datatypes/encapsulated_value.go:MarshalJSON", "pkg/models/datatypes/encapsulated_value.go:UnmarshalJSON"]}
{"id": "C04", "title": "Value validation accepts exactly well-typed values in the allowed range", "statement": "A value is accepted iff its type code is known, its data has exactly the kind the type names (nil for any) and the type code lies in the allowed inclusive range; an accepted value can always be compared without a crash.", "quantifier": "all type codes (any integer), all dynamic data kinds, all allowed ranges", "why_tests_cant": "type codes are arbitrary integers coming from clients and data is dynamically typed", "anchors": ["pkg/models/datatypes/encapsulated_value.go:ValidateTypeAndData", "pkg/models/datatypes/datatypes.go:GeneralDataTypes"]}
{"id": "C05", "title": "Decoding never yields an out-of-range or wrapped number", "statement": "If decoding the data string of a request succeeds, the decoded payload is the number written in the string (for floats: the nearest one, a number too large is refused), it lies in the range of the declared type, and the decoded value passes validation.", "quantifier": "all strings and all type codes", "why_tests_cant": "the set of strings is infinite; wrap-around appears only at rarely tested boundaries", "anchors": ["pkg/models/datatypes/encapsulated_value.go:StringDecoding", "pkg/models/datatypes/encapsulated_value.go:ValidateTypeAndData"]}
{"id": "C06", "title": "The ordered tree behaves as a map for every operation history", "statement": "Starting from an empty tree of any node size of at least two, any sequence of Create, CreateOrFind, Find and Delete calls (whose create callbacks succeed) returns the same results and leaves the same contents as a plain map from keys to values: Create fails with 'already exists' iff the key is present, Find sees exactly the value stored, Delete removes exactly the key.", "quantifier": "all node sizes >= 2, all operation histories, all keys (no NaN) and values", "why_tests_cant": "splits, rotations and merges depend on the whole history; tests sample a few shapes", "anchors": ["internal/datastructures/btree/threadsafe_create.go:create", "internal/datastructures/btree/threadsafe_create.go:splitNode", "internal/datastructures/btree/threadsafe_delete.go:remove", "internal/datastructures/btree/threadsafe_delete.go:rebalance", "internal/datastructures/btree/threadsafe_find.go:findMatchType"]}
{"id": "C07", "title": "The tree stays balanced and its nodes stay within bounds", "statement": "After any history every leaf of the tree is at the same depth, every non-root node holds between nodeSize/2 and nodeSize values, an inner node has exactly one more child than values, and the in-order sequence of keys is strictly increasing; no operation indexes outside a node.", "quantifier": "all node sizes >= 2 and all operation histories", "why_tests_cant": "the invariant is about every reachable shape", "anchors": ["internal/datastructures/btree/threadsafe_create.go:splitLeaf", "internal/datastructures/btree/threadsafe_create.go:insertNode", "internal/datastructures/btree/threadsafe_delete.go:mergeDown", "internal/datastructures/btree/threadsafe_delete.go:rotateLeft", "internal/datastructures/btree/threadsafe_delete.go:rotateRight", "internal/datastructures/btree/threadsafe_delete.go:swap"]}
{"id": "C08", "title": "A create whose callback fails stores nothing and loses nothing", "statement": "If the create callback returns nil (creation failed), the contents of the tree are exactly what they were before the call.", "quantifier": "all trees, all keys", "why_tests_cant": "whether neighbours survive depends on where the key would land in its leaf", "anchors": ["internal/datastructures/btree/threadsafe_create.go:createTreeItem", "internal/datastructures/btree/threadsafe_create.go:createOrFindTreeItem"]}
{"id": "C09", "title": "Delete honours the canDelete callback", "statement": "If canDelete returns false the tree is unchanged; if it returns true or is absent exactly the given key disappears; canDelete is called at most once, only with the stored key and value of the requested key; deleting an absent key changes nothing and never calls it.", "quantifier": "all trees, keys and callbacks", "why_tests_cant": "the internal-node path deletes a different slot from the one the user named", "anchors": ["internal/datastructures/btree/threadsafe_delete.go:Delete", "internal/datastructures/btree/threadsafe_delete.go:removeNodeItem", "internal/datastructures/btree/threadsafe_delete.go:removeLeafItem"]}
{"id": "C10", "title": "DestroyAll empties the tree unless a callback refuses", "statement": "DestroyAll calls the callback once per stored item; if every call returns true the tree is empty afterwards; if a call returns false, exactly the items approved before it are gone and all others remain.", "quantifier": "all trees and all callbacks", "why_tests_cant": "each deletion rebalances the tree under the iteration", "anchors": ["internal/datastructures/btree/threadsafe_destroy.go:DestroyAll", "internal/datastructures/btree/threadsafe_destroy.go:iterateDestroy"]}
{"id": "C11", "title": "Exact find and the any-wildcard find return exactly the matching items", "statement": "Find with a concrete key visits the item stored under that key iff the key's type is inside the type restriction, plus the item stored under 'any' iff the restriction's maximum is any; Find with 'any' visits exactly the items whose type is inside the restriction; nothing is visited twice.", "quantifier": "all trees, keys and type restrictions", "why_tests_cant": "subtrees are skipped by type; every tree shape matters", "anchors": ["internal/datastructures/btree/threadsafe_find.go:Find", "internal/datastructures/btree/threadsafe_find.go:findMatchType", "internal/datastructures/btree/threadsafe_find.go:iterate"]}
{"id": "C12", "title": "FindNotEqual visits exactly the other keys within the type restriction", "statement": "FindNotEqual visits every stored item whose type is inside the restriction and whose key differs from the given key, and nothing else.", "quantifier": "all trees, keys and type restrictions", "why_tests_cant": "subtrees are skipped by type; every tree shape matters", "anchors": ["internal/datastructures/btree/threadsafe_find.go:FindNotEqual", "internal/datastructures/btree/threadsafe_find.go:iterate"]}
{"id": "C13", "title": "FindLessThan and FindLessThanOrEqual visit exactly the smaller keys within the type restriction", "statement": "FindLessThan (OrEqual) visits exactly the stored items whose key is smaller than (or equal to) the given key and whose type is inside the restriction, plus the 'any' item iff the restriction's maximum is any.", "quantifier": "all trees, keys and type restrictions", "why_tests_cant": "all combinations of three type codes and tree shapes", "anchors": ["internal/datastructures/btree/threadsafe_find.go:FindLessThan", "internal/datastructures/btree/threadsafe_find.go:FindLessThanOrEqual"]}
{"id": "C14", "title": "FindGreaterThan and FindGreaterThanOrEqual visit exactly the greater keys within the type restriction", "statement": "FindGreaterThan (OrEqual) visits exactly the stored items whose key is greater than (or equal to) the given key and whose type is inside the restriction.", "quantifier": "all trees, keys and type restrictions", "why_tests_cant": "all combinations of three type codes and tree shapes", "anchors": ["internal/datastructures/btree/threadsafe_find.go:FindGreaterThan", "internal/datastructures/btree/threadsafe_find.go:FindGreaterThanOrEqual"]}
{"id": "C15", "title": "A traversal stops as soon as the callback says so", "statement": "For every traversal, if the callback returns false it is not called again in that traversal (the wildcard item included), and the calls made are a prefix of the calls a never-stopping callback would see.", "quantifier": "all trees, keys, restrictions and stateful callbacks", "why_tests_cant": "callbacks are arbitrary; stopping points are arbitrary", "anchors": ["internal/datastructures/btree/threadsafe_find.go:iterate", "internal/datastructures/btree/threadsafe_find.go:findLessThan", "internal/datastructures/btree/threadsafe_find.go:findGreaterThan"]}
{"id": "C16", "title": "Every read leaves the tree unlocked", "statement": "Every call of a find operation releases the tree's lock before returning, whatever the key and type restriction, so later writers are never blocked by a finished read.", "quantifier": "all keys and type restrictions accepted by validation", "why_tests_cant": "a leaked read lock shows only as a hang of a later writer", "anchors": ["internal/datastructures/btree/threadsafe_find.go:Find", "internal/datastructures/btree/threadsafe_find.go:FindLessThan", "internal/datastructures/btree/threadsafe_find.go:FindGreaterThan"]}
{"id": "C17", "title": "Empty() tells whether the tree holds no items", "statement": "Empty returns true iff no item is stored, after every history, histories with failed creates included.", "quantifier": "all operation histories", "why_tests_cant": "depends on the history, in particular on failed creates", "anchors": ["internal/datastructures/btree/threadsafe_b_tree.go:Empty", "internal/datastructures/btree/threadsafe_create.go:Create", "internal/datastructures/btree/threadsafe_delete.go:delete"]}
{"id": "C18", "title": "Associated items are unique per key-value set", "statement": "At any time at most one item is stored for a given set of key-values; Create on an existing set fails and changes nothing; sets that differ in any key, value or size are different items.", "quantifier": "all histories of creates and deletes over all key-value sets", "why_tests_cant": "uniqueness is decided by intersecting id lists built by the whole history", "anchors": ["internal/datastructures/btree_associated/threadsafe_create.go:Create", "internal/datastructures/btree_associated/threadsafe_create.go:CreateOrFind"]}
{"id": "C19", "title": "The associated tree behaves as a map from key-value sets to items", "statement": "Any history of Create, CreateOrFind, Delete and delete-by-id gives the same results and the same stored items as a map from key-value sets to values; a failed create or a refused delete leaves the map unchanged.", "quantifier": "all histories", "why_tests_cant": "index structures (per key, per value, per size) must stay consistent with the items over every history", "anchors": ["internal/datastructures/btree_associated/threadsafe_create.go:Create", "internal/datastructures/btree_associated/threadsafe_create.go:CreateOrFind", "internal/datastructures/btree_associated/threadsafe_delete.go:Delete", "internal/datastructures/btree_associated/threadsafe_delete.go:DeleteByAssociatedID"]}
{"id": "C20", "title": "A query returns exactly the items that satisfy it", "statement": "A query (selection by ids, per-key comparisons with type restrictions, min/max number of key-values, nested And/Or) visits exactly the stored items whose own key-values satisfy the query predicate ((selection and all Ands) or any Or), each at most once.", "quantifier": "all trees and all valid queries", "why_tests_cant": "the query language is recursive and the index evaluation order matters", "anchors": ["internal/datastructures/btree_associated/threadsafe_query.go:QueryAction", "internal/datastructures/btree_associated/threadsafe_query.go:findIDs", "pkg/models/api/common/v1/query_associated_action/selection.go:MatchKeyValues"]}
{"id": "C21", "title": "A query evaluated on a new channel agrees with the query evaluated on stored channels", "statement": "For every query and every key-value set, the predicate used to attach a newly created channel to a waiting consumer gives the same answer as querying a store that contains only this key-value set.", "quantifier": "all queries and key-value sets", "why_tests_cant": "two independent evaluators of one recursive language", "anchors": ["pkg/models/api/common/v1/query_associated_action/associated_action_query.go:MatchTags", "internal/datastructures/btree_associated/threadsafe_query.go:QueryAction", "internal/willow/brokers/queue_channels/queue_channels_client_local.go:updateClientsWaiting"]}
{"id": "C22", "title": "A match visits exactly the stored sets covered by the given key-values", "statement": "Match visits exactly the stored items all of whose key-values are matched by the request (same key, equal value or 'any' as the type restriction allows) and whose size is inside the requested bounds, each once.", "quantifier": "all trees and match requests", "why_tests_cant": "implemented by enumerating subsets of keys; exponential space of combinations", "anchors": ["internal/datastructures/btree_associated/threadsafe_match.go:MatchAction", "pkg/models/api/common/v1/query_match_action/match_query.go", "pkg/datamanipulation/slice_manipulation.go"]}
{"id": "C23", "title": "Deleting items leaves no dangling index entries", "statement": "After deleting an item no per-key or per-value index still mentions its id, key and value entries without items are removed, and every id in an index belongs to a stored item having that key and value.", "quantifier": "all histories", "why_tests_cant": "garbage is invisible to simple lookups until ids collide", "anchors": ["internal/datastructures/btree_associated/threadsafe_delete.go:Delete", "internal/datastructures/btree_associated/threadsafe_associated_values.go"]}
{"id": "C24", "title": "Permutation generation yields every subset in the size bounds exactly once, in order", "statement": "The generator of tag combinations returns every sub-collection of the given distinct keys whose size lies in the inclusive bounds (-1 meaning unbounded above), each exactly once, ordered by size.", "quantifier": "all key lists and bounds", "why_tests_cant": "exponentially many outputs", "anchors": ["pkg/datamanipulation/slice_manipulation.go"]}
{"id": "C25", "title": "One-to-many relations are isolated from each other", "statement": "An operation on one relation id never changes, visits or deletes items of another relation id.", "quantifier": "all histories over all relation ids", "why_tests_cant": "isolation is a property of all interleaved histories", "anchors": ["internal/datastructures/btree_one_to_many/threadsafe_create.go", "internal/datastructures/btree_one_to_many/threadsafe_destroy.go", "internal/datastructures/btree_one_to_many/threadsafe_query.go"]}
{"id": "C26", "title": "Destroy excludes guarded operations", "statement": "While a destroy holds the syncer no guarded operation is running, while a guarded operation runs no destroy proceeds, at most one destroyer runs, and after ClearDestroy operations can be guarded again.", "quantifier": "all interleavings of guard, clear, wait and clear-destroy steps of any number of threads", "why_tests_cant": "interleavings", "anchors": ["pkg/async/destroy.go:DestroySync"]}
{"id": "C27", "title": "At most one session holds a lock", "statement": "At any time at most one claimed session exists per lock: two clients never hold the same set of key-values at once, from the service's point of view.", "quantifier": "all interleavings of any number of clients claiming, heartbeating, releasing, disconnecting and timing out", "why_tests_cant": "interleavings and unbounded numbers of clients", "anchors": ["internal/locker/lock_manager/exclusive_lock.go:Execute", "internal/locker/lock_manager/exclusive_locker.go:ObtainLock"]}
{"id": "C28", "title": "Only the current session can heartbeat or release a lock", "statement": "A heartbeat or release carrying any session id other than the current holder's is refused with a conflict and changes nothing; session ids of earlier holders stay refused forever.", "quantifier": "all histories and all session ids", "why_tests_cant": "needs every history of previous sessions", "anchors": ["internal/locker/lock_manager/exclusive_lock.go:Heartbeat", "internal/locker/lock_manager/exclusive_lock.go:ReleaseLock"]}
{"id": "C29", "title": "The waiting count of a lock is exact and never underflows", "statement": "The lock's internal client count always equals the clients waiting plus one if the lock is held (or its timeout is being processed); it never goes below zero and the lost-client panic is unreachable.", "quantifier": "all interleavings", "why_tests_cant": "counter drift needs specific interleavings", "anchors": ["internal/locker/lock_manager/exclusive_lock.go:GetClaimChannel", "internal/locker/lock_manager/exclusive_lock.go:LostClient"]}
{"id": "C30", "title": "A lock is removed exactly when nobody holds or waits for it", "statement": "Release, disconnect and timeout report 'remove' exactly when no other client is waiting or holding; a waiting client can always claim a lock that is free.", "quantifier": "all interleavings", "why_tests_cant": "races between the last release and a new client", "anchors": ["internal/locker/lock_manager/exclusive_lock.go:ReleaseLock", "internal/locker/lock_manager/exclusive_locker.go:Release", "internal/locker/lock_manager/exclusive_locker.go:timeout"]}
{"id": "C31", "title": "A lock whose holder stops heartbeating is freed", "statement": "When the ticker fires the session is invalidated before any other client can claim the lock, and once the timeout has been processed the lock is free for the next client or removed.", "quantifier": "all interleavings of timeout with release, heartbeat, claim and disconnect", "why_tests_cant": "races of the timer with API calls", "anchors": ["internal/locker/lock_manager/exclusive_lock.go:Execute", "internal/locker/lock_manager/exclusive_lock.go:TimeOut"]}
{"id": "C32", "title": "Validated lock requests cannot crash the service", "statement": "Every lock request accepted by validation can be served without a crash; in particular the timeout is usable as a timer period.", "quantifier": "all accepted requests", "why_tests_cant": "the failing values are outside the tested ones", "anchors": ["pkg/models/api/locker/v1/lock.go", "internal/locker/lock_manager/exclusive_lock.go:Execute"]}
{"id": "C33", "title": "A heartbeater ends exactly once, by stop, timeout or shutdown", "statement": "For each heartbeater, at most one of these happens: a Stop call returns true, the timeout callback runs, the shutdown callback runs; after that every Stop, Start and Heartbeat returns false; if Stop returned true the timeout callback never runs.", "quantifier": "all interleavings of Start, Stop, Heartbeat calls, timer ticks and shutdown", "why_tests_cant": "races of timer and stop", "anchors": ["internal/heartbeater/heartbeater.go"]}
{"id": "C34", "title": "A heartbeater cannot time out before it is started or twice", "statement": "The timeout callback runs at most once and only after Start succeeded; Start succeeds at most once.", "quantifier": "all interleavings", "why_tests_cant": "races", "anchors": ["internal/heartbeater/heartbeater.go:Start", "internal/heartbeater/heartbeater.go:Execute"]}
{"id": "C35", "title": "Counter increments never push a limit past its value", "statement": "With increments of one, no rule deletion or reset, for every rule without overrides, after any history of accepted increments and decrements the total of the counters matching the rule's group for given values never exceeds the limit.", "quantifier": "all histories of counter updates, all rules", "why_tests_cant": "totals depend on the whole history", "anchors": ["internal/limiter/counters/counter_client_local.go:IncrementCounters", "internal/limiter/counters/counter_client_local.go:checkCounters"]}
{"id": "C36", "title": "Increments larger than one also respect the limit", "statement": "An accepted increment of any positive amount leaves the total at or below the limit.", "quantifier": "all positive increments", "why_tests_cant": "unit tests increment by one", "anchors": ["internal/limiter/counters/counter_client_local.go:IncrementCounters", "pkg/models/api/limiter/v1/counter.go"]}
{"id": "C37", "title": "Limits of -1 never reject and limits of 0 always reject", "statement": "An increment is never rejected because of a limit of -1 and is always rejected when a matching effective limit is 0; with no matching rule it is always accepted.", "quantifier": "all rule sets and counters", "why_tests_cant": "early exits in the limit search interact with the order of rules", "anchors": ["internal/limiter/rules/rules_client_local.go:FindLimits", "internal/limiter/counters/counter_client_local.go:IncrementCounters"]}
{"id": "C38", "title": "Matching overrides replace the rule's own limit", "statement": "When overrides of a matching rule match the counter, the effective limits are exactly those of the matching overrides and the rule's own limit is not applied; otherwise the rule's own limit is applied.", "quantifier": "all rules, overrides and counters", "why_tests_cant": "combinations", "anchors": ["internal/limiter/counters/counter_client_local.go:IncrementCounters", "internal/limiter/overrides/overrides_client_local.go"]}
{"id": "C39", "title": "Counters stay positive and are removed at zero", "statement": "Stored counters are always positive: a decrement that would reach zero or less removes the counter, decrementing an absent counter changes nothing, setting a counter to zero or less removes it, setting it to a positive value stores exactly this value.", "quantifier": "all histories", "why_tests_cant": "histories", "anchors": ["internal/limiter/counters/counter_client_local.go:DecrementCounters", "internal/limiter/counters/counter_client_local.go:SetCounter", "internal/limiter/counters/memory/counter.go"]}
{"id": "C40", "title": "Rule and override identity and lifecycle", "statement": "Rules are unique per group-by key-values, overrides are unique per rule and key-values; deleting a rule removes its overrides; no override exists without its rule.", "quantifier": "all histories", "why_tests_cant": "histories", "anchors": ["internal/limiter/rules/rules_client_local.go", "internal/limiter/overrides/overrides_client_local.go"]}
{"id": "C41", "title": "Concurrent increments on a shared group are serialized", "statement": "Two increments whose counters agree on the group-by values of a rule both match always contend on at least one common lock, so their check-and-update phases do not overlap.", "quantifier": "all pairs of counters and rules", "why_tests_cant": "needs all pairs and all interleavings", "anchors": ["internal/limiter/counters/counter_client_local.go:IncrementCounters"]}
{"id": "C42", "title": "Limiter increments never deadlock on each other's locks", "statement": "Increments acquire their locks in one global order, so no set of concurrent increments can wait for each other in a cycle.", "quantifier": "any number of concurrent increments with any key sets", "why_tests_cant": "deadlocks need specific interleavings", "anchors": ["internal/limiter/counters/counter_client_local.go:IncrementCounters", "pkg/models/datatypes/map_string_encapsulated_value.go:SortedKeys"]}
{"id": "C43", "title": "Items leave a channel in queue order", "statement": "A dequeue hands out the item at the front of the channel; items that were enqueued and not updated, retried or dropped are delivered in the order they were enqueued.", "quantifier": "all histories of enqueue, dequeue, ack, fail and timeout", "why_tests_cant": "histories", "anchors": ["internal/willow/brokers/queue_channels/memory/memory_queue_channel.go:dequeue", "internal/willow/brokers/queue_channels/memory/memory_queue_channel.go:Enqueue"]}
{"id": "C44", "title": "No item is lost or duplicated", "statement": "Every stored item is at every time in exactly one place: waiting exactly once in the queue order or being processed by exactly one consumer; an item leaves the channel only by a successful ack, by using up its retries, by being superseded while updateable, or by deletion of the channel.", "quantifier": "all histories and interleavings", "why_tests_cant": "histories", "anchors": ["internal/willow/brokers/queue_channels/memory/memory_queue_channel.go"]}
{"id": "C45", "title": "Enqueue updates only an updateable last item", "statement": "An enqueue replaces the payload of the last waiting item iff that item is updateable; otherwise it appends a new item; no other item changes.", "quantifier": "all channel states", "why_tests_cant": "state space", "anchors": ["internal/willow/brokers/queue_channels/memory/memory_queue_channel.go:Enqueue"]}
{"id": "C46", "title": "A successful ack removes exactly the acked, processing item", "statement": "Acking an item as passed removes it iff it is being processed, and then removes only it; for any other id the answer is not-found and nothing changes.", "quantifier": "all channel states and item ids", "why_tests_cant": "state space", "anchors": ["internal/willow/brokers/queue_channels/memory/memory_queue_channel.go:ACK"]}
{"id": "C47", "title": "A failed item is retried at most the configured number of times", "statement": "An item that is never updated is handed out at most RetryAttempts+1 times successfully (deliveries that could not be sent to the client not counted), then it is removed.", "quantifier": "all histories, all retry settings", "why_tests_cant": "histories", "anchors": ["internal/willow/brokers/queue_channels/memory/memory_queue_channel.go:failItem"]}
{"id": "C48", "title": "A failed item goes back to the position its owner chose", "statement": "A failed item with retries left goes to the front or to the back as configured, unless it is superseded (front, updateable, something waiting) or supersedes (back, last waiting item updateable).", "quantifier": "all channel states", "why_tests_cant": "state space", "anchors": ["internal/willow/brokers/queue_channels/memory/memory_queue_channel.go:failItem"]}
{"id": "C49", "title": "The enqueued counter in the limiter equals the number of stored items", "statement": "At every quiescent point the limiter's enqueued count for a channel equals the number of items stored in the channel, so removed items free capacity.", "quantifier": "all histories", "why_tests_cant": "drift appears only after specific histories", "anchors": ["internal/willow/brokers/queue_channels/memory/memory_queue_channel.go:failItem", "internal/willow/brokers/queue_channels/memory/memory_queue_channel.go:limiterUpdateEnqueuedValue"]}
{"id": "C50", "title": "The running counter in the limiter equals the number of items being processed", "statement": "At every quiescent point the limiter's running count for a channel equals the number of items handed out and not yet acked, failed or timed out.", "quantifier": "all histories", "why_tests_cant": "drift appears only after specific histories", "anchors": ["internal/willow/brokers/queue_channels/memory/memory_queue_channel.go:limterUpdateRunningValue", "internal/willow/brokers/queue_channels/memory/memory_queue_channel.go:dequeue"]}
{"id": "C51", "title": "Dequeue never runs on an empty channel", "statement": "The notifier's pending count matches the number of waiting items, so the dequeue callback always finds an item and never crashes.", "quantifier": "all histories and interleavings", "why_tests_cant": "histories", "anchors": ["internal/willow/brokers/queue_channels/memory/memory_queue_channel.go:dequeue", "internal/willow/brokers/queue_channels/memory/memory_queue_channel.go:Execute"]}
{"id": "C52", "title": "A channel is auto-deleted only when it holds no items", "statement": "The automatic deletion after an ack or timeout removes a channel only if it has neither waiting nor processing items.", "quantifier": "all histories", "why_tests_cant": "races between ack and enqueue", "anchors": ["internal/willow/brokers/queue_channels/memory/memory_queue_channel.go:Delete", "internal/willow/brokers/queue_channels/queue_channels_client_local.go:ACK"]}
{"id": "C53", "title": "A queue never stores more items than its maximum", "statement": "With the limiter enforcing the queue's override, the number of items stored over all channels of a queue never exceeds MaxItems while MaxItems is not lowered.", "quantifier": "all histories over all channels of a queue", "why_tests_cant": "histories across two services", "anchors": ["internal/willow/brokers/queues/memory/memory_queue.go", "internal/willow/brokers/queue_channels/memory/memory_queue_channel.go:Enqueue", "internal/limiter/counters/counter_client_local.go"]}
{"id": "C54", "title": "Failing one item reports success only if it was being processed", "statement": "Acking an item as failed answers not-found unless the item is being processed, in which case it is retried or dropped.", "quantifier": "all channel states and item ids", "why_tests_cant": "state space", "anchors": ["internal/willow/brokers/queue_channels/memory/memory_queue_channel.go:ACK", "internal/willow/brokers/queue_channels/memory/memory_queue_channel.go:failItem"]}
{"id": "C55", "title": "A waiting consumer does not block other clients", "statement": "While a consumer waits in dequeue for an item, other clients can still create queues and enqueue items, so the wait can end.", "quantifier": "all interleavings of a waiting consumer, a queue creator and a producer", "why_tests_cant": "needs an interleaving of three clients", "anchors": ["internal/willow/brokers/queues/queues_client_local.go:Dequeue", "internal/willow/brokers/queues/queues_client_local.go:CreateQueue", "internal/datastructures/btree/threadsafe_find.go:findMatchType", "internal/datastructures/btree/threadsafe_create.go:Create"]}
{"id": "C56", "title": "Queues form a map from names to queues", "statement": "Create fails iff a queue of this name exists, get/list/update/delete act on exactly the named queue, and a failed create or a failed delete leaves all queues as they were.", "quantifier": "all histories of queue operations", "why_tests_cant": "histories, with failures of the limiter in between", "anchors": ["internal/willow/brokers/queues/queues_client_local.go"]}
{"id": "C57", "title": "No willow request crashes the service", "statement": "Every queue, channel or item request, valid or not, is answered, and the service goes on: no nil dereference, no invalid timer, no panic in a query, no fatal error.", "quantifier": "all histories of requests with all bodies, and all failures of the limiter", "why_tests_cant": "the failing values are outside the tested ones", "anchors": ["pkg/models/api/willow/v1/queue.go", "pkg/models/api/willow/v1/item.go", "internal/willow/brokers/queues/memory/memory_queue.go:New", "internal/willow/brokers/queue_channels/memory/memory_queue_channel_item.go:CreateHeartbeater"]}
{"id": "C58", "title": "A client that believes it holds a lock really holds it", "statement": "As long as a lock client has not signalled Done, the service has not granted the lock to anybody else.", "quantifier": "all timings of heartbeats, responses and timers", "why_tests_cant": "real-time races", "anchors": ["pkg/clients/locker_client/lock.go", "internal/locker/lock_manager/exclusive_lock.go"]}
{"id": "C59", "title": "A processed heartbeat postpones the timeout by the full period", "statement": "If a heartbeat of an item (or Start) was processed, the timeout callback is not called before the full timeout has passed since then.", "quantifier": "all timings of heartbeats and ticks", "why_tests_cant": "needs the tick and the heartbeat at the same moment", "anchors": ["internal/heartbeater/heartbeater.go:Execute"]}
{"id": "C60", "title": "Every ack, heartbeat and dequeue of an item is answered", "statement": "A call to ack or heartbeat an item always returns, whatever the state of the item's timeout, and does not stop other calls on the channel from returning.", "quantifier": "all interleavings of ack, heartbeat, dequeue callbacks and timeouts", "why_tests_cant": "the deadlocks need a call to meet a timeout that is just firing", "anchors": ["internal/willow/brokers/queue_channels/memory/memory_queue_channel.go:ACK", "internal/willow/brokers/queue_channels/memory/memory_queue_channel.go:Heartbeat", "internal/willow/brokers/queue_channels/memory/memory_queue_channel_item.go", "internal/heartbeater/heartbeater.go"]}
{"id": "C61", "title": "Deleting a channel never crashes the service", "statement": "While a channel or its queue is deleted, dequeues and timeouts of its items that happen at the same time do not crash the process.", "quantifier": "all interleavings of a deletion with dequeues, acks and timeouts", "why_tests_cant": "races", "anchors": ["internal/willow/brokers/queue_channels/memory/memory_queue_channel.go:ForceDelete", "internal/willow/brokers/queue_channels/memory/memory_queue_channel.go:failItem", "internal/datastructures/btree/threadsafe_destroy.go"]}
{"id": "C62", "title": "The timeout of an item is the one last requested for it", "statement": "After an enqueue stores or updates an item, its heartbeat timeout is the one in that request.", "quantifier": "all histories of enqueues", "why_tests_cant": "histories", "anchors": ["internal/willow/brokers/queue_channels/memory/memory_queue_channel.go:Enqueue"]}
{"id": "C63", "title": "A heartbeat is answered with success exactly for items being processed", "statement": "A heartbeat that returns reports success if the item was handed out and not yet acked, failed or timed out, and not-found otherwise; it changes no item, no order and no counter.", "quantifier": "all channel states and item ids", "why_tests_cant": "state space", "anchors": ["internal/willow/brokers/queue_channels/memory/memory_queue_channel.go:Heartbeat", "internal/willow/brokers/queue_channels/memory/memory_queue_channel_item.go:Heartbeat"]}
{"id": "C64", "title": "Concurrent increments of a counter are never lost", "statement": "After any interleaving of increments, the value of a counter is what it was before plus the amounts of exactly the increments of it that were accepted.", "quantifier": "all interleavings of increments with each other, with changes of rules and with changes of other counters", "why_tests_cant": "lost updates appear only in specific schedules", "anchors": ["internal/limiter/counters/counter_client_local.go:IncrementCounters", "internal/limiter/counters/memory/counter.go"]}
{"id": "C66", "title": "Limits on processing hold over all channels and queues", "statement": "If a rule or override of the limiter limits a group of willow's running counters, the number of items being processed at the same time over all channels that belong to the group never exceeds the limit while the limit is not changed.", "quantifier": "all histories of all channels, interleaved with any requests to the limiter that leave the rule alone", "why_tests_cant": "histories across two services", "anchors": ["internal/willow/brokers/queue_channels/memory/memory_queue_channel.go:dequeue", "internal/willow/brokers/queue_channels/memory/memory_queue_channel.go:limterUpdateRunningValue", "internal/limiter/counters/counter_client_local.go"]}
{"id": "C67", "title": "Willow can be started on every limiter it can reach", "statement": "When willow starts, it sets up its rule on the limiter and serves requests; in particular a willow that crashed or was stopped can be started again on the same limiter.", "quantifier": "all histories of the limiter before the start, including earlier runs of willow", "why_tests_cant": "histories across restarts", "anchors": ["cmd/willow/main.go", "internal/willow/brokers/queues/queues_client_local.go:NewLocalQueueClient", "internal/limiter/rules/rules_client_local.go:CreateRule"]}
{"id": "C68", "title": "A waiting consumer hears of every matching channel", "statement": "A client that waits in a dequeue request is listening to every channel of the queue that its query selects, whether the channel existed before the request, was created while the request was looking for channels, or afterwards; an item for such a channel can therefore wake it.", "quantifier": "all interleavings of the steps of any number of dequeue requests with the steps of channel creations and deletions", "why_tests_cant": "lost wake-ups appear only in specific schedules", "anchors": ["internal/willow/brokers/queue_channels/queue_channels_client_local.go:DequeueQueueItem", "internal/willow/brokers/queue_channels/queue_channels_client_local.go:EnqueueQueueItem", "internal/willow/brokers/queue_channels/queue_channels_client_local.go:updateClientsWaiting", "internal/datastructures/btree_associated/threadsafe_create.go:CreateOrFind", "internal/datastructures/btree_associated/threadsafe_query.go:QueryAction"]}
{"id": "C69", "title": "A consumer only listens to channels its query selects", "statement": "A dequeue request is connected only to channels whose key-values satisfy its query, so it never takes an item from another channel.", "quantifier": "all interleavings of dequeue requests with channel creations and deletions", "why_tests_cant": "wrong matches appear only in specific schedules or queries", "anchors": ["internal/willow/brokers/queue_channels/queue_channels_client_local.go:DequeueQueueItem", "internal/willow/brokers/queue_channels/queue_channels_client_local.go:updateClientsWaiting", "internal/datastructures/btree_associated/threadsafe_query.go:findIDs"]}
{"id": "C70", "title": "A willow request answered with an error changes nothing", "statement": "If willow answers a request with 400, 404, 409 or 500, all queues, their limits, channels and waiting items are as before.", "quantifier": "all histories of requests with all bodies, and all failures of the limiter", "why_tests_cant": "depends on partial effects before a late failure; needs all histories", "anchors": ["internal/willow/api/v1/handlers/channel_handler.go:ChannelDelete", "internal/willow/api/v1/handlers/item_handler.go", "internal/willow/brokers/queues/queues_client_local.go:DeleteQueue", "internal/willow/brokers/queue_channels/queue_channels_client_local.go"]}
{"id": "C71", "title": "Heartbeats that get through keep a lock", "statement": "If the answers to ObtainLock and to the heartbeats of a lock client arrive with delays that together with one heartbeat period stay below the lock's timeout, the client never loses the lock: the service does not expire it and the client's Done stays open until Release.", "quantifier": "all interleavings and delays of clients, heartbeats and timers within the bound, any number of clients", "why_tests_cant": "real-time races", "anchors": ["pkg/clients/locker_client/lock.go:newLock", "internal/locker/lock_manager/exclusive_lock.go:Execute"]}
{"id": "C72", "title": "An item is with one consumer at a time", "statement": "As long as the Done channel of a dequeued item has not been closed at its consumer, the service has not delivered the item to another consumer.", "quantifier": "all timings of heartbeats, responses, acknowledgements and timers, any number of deliveries", "why_tests_cant": "real-time races", "anchors": ["pkg/clients/willow_client/item.go:newItem", "internal/willow/brokers/queue_channels/memory/memory_queue_channel.go:Heartbeat", "internal/willow/brokers/queue_channels/memory/memory_queue_channel.go:ACK", "internal/heartbeater/heartbeater.go:Execute"]}
{"id": "C73", "title": "A dequeued item does not crash its consumer", "statement": "The background heartbeats of a dequeued item never panic, whatever the network does and whenever ACK is called.", "quantifier": "all interleavings of heartbeats, failures and ACK, all timeouts", "why_tests_cant": "needs a failing request at the moment of the ACK", "anchors": ["pkg/clients/willow_client/item.go:newItem", "pkg/clients/willow_client/item.go:ACK"]}
{"id": "C74", "title": "Querying locks answers with every matching lock", "statement": "A query of the locks is answered with exactly the locks it selects, each once, with the id, the session currently holding it (if any) and the number of clients holding or waiting for it.", "quantifier": "all states and schedules of any number of clients and key-values while the query runs", "why_tests_cant": "depends on the moment each lock is visited relative to grants, releases and timeouts", "anchors": ["internal/locker/lock_manager/exclusive_locker.go:LocksQuery", "internal/locker/api/v1/handlers/locker_handler.go:Query", "pkg/models/api/locker/v1/lock.go:Validate", "pkg/models/api/server.go:ModelEncodeResponse"]}
{"id": "C75", "title": "Reads of rules and overrides return exactly the matching ones", "statement": "Querying or matching rules answers with exactly the stored rules the request selects, each once with its current limit; the same for the overrides of one rule; a missing rule is answered with 404.", "quantifier": "all histories of limiter requests and all valid queries and matches", "why_tests_cant": "quantifies over all histories and all queries", "anchors": ["internal/limiter/rules/rules_client_local.go:QueryRules", "internal/limiter/rules/rules_client_local.go:MatchRules", "internal/limiter/rules/rules_client_local.go:QueryOverrides", "internal/limiter/rules/rules_client_local.go:MatchOverrides", "internal/limiter/overrides/overrides_client_local.go:QueryOverrides", "internal/limiter/overrides/overrides_client_local.go:MatchOverrides"]}
{"id": "C78", "title": "A consumer that heartbeats keeps its item", "statement": "While a consumer of the Go client holds a dequeued item and its heartbeat requests reach the service in time, the service does not expire the delivery and the item's Done stays open until the consumer calls ACK.", "quantifier": "all interleavings and delays of consumers, heartbeats and timers within the bound, all timeouts, any number of deliveries", "why_tests_cant": "real-time behaviour of the client's loop against the server's timer over unboundedly many heartbeats", "anchors": ["pkg/clients/willow_client/item.go:newItem", "internal/middleware/encoder.go:ValidateReqHeaders", "internal/willow/api/v1/router/willow_url_router.go:AddV1WillowRoutes", "internal/willow/brokers/queue_channels/memory/memory_queue_channel.go:Heartbeat"]}
{"id": "C76", "title": "A client call that names a queue reaches exactly that queue", "statement": "A call of the willow client that names a queue acts on the queue of that name, and on no other, whatever the name is.", "quantifier": "all calls of the client, all byte strings as names, HTTP/1.1 and HTTP/2", "why_tests_cant": "quantifies over all names; tests use plain ones", "anchors": ["pkg/clients/willow_client/queue.go", "pkg/clients/willow_client/channel.go", "pkg/clients/willow_client/item.go", "internal/willow/api/v1/router/willow_url_router.go:AddV1WillowRoutes", "internal/middleware/encoder.go:ValidateReqHeaders"]}
{"id": "C77", "title": "What a client call returns is what happened", "statement": "If a call of the willow client returns no error, it did what it asked for and returned what it found; if it returns an error, nothing changed at the service.", "quantifier": "all histories of requests, all calls with all arguments, and all failures of the limiter", "why_tests_cant": "needs every history before the call and every point of failure", "anchors": ["pkg/clients/willow_client/queue.go", "pkg/clients/willow_client/channel.go", "pkg/clients/willow_client/item.go:ACK", "pkg/models/api/client.go", "pkg/models/api/server.go"]}
{"id": "C79", "title": "A request does what it is for and nothing else", "statement": "A request to willow that is not answered with an error does exactly what it is for: it creates, changes or removes the queue it names, puts an item at the end of the channel with its key-values, or takes the oldest item of one channel that its query selects; limits, channels and items of all other queues stay as they are, and no item is lost, duplicated or invented.", "quantifier": "all histories of requests, one after the other", "why_tests_cant": "quantifies over all histories", "anchors": ["internal/willow/api/v1/handlers/queue_handler.go", "internal/willow/api/v1/handlers/channel_handler.go", "internal/willow/api/v1/handlers/item_handler.go", "internal/willow/brokers/queues/queues_client_local.go", "internal/willow/brokers/queue_channels/queue_channels_client_local.go"]}
{"id": "C80", "title": "Overlapping calls on a tree behave as if each happened at one moment", "statement": "Whatever the interleaving of Create, CreateOrFind, exact Find and Delete calls by any number of goroutines, every call returns what it would return if each call had happened in one indivisible step between its start and its end, and the tree then holds exactly the items of that order of steps; in particular at most one of several simultaneous creators of a key is told that it created it.", "quantifier": "all interleavings of any number of calls, all keys and items, all node sizes of at least two", "why_tests_cant": "the schedules of goroutines over the locks of all nodes are unbounded; the race detector sees only those that happen", "anchors": ["internal/datastructures/btree/threadsafe_create.go", "internal/datastructures/btree/threadsafe_find.go:find", "internal/datastructures/btree/threadsafe_delete.go"]}
{"id": "C81", "title": "Every call on a tree returns", "statement": "Calls on a tree never deadlock or run for ever: as long as a call has not returned some call can go on, and unless new calls are made again and again all calls return.", "quantifier": "all interleavings of any number of Create, CreateOrFind, exact Find and Delete calls", "why_tests_cant": "a deadlock needs a particular schedule of several goroutines; termination is about infinite runs", "anchors": ["internal/datastructures/btree/threadsafe_create.go", "internal/datastructures/btree/threadsafe_find.go:find", "internal/datastructures/btree/threadsafe_delete.go"]}
{"id": "C82", "title": "Every request to the limiter does to rules, overrides and counters what it says, and is answered", "statement": "A request to the limiter with a body that does not pass validation is answered 400 and changes nothing; any other request changes the rules, overrides and counters exactly as its documentation says, is answered with what is then there (or 404, 409), and leaves everything else alone.", "quantifier": "all histories of requests of all fifteen endpoints with arbitrary bodies, one after the other", "why_tests_cant": "quantifies over all histories and all bodies", "anchors": ["internal/limiter/api/v1/handlers/rules_handler.go", "internal/limiter/api/v1/handlers/overrides_handler.go", "internal/limiter/api/v1/handlers/counters_handler.go", "internal/limiter/rules/rules_client_local.go", "internal/limiter/overrides/overrides_client_local.go", "internal/limiter/counters/counter_client_local.go"]}
{"id": "C83", "title": "What a call of the limiter client returns is what happened", "statement": "A call of the limiter client acts on the rule, override or counter that it names and on nothing else: if it returns no error it did what it asked for and returned what is there; if it returns an error nothing changed at the service, and an error of the service is passed on with its status.", "quantifier": "all histories of requests, all calls with all arguments, HTTP/1.1 and HTTP/2", "why_tests_cant": "quantifies over all names, keys, queries and histories", "anchors": ["pkg/clients/limiter_client/rule.go", "pkg/clients/limiter_client/override.go", "pkg/clients/limiter_client/counter.go", "internal/limiter/api/v1/router/url_router.go", "pkg/models/api/client.go"]}
{"id": "C84", "title": "Limits hold although locks can be lost", "statement": "However increments interleave, and whichever of their locks the locker takes back at whatever moment (a lease that ran out, a locker that was restarted), the total of a group of counters never exceeds its limit, no increment waits for ever, and every counter is what the accepted increments add up to.", "quantifier": "all interleavings of any number of increments, other requests and losses of locks", "why_tests_cant": "the moments at which leases can run out relative to the steps of other requests are unbounded", "anchors": ["internal/limiter/counters/counter_client_local.go:IncrementCounters", "pkg/clients/locker_client/lock.go", "internal/locker/lock_manager"]}
{"id": "C85", "title": "Settings take effect", "statement": "Each setting of the locker, the limiter and willow has the value of its documented environment variable if that is set and not empty, otherwise of the last flag on the command line, otherwise its documented default; a service starts exactly with a usable configuration (known log level, existing port, matching certificates, positive timeout, known storage); client certificates that are configured are used.", "quantifier": "all command lines, environments and client configurations", "why_tests_cant": "quantifies over all arguments and environments; the service exits on errors, which unit tests do not exercise", "anchors": ["internal/config/locker_config.go:Locker", "internal/config/limiter_config.go:Limiter", "internal/config/willow_config.go:Willow", "pkg/clients/client_config.go:Validate", "pkg/clients/http_client.go:NewHTTPClient"]}
{"id": "C86", "title": "Overlapping calls on an associated tree behave as if each acted at one moment", "statement": "Whatever the interleaving of any number of calls on a tree of key-values (create, create or find, exact query, delete, destroy by id), what the callers see is a history of a map from key-values to items on which each call acts at one moment between its call and its return: of several creates of the same key-values one creates the item, what was created is found, an item is removed once, ids are unique, and every create-or-find returns an item.", "quantifier": "all interleavings of any number of calls with arbitrary key-values", "why_tests_cant": "quantifies over all schedules of unboundedly many goroutines", "anchors": ["internal/datastructures/btree_associated/threadsafe_create.go", "internal/datastructures/btree_associated/threadsafe_query.go:QueryAction", "internal/datastructures/btree_associated/threadsafe_delete.go:Delete", "internal/datastructures/btree_associated/threadsafe_destroy.go:DestroyByAssociatedID"]}
{"id": "C87", "title": "Every call on an associated tree returns", "statement": "Calls on a tree of key-values never wait for each other for ever and never run for ever: creating, finding and removing rules, counters, locks and channels at the same time always ends.", "quantifier": "all interleavings of any number of calls with arbitrary key-values", "why_tests_cant": "a deadlock needs a particular schedule of several goroutines; termination is about infinite runs", "anchors": ["internal/datastructures/btree_associated/threadsafe_create.go", "internal/datastructures/btree_associated/threadsafe_delete.go:Delete", "internal/datastructures/btree_associated/threadsafe_destroy.go:DestroyByAssociatedID", "internal/limiter/rules/rules_client_local.go"]}
{"id": "C88", "title": "A queue may be deleted while it is in use", "statement": "DeleteQueue at any moment, next to any other requests, removes exactly that queue with its items or leaves it, never ends the service, and requests on the queue are served before it, refused or told that the queue is missing: nothing is accepted into a queue that is being removed, at most one deletion works on a queue, and a queue created again under the same name begins empty.", "quantifier": "all interleavings of any number of requests, deletions and deliveries that run out of time", "why_tests_cant": "the crash needs a goroutine of an earlier request to run in the middle of a deletion; quantifies over all schedules", "anchors": ["internal/willow/brokers/queues/queues_client_local.go:DeleteQueue", "internal/willow/brokers/queue_channels/queue_channels_client_local.go:DequeueQueueItem", "internal/willow/brokers/queue_channels/queue_channels_client_local.go:attemptDeleteChannel", "internal/datastructures/btree/threadsafe_destroy.go:Destroy"]}
{"id": "C89", "title": "A lock client can be shared by goroutines", "statement": "Goroutines that share a lock client, or use several, can call ObtainLock and Release in any order: ObtainLock returns a lock for the key-values it was called with as soon as it is free; at most one goroutine holds the lock of given key-values; Release always returns and frees the lock; nobody waits for a lock that was released.", "quantifier": "all histories of any number of goroutines and clients, with arbitrary key-values", "why_tests_cant": "deadlocks and double holders need particular schedules of several goroutines in several processes", "anchors": ["pkg/clients/locker_client/locker_client.go:ObtainLock", "pkg/clients/locker_client/lock.go:Release", "internal/datastructures/btree_associated/threadsafe_create.go:CreateOrFind", "internal/datastructures/btree_associated/threadsafe_delete.go:Delete"]}
{"id": "C90", "title": "A match reports what matches, next to other calls", "statement": "MatchAction on a tree of key-values (which rules, overrides or limits apply to these key-values?) may be called while other calls create, find and remove items: what its callback is called with is there at that moment, matches and is reported once; every matching item that is there during the whole match is reported unless the callback asks for no more; items that are being removed are skipped.", "quantifier": "all interleavings of any number of matches and of other calls, with arbitrary key-values and callbacks", "why_tests_cant": "the item is missed only if the match comes across another one in the middle of its destruction; quantifies over all schedules", "anchors": ["internal/datastructures/btree_associated/threadsafe_match.go:MatchAction", "internal/datastructures/btree_associated/threadsafe_destroy.go:DestroyByAssociatedID", "internal/limiter/rules/rules_client_local.go:FindLimits", "internal/limiter/overrides/overrides_client_local.go:FindOverrideLimits"]}
{"id": "C91", "title": "A rule may be deleted while other requests are served", "statement": "DeleteRule next to any other requests removes exactly that rule with its overrides: from its beginning on requests for the rule are told that it is missing or being deleted, no override is left behind or attached to another rule, nothing else changes, and increments of counters obey the limits of all rules that nobody is deleting, neither refused by mistake nor accepted by mistake.", "quantifier": "all histories of requests with any number of deletions under way, all keys and limits", "why_tests_cant": "the window between marking a rule and removing it is only seen by requests served at that moment; quantifies over all histories", "anchors": ["internal/limiter/rules/rules_client_local.go:DeleteRule", "internal/limiter/rules/rules_client_local.go:FindLimits", "internal/limiter/overrides/overrides_client_local.go:DestroyOverrides", "internal/limiter/counters/counter_client_local.go:IncrementCounters", "internal/datastructures/btree_associated/threadsafe_match.go:MatchAction"]}
{"id": "C92", "title": "A channel that hit a processing limit waits until it is free", "statement": "After the limiter refused to count an item of a channel as running, the channel checks the limits that apply to it, waits as long as one of them is reached and offers the item again as soon as none is; a check always ends, changes nothing, and never ends the service, whatever other requests the limiter serves meanwhile.", "quantifier": "all histories of the limiter before and during the check, all rules, overrides and counters, all keys of a channel, all orders of answers, lost answers", "why_tests_cant": "the check is several calls with other requests in between; the busy loop and the crash need particular rules or a deletion at one moment", "anchors": ["internal/willow/brokers/queue_channels/memory/memory_queue_channel.go:Execute", "pkg/clients/limiter_client/limiter_client.go:MatchRules", "pkg/clients/limiter_client/limiter_client.go:MatchOverrides", "pkg/clients/limiter_client/limiter_client.go:QueryCounters"]}
{"id": "C93", "title": "The locker can be stopped", "statement": "After the locker is told to stop, every request that is being served is answered, within a bounded number of steps, and every goroutine ends: a lock still held is given up, waiting clients are told to retry, pending timeouts are processed, and requests that come in during the stop are refused.", "quantifier": "all reachable states at the moment of the stop and all schedules after it", "why_tests_cant": "the hangs need a timeout, a request and the stop within the same instant, or a request in the window between the stop of the locks and of the HTTP server", "anchors": ["internal/locker/lock_manager/exclusive_lock.go:Execute", "internal/locker/lock_manager/exclusive_locker.go:ObtainLock", "internal/locker/lock_manager/exclusive_lock.go:LostClient", "internal/locker/lock_manager/exclusive_lock.go:Heartbeat", "internal/locker/api/locker_server_tcp.go:Execute"]}
{"id": "C94", "title": "Willow can be stopped", "statement": "After willow is told to stop, or a channel is deleted, the channel comes to its end: consumers that wait for an item are answered, a delivery in progress is completed, every goroutine returns, and an ACK or heartbeat that arrives meanwhile is answered.", "quantifier": "all reachable states of a channel at the moment of the stop or the deletion, all schedules and arrivals after it", "why_tests_cant": "the hangs need an ACK or heartbeat in the instant between the timeout of an item and its processing, or before the delivery is completed", "anchors": ["internal/willow/brokers/queue_channels/memory/memory_queue_channel.go:Execute", "internal/willow/brokers/queue_channels/memory/memory_queue_channel.go:ACK", "internal/willow/brokers/queue_channels/memory/memory_queue_channel.go:Heartbeat", "internal/willow/brokers/queue_channels/memory/memory_queue_channel.go:ForceDelete", "internal/heartbeater/heartbeater.go:Execute"]}
{"id": "C95", "title": "A query reports what it selects, next to other calls", "statement": "QueryAction on a tree of key-values (list rules, overrides, counters or locks that satisfy a query) may be called while other calls create, find and remove items: what its callback is called with is there at that moment, nobody has begun to remove it, it satisfies the query and is reported once; an item that is there during the whole query is reported if and only if it satisfies the query, unless the callback asks for no more; nothing is reported after that, and the query does not panic.", "quantifier": "all interleavings of any number of queries and of other calls, with arbitrary queries, key-values and callbacks, in every order in which the index is walked", "why_tests_cant": "a query is many separate reads; the wrong report needs a create between two of them; quantifies over all schedules", "anchors": ["internal/datastructures/btree_associated/threadsafe_query.go:QueryAction", "internal/datastructures/btree_associated/threadsafe_query.go:query", "internal/datastructures/btree_associated/threadsafe_query.go:findIDs", "internal/limiter/counters/counter_client_local.go:QueryCounters"]}
{"id": "C96", "title": "Every client that waits for a lock gets it", "statement": "While the locker runs, every client that waits for a lock is granted it in the end, in every schedule, once the clients that hold it release it or stop sending heartbeats: nobody who waits is forgotten or turned away, whichever requests are being served at that time; when all are served the lock is removed.", "quantifier": "all reachable states of a running service, all schedules after it", "why_tests_cant": "a forgotten client would only be seen in a particular interleaving of timeouts, releases, disconnects and claims; that all schedules end cannot be tested", "anchors": ["internal/locker/lock_manager/exclusive_lock.go:Execute", "internal/locker/lock_manager/exclusive_locker.go:ObtainLock", "internal/locker/lock_manager/exclusive_lock.go:ReleaseLock", "internal/locker/lock_manager/exclusive_lock.go:TimeOut", "internal/locker/lock_manager/exclusive_locker.go:timeout"]}
{"id": "C97", "title": "Every item that waits in a channel is handed out", "statement": "While consumers keep asking a channel for items and take what they are offered, and the limiter allows it, every item that waits in the channel is handed out in the end, or a newer item takes its place: whichever items are acked, fail, time out, are retried or superseded, and in whatever order; then all retries are used up and the channel is empty.", "quantifier": "all reachable states of a channel, all schedules of deliveries, ACKs, heartbeats and timeouts after it", "why_tests_cant": "a lost notification would only be seen in a particular interleaving; that all schedules end cannot be tested", "anchors": ["internal/willow/brokers/queue_channels/memory/memory_queue_channel.go:Execute", "internal/willow/brokers/queue_channels/memory/memory_queue_channel.go:failItem", "internal/willow/brokers/queue_channels/memory/memory_queue_channel.go:dequeue", "internal/willow/brokers/queue_channels/memory/memory_queue_channel.go:ACK"]}
{"id": "C98", "title": "No item starves", "statement": "However many items are enqueued, retried or superseded meanwhile, an item that waits in a channel is handed out after a number of deliveries that is fixed from the start: the items in front of it and those being processed, each with the retries it has left, and one more for each delivery that is lost with its consumer; unless a newer item takes its place first.", "quantifier": "all reachable states of a channel, all items that wait in it, all histories after it", "why_tests_cant": "starvation shows only in histories of any length; the bound must hold whatever is enqueued and whatever fails", "anchors": ["internal/willow/brokers/queue_channels/memory/memory_queue_channel.go:Enqueue", "internal/willow/brokers/queue_channels/memory/memory_queue_channel.go:failItem", "internal/willow/brokers/queue_channels/memory/memory_queue_channel.go:dequeue"]}
{"id": "C99", "title": "A range search reports what is there, next to other calls", "statement": "While any number of goroutines create, find, delete and search, a range search of a tree whose callback always asks for more gets every pair that is in the tree from before the search begins until it is over exactly once if its key belongs to the range, and no pair outside the range and none that is never in the tree meanwhile; a pair that is created or deleted once meanwhile is reported at most once.", "quantifier": "all interleavings of any number of calls and range searches, all ranges, keys and items, all node sizes of at least two", "why_tests_cant": "splits, rotations and merges next to a search need a particular schedule; a pair that is moved past the search would be lost or doubled silently", "anchors": ["internal/datastructures/btree/threadsafe_find.go:iterate", "internal/datastructures/btree/threadsafe_find.go:findLessThan", "internal/datastructures/btree/threadsafe_find.go:findLessThanOrEqual", "internal/datastructures/btree/threadsafe_find.go:findGreaterThan", "internal/datastructures/btree/threadsafe_find.go:findGreaterThanOrEqual", "internal/datastructures/btree/threadsafe_create.go", "internal/datastructures/btree/threadsafe_delete.go"]}
{"id": "C100", "title": "Range searches do not disturb other calls", "statement": "Whatever the interleaving of Create, CreateOrFind, exact Find and Delete calls with range searches of the same tree, every call returns what it would return if each call had happened in one indivisible step between its start and its end, and the tree holds exactly the items of that order.", "quantifier": "all interleavings of any number of calls and range searches, all keys and items, all node sizes of at least two", "why_tests_cant": "the schedules over the locks of all nodes are unbounded", "anchors": ["internal/datastructures/btree/threadsafe_find.go", "internal/datastructures/btree/threadsafe_create.go", "internal/datastructures/btree/threadsafe_delete.go"]}
{"id": "C101", "title": "Searches and calls end", "statement": "However many calls and range searches of one tree are under way at the same time, they never all wait for each other: some of them can always go on until every call has returned and every search is over, and all of them end unless new ones are begun again and again.", "quantifier": "all interleavings of any number of calls and range searches, all ranges, keys and items, all node sizes of at least two", "why_tests_cant": "a deadlock between a search that holds several nodes and a split or merge that locks several nodes needs a particular schedule; that all schedules end cannot be tested", "anchors": ["internal/datastructures/btree/threadsafe_find.go:iterate", "internal/datastructures/btree/threadsafe_find.go:findLessThan", "internal/datastructures/btree/threadsafe_find.go:findLessThanOrEqual", "internal/datastructures/btree/threadsafe_find.go:findGreaterThan", "internal/datastructures/btree/threadsafe_find.go:findGreaterThanOrEqual", "internal/datastructures/btree/threadsafe_create.go", "internal/datastructures/btree/threadsafe_delete.go"]}
{"id": "C102", "title": "Destroying all values next to other calls", "statement": "While DestroyAll of the ordered tree deletes the values no other call of the tree is at work and no second DestroyAll is under way: calls that come meanwhile return ErrorTreeDestroying. DestroyAll waits for the calls that had begun before, then goes on and returns, whatever calls are made meanwhile; nobody panics, and afterwards the tree accepts calls again.", "quantifier": "all interleavings of any number of calls and any number of DestroyAlls of one tree, down to the single atomic operations of the counter of calls", "why_tests_cant": "the windows between two atomic operations inside Add and Wait of the sync.WaitGroup are a few instructions wide and no test can place another call there; that a DestroyAll sleeps for ever is not observable in a finite run", "anchors": ["internal/datastructures/btree/threadsafe_destroy.go:DestroyAll", "internal/datastructures/btree/threadsafe_destroy.go:Destroy", "internal/datastructures/btree/threadsafe_create.go:Create", "internal/datastructures/btree/threadsafe_find.go:Find", "internal/datastructures/btree/threadsafe_delete.go:Delete", "internal/datastructures/btree/threadsafe_b_tree.go:checkDestroying"]}
{"id": "C103", "title": "Destroying one key", "statement": "Of one key of the ordered tree at most one Destroy is under way. A call that begins while a Destroy of its key is under way is refused with ErrorKeyDestroying and has no effect; no other call is refused; when no Destroy is under way nothing is remembered of it. A Destroy that meets no call on its key that had begun before is alone with it: until its work is done the key keeps its value, and if the callback agrees, the value that was there is removed and the key stays gone until the Destroy returns.", "quantifier": "all interleavings of any number of Create, CreateOrFind, exact Find, Delete and Destroy calls on any keys of one tree, all answers of the callbacks", "why_tests_cant": "two Destroys of one key, or a call between the registration of a key and its removal from the list, need a particular schedule; and the list of keys is compacted by swapping, which goes wrong only for certain orders of returns", "anchors": ["internal/datastructures/btree/threadsafe_destroy.go:Destroy", "internal/datastructures/btree/threadsafe_b_tree.go:checkDestroyingWithKey", "internal/datastructures/btree/threadsafe_create.go:Create", "internal/datastructures/btree/threadsafe_find.go:Find", "internal/datastructures/btree/threadsafe_delete.go:Delete"]}
{"id": "C104", "title": "A range search shows one moment", "statement": "A range search shows the ordered tree as it was when the search began: if no call about a key is under way at that moment, the callback gets the item of the key exactly once if the key was in the tree at that moment and belongs to the range, and never otherwise, however many calls about this and other keys are made, do their work and return until the search is over. So calls that begin later never show, not even in part, and a search that begins when no call is under way reports exactly the items that were there.", "quantifier": "all interleavings of any number of calls and range searches, all ranges, keys and items, all node sizes of at least two", "why_tests_cant": "calls that change the tree in front of and behind a search at the same time need a particular schedule, and whether what was reported was ever in the tree together depends on the whole history", "anchors": ["internal/datastructures/btree/threadsafe_find.go:iterate", "internal/datastructures/btree/threadsafe_find.go:findLessThan", "internal/datastructures/btree/threadsafe_find.go:findLessThanOrEqual", "internal/datastructures/btree/threadsafe_find.go:findGreaterThan", "internal/datastructures/btree/threadsafe_find.go:findGreaterThanOrEqual", "internal/datastructures/btree/threadsafe_create.go", "internal/datastructures/btree/threadsafe_delete.go"]}
{"id": "C105", "title": "A range search never reports a key twice", "statement": "The callback of a range search over the ordered tree never gets two items with the same key, even if the item is deleted and created again under that key, behind or in front of the search, as often as one likes; and if from before the search begins until it is over there is an item of a key that belongs to the range, the callback gets exactly one item of that key, exactly once. So for every key of the range a finished search tells what was true at some moment while it was under way: the item it reports, or none, is what the tree held under that key at that moment.", "quantifier": "all interleavings of any number of calls and range searches, all ranges, keys and items, all node sizes of at least two, every moment of the search", "why_tests_cant": "an item would be seen twice only if rotations, merges or a deletion followed by a creation brought its key in front of the search again, which needs a particular schedule and tree shape", "anchors": ["internal/datastructures/btree/threadsafe_find.go:iterate", "internal/datastructures/btree/threadsafe_find.go:findLessThan", "internal/datastructures/btree/threadsafe_find.go:findLessThanOrEqual", "internal/datastructures/btree/threadsafe_find.go:findGreaterThan", "internal/datastructures/btree/threadsafe_find.go:findGreaterThanOrEqual", "internal/datastructures/btree/threadsafe_create.go", "internal/datastructures/btree/threadsafe_delete.go"]}
