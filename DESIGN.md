# Formal model of DanLavine/willow in Lean 4 — design

## Layout

* `lean/Verif/Model/*.lean` – the model: total computable functions, one per Go function, each with a `file:lines` citation and a note on every simplification.
* `lean/Verif/Spec/*.lean` – small specifications (plain maps, predicates) that do not use the model.
* `lean/Verif/Proofs/*.lean` – helper lemmas, invariants.
* `lean/Verif/Props/*.lean` – the property theorems (`Cxx_…`), each followed by an `example` showing that a concrete case meets its hypotheses, and negation theorems where the code violates the property.
* `MANIFEST.json` – property → theorems; `seeded/LOG.jsonl` – mutation tests of the theorems.

## How each property is modelled and proved (plan)

| Property | Model | Proof |
|---|---|---|
| C01, C02 | `Val` (14 value kinds, floats as IEEE bit patterns), `lessMatchType` | rank into a linear order; NaN witness for C02 |
| C03, C05 | `stringEncoding`/`stringDecoding` on byte strings; `FormatUint/ParseUint…` written out; `FormatFloat`/`ParseFloat` as documented (shortest digits / correct rounding) on IEEE bit patterns; JSON string literals (`Model/FloatText`, `Model/JsonString`) | digit-list induction; the exact dyadic value rounds to itself and every shorter candidate is checked; rounding is nearest among all patterns; unquote ∘ quote = repair, which is the identity exactly on UTF-8 |
| C04 | `validateTypeAndData` on (type code, dynamic data) | case analysis over all codes |
| C06, C07, C09, C10 | B-tree nodes as (values, children) lists; create/split/insertNode/remove/swap/rebalance/rotate/merge; `panic` explicit | height-indexed invariant, refinement to a sorted association list, induction over histories |
| C08, C17 | same model with failing create callbacks | negation witnesses, `_partial` theorems for the cases that hold |
| C11–C15 | traversals with stateful callback | visited sequence is a permutation of a filter of the contents; prefix theorem |
| C16 | lock-event traces of the find operations | negation witness + exact characterisation of leaking inputs |
| C18–C23 | associated tree over maps (justified by C06): key → value → size → ids, id → item | index-consistency invariant, refinement to map from key-value sets |
| C24 | the permutation generator | induction over the list |
| C25 | one-to-many over associated trees | frame theorems |
| C26 | `DestroySync` transition system, any number of threads | inductive invariant |
| C27–C31 | exclusive lock as transition system, any number of clients | inductive invariant |
| C32, C57 | validators + first use of the accepted fields | decision logic, negation witnesses |
| C33, C34 | heartbeater transition system | inductive invariant |
| C35–C39 | limiter: FindLimits, checkCounters, Increment/Decrement/Set | invariant over histories, witnesses |
| C40 | rules/overrides stores | invariant |
| C41, C42 | lock keys of increments; ordered acquisition | resource-order argument for any number of processes |
| C43–C54 | memory queue channel state machine with limiter counters | inductive invariants over histories, witnesses |
| C55 | RW-mutex level model of three clients | stuck-state theorem |
| C56 | queues map on top of the B-tree model | refinement + witness from C08 |
| C59 | heartbeater: a processed heartbeat against a buffered tick | witness + partial |
| C60, C61, C63 | channel locks and unbuffered channels of acks, heartbeats and timeouts; any number of calls | invariant, stuck-state theorems |
| C62 | channel model: timeouts of updated items | witness + partial |
| C64 | increments split at their lock points, any number of processes | simulation by atomic increments |
| C66 | all channels of all queues composed with the limiter model | counter invariant over histories, witnesses |
| C67 | start of willow: CreateRule on an arbitrary reached limiter | refinement; negation for all histories |
| C68 | dequeue requests against channel creation at the granularity of the tree's locks (Model/Waiting) | invariant over all interleavings: announced channels are offered or seen by every finished search; counterexample for the empty query |
| C69 | same model | invariant: a search that finds a channel covers one of its key-values; counterexamples |
| C58, C71 | timed model of a lock and the lock objects of any number of clients (Model/Lease) | invariant with ghost renewal times; bounded overlap, exact bound for keeping the lock, witnesses for every delay |
| C57, C70 | all willow requests with decoded bodies on top of the queue, channel and limiter models (Model/Requests) | invariant over histories, exact crash conditions, witnesses |
| C72, C73, C78 | timed model of an item and the item objects of any number of consumers (Model/ItemLease) | invariant with ghost renewal times; parametrised runs (any timeout, any length) as witnesses |
| C74 | visits of a query interleaved with the steps of the locker (Model/LocksQuery on Model/Locker); validation of the answer at its end | induction over the visits with the invariants of C27-C31; concrete runs as witnesses |
| C76 | URLs of the willow client, net/url, the router and the middleware (Model/Client) | exact condition on names: parse ∘ print of URLs; parametrised and concrete witnesses |
| C79 | requests (Model/Requests) seen as queues with limits and channels with items (Spec/World) | refinement: every request does what Spec/World says; induction over histories; counting |
| C77 | C76 composed with C79 | case analysis over calls and results |
| C80 | the tree with the lock of every node and any number of calls as sequences of small steps (Model/BTreeConc) | invariant: the tree stays ordered and balanced except at the nodes a call holds; refinement to a map with one atomic step per call (Spec/BTreeConc) |
| C81 | the same model | progress: the deepest lock holder can always move; a lexicographic measure decreases in every step that is not a new call |
| C75 | reads of rules and overrides with the validation of the answers (Model/LimiterReads on Model/Limiter) | refinement of the limiter's plain specification with C20 and C22 |
| C82 | all requests to the limiter with decoded bodies (Model/LimiterHttp on Model/LimiterReads, with the read locks that a panic leaves behind) | refinement to plain lists of rules, overrides and counters; induction over histories; witnesses |
| C83 | URLs and bodies of the limiter client, the router of the limiter (Model/LimiterClient on Model/LimiterHttp and Model/Client) | exact condition on names, keys and queries; case analysis over calls and results on top of C82; parametrised witnesses |
| C84 | increments whose locks the locker can take back at any moment (Model/LimiterLease on Model/LimiterLocks) | a run that exceeds the limit; invariant over all interleavings with a slack: what the accepted increments that lost a lock added |
| C85 | package flag, parseEnv, validate and the client configuration (Model/Config) against the usage texts written out as a table (Spec/Config) | induction over command lines; the table is compared with the code; concrete configurations for the misread variables |
| C86 | every interleaving of Create, CreateOrFind, exact queries, Delete and DestroyByAssociatedID, with the locks of the ID nodes (Model/AssocConc), against a map on which each call acts at one moment (Spec/AssocConc) | invariant of the index (an id is in the node of a pair iff an item with it is stored or being made) and forward simulation; consequences are proved for histories of the map; a script for a failing onCreate |
| C87 | the same model | a measure that every step lowers; the order of the pairs rules out cycles of waiting; scripts and invariants of the states in which two calls wait for ever |
| C88 | requests, deletions, the goroutines of dequeues and timeouts of deliveries on any number of queues, with the guard of the tree of queues (Model/DeleteRace) | invariants over all histories: readers and the deleter of a queue exclude each other, at most one deleter, a queue that is not there is empty; the last step of every history that ends the process; two histories that do |
| C89 | any number of lock clients, each with its tree of locks (Model/AssocConc, all interleavings of its calls) and goroutines calling ObtainLock and Release, and the locker they ask (Model/SharedLock) | invariant over all histories: what the locker counts as held is what the clients have obtained and not released; each tree alone does a run of Model/AssocConc, so C86 and C87 apply; a measure for termination; four histories that violate the claim, one of them with an invariant of all its continuations (both Releases hang for ever) |
| C90 | any number of matches (MatchAction), each looking up its pairs and ids one by one, next to every interleaving of the other calls (Model/MatchConc on Model/AssocConc) | invariants over all interleavings: what a match has read contains every stable matching item and belongs to pairs of the query, groups of keys do not share ids; a run in which a stable item is missed |
| C91 | deletions of rules in three steps (mark, destroy the overrides, remove) with other requests in between (Model/RuleDelete on Model/Limiter) | refinement: every step has its effect on plain lists of rules, overrides and counters (Spec/RuleDelete); invariant: a marked rule is stored, a wiped one has no overrides; induction over histories; a history in which a limit is exceeded |
| C92 | the check of the limits by a channel that was refused, call by call, over the limiter client and the HTTP interface of the limiter with other requests in between (Model/LimitWait on Model/LimiterClient) | invariant: what the check still holds belongs to the state and something is noticed iff it was or will be (Proofs/LimitWait); one call preserves it; induction over checks; well-founded order on positions; general counterexamples for wildcards and deletions |
| C93 | the stop of the locker: the same steps as C27-C32 (Model/Locker), with the refused lock whose client is gone; requests are counted by arrivals and answers | a measure of the remaining work decreases in every step that brings no new request; case analysis of the states in which nothing moves with the invariants of C27-C31; two invariants for the hangs that last for ever | 
| C94 | one channel of willow with Execute, the manager of its heartbeats, the heartbeat processes, waiting consumers and calls (Model/ChannelStop); locks and unbuffered channels as they make these wait for each other | a measure decreases in every step that is not a refusal of the limiter; case analysis of the states in which nothing moves, with an invariant; the hangs are stable under every step |
| C95 | any number of queries (QueryAction with any nesting of selections), each a program of searches of the index, look-ups of ids and set operations, next to every interleaving of the other calls (Model/QueryConc on Model/AssocConc); a walk through the index visits every pair that is there all the time, the others or not, in any order | induction over the query for what every way through its searches can find; invariants over all interleavings; concrete runs for the deviations |
| C96 | waiting clients are served: the same steps as C27-C32 (Model/Locker), in a running service; a schedule is any sequence of steps in which no new request arrives | the measure of C93 decreases in every step, so that every schedule ends; case analysis of the states in which nothing moves (nothing is left, or the stale release of C30); the number of grants and of waiting clients is an invariant |
| C97 | waiting items are handed out: the steps of C43-C52 (Model/Channel, no change), in schedules in which deliveries succeed, the limiter does not refuse and nothing is enqueued or deleted | a measure (remaining retries, states of the heartbeats, notifications, progress of the delivery) decreases in every step that changes anything; case analysis of the states in which nothing can change; a waiting item leaves the list only by the events that the claim names |
| C98 | no item starves: the steps of C43-C52, with everything that can be enqueued, fail or be lost meanwhile | the chances of the items in front of a waiting item and of those being processed are a measure that each delivery of another item decreases and only a lost delivery increases |
| C99 | any number of range searches next to the calls of C80 (Model/BTreeWalk): a search holds shared locks on several nodes and visits them in any order | for each search the items in and below the nodes it holds are ahead of it, the others behind it; no step of another call moves an item from one side to the other (a node that is split, merged or rotated is not held by a search); a step of the search moves items to the side behind it exactly if it reports them or they are out of range, because the tree is ordered |
| C100 | the same | without the locks of the searches every run is a run of the model of C80 |
| C101 | the same | the deepest node that a search holds: either no child it has to lock is held and the search goes on, or a call below can go on (C81), because a node that is shared is held by nobody and so no call below also holds it; without searches C81; the measure of C81, then the searches by node times the size of its subtree |
| C102 | the counter of calls, its sleepers and its semaphore (Go's sync.WaitGroup, one atomic operation a step, panics included), the flag `destroying`, any number of calls and DestroyAlls | counts: as long as nobody has panicked the counter is the number of calls between their two Adds, and sleepers are the waiters plus the wake-ups under way; a potential for termination; concrete runs and an invariant of the stuck state for the negations |
| C103 | the list of keys being destroyed, the tree as a list of pairs (one operation on it is one step, by C80), any number of calls in their steps check/register, work, remove | the list holds every key as often as Destroys of it are under way, at most once; for a Destroy that is alone: no other call passes its check, and calls on other keys do not change the pair |
| C104 | the same as C99 | the part of the tree ahead of a search (the nodes it holds and what is below) only loses calls: a node a search holds is held by no call, a call gets to a node only from its parent; so a call that comes later is never ahead, a step of a call changes only items of its own key, and every call that holds a node is one that has been made and has not returned |
| C105 | the same as C99 | when a search reports a key, no call about that key that has not had its effect yet is in the part of the tree ahead of it: the key of such a call lies between the bounds of its node (or the call is at the place of the item that replaces one further up, and then all nodes between belong to the same call), the reported item lies in a node nobody holds; from then on the key is not ahead (C104); a step does not replace an item by another one of the same key |

Nothing in the list is inexpressible; what is left out of each model is listed in the section "Trusted base" below and in comments.

## Trusted base

1. **Lean's kernel** (Lean 4.33.0). Every theorem is accepted by the kernel; there is no `native_decide`, `bv_decide`, added axiom or admitted goal.
   Concrete evaluations use `decide`/`decide +kernel`, that is: kernel reduction.
2. **Axioms.** At most Lean's three standard ones: `propext`, `Quot.sound`, `Classical.choice`. `AXIOMS.md` (generated by `tools/axioms.py`) lists the
   axioms of every theorem named in `MANIFEST.json`. No file imports Mathlib.
3. **The model is the code.** The step from the Go text to the definitions in `lean/Verif/Model` is by reading; every definition cites the lines it models
   and says where it simplifies. The model was written from the source only: nothing of the project was built or run.
4. **Semantics of Go and its libraries that the models rely on**
   * goroutines interleave arbitrarily between the steps of a model; memory is sequentially consistent between synchronisation operations
     (data races are not modelled);
   * unbuffered channels are a rendezvous, `select` picks any ready case, `sync.RWMutex` is as documented (a waiting writer keeps out new readers);
   * `time.Ticker` as in Go 1.22 (the version in go.mod): one buffered tick, `Reset` does not drain, a non-positive period panics;
   * `net/http` recovers a panic in the goroutine of a handler, but not in others; `logger.Fatal` (zap) ends the process;
   * the UUID generator never repeats an id;
   * `strconv` for integers is written out and proved about; for floats its documented result is written out (correct rounding; shortest
     digits that read back), not its algorithms; hexadecimal floats and underscores are a parameter;
   * `encoding/json` string literals are written out as documented; object syntax around them is not modelled.
   * `net/url` (Parse, escaping, RequestURI) is written out as documented; `github.com/DanLavine/urlrouter` (not in /repo) matches the decoded path segment
     by segment, a parameter matching any segment that is not empty.
   * `github.com/DanLavine/goasync`, `gonotify`, `channelops` are not in /repo: a task manager runs every accepted task, a notifier counts `Add`s,
     a select over a changing set of channels receives from any ready one.

### What is modelled

| Code | Model | Not modelled |
|---|---|---|
| pkg/models/datatypes | `Model/DataTypes` | JSON syntax around the values; float text and JSON strings are in `Model/FloatText`, `Model/JsonString` |
| internal/datastructures/btree (create, find*, delete, destroy, iterate, empty) | `Model/BTree` (contents, structure, panics, failing callbacks), `Model/BTreeLocks` (read locks of the finds), `Model/BTreeConc` (any interleaving of Create, CreateOrFind, exact Find and Delete with the locks of every node), `Model/BTreeWalk` (the range searches next to them), `Model/DestroyGate` (DestroyAll, its flag and the WaitGroup next to any calls), `Model/DestroyKeys` (Destroy of one key next to other calls) | in the concurrent models: callbacks of range searches that ask for no more, parameter checks and failing callbacks; an unlock is merged with the step before it, and the locks of nodes that a split or merge only moves are taken together. Go's RWMutex lets a waiting writer go before later readers; for the tree's own lock this is in the proof (`C101_no_deadlock_writers_first`); for a node's lock: whoever waits to lock a child exclusively holds the node above exclusively, and whoever waits to lock it shared holds the node above shared, so (C101_shared_or_exclusive) the two never wait for the same node |
| internal/datastructures/btree_associated | `Model/Assoc` (one operation at a time); `Model/Waiting` (create against query at lock granularity); `Model/MatchConc`, `Model/QueryConc` (MatchAction and QueryAction next to any interleaving of other calls); `Model/AssocConc` (any interleaving of Create, CreateOrFind, exact queries, Delete and DestroyByAssociatedID with the locks of the ID nodes; one operation on an ordered tree is one step, by C80) | in the concurrent model: DestroyTree, DeleteByAssociatedID, the interleavings inside a walk through one ordered tree (what is assumed of such a walk, namely that it visits the pairs that are there all the time exactly once and the others or not, is C99); which operations on the tree of ids wait for a destruction under way is a parameter |
| internal/datastructures/btree_one_to_many | `Model/OneToMany` | the refusals during a concurrent destroy |
| internal/datastructures/set, pkg/datamanipulation | `Model/Assoc` | – |
| pkg/async/destroy.go | `Model/DestroySync` | – |
| internal/heartbeater | `Model/Heartbeater` | – |
| internal/locker (lock manager, handlers, validators) | `Model/Locker` | JSON, TLS, routing |
| internal/limiter (rules, overrides, counters) | `Model/Limiter` (one request at a time), `Model/LimiterLocks` (increments interleaved with everything), `Model/LimiterLease` (the same, and locks can be lost), `Model/RuleDelete` (deletions of rules in steps, other requests in between) | JSON; config |
| internal/limiter/api/v1/handlers | `Model/LimiterHttp` | JSON text, TLS; interleavings (Model/LimiterLocks) |
| internal/willow queue_channels/memory | `Model/Channel` (any interleaving), `Model/ChannelLocks` (locks and rendezvous of one item), `Model/ChannelStop` (stop and deletion of a channel, with consumers and heartbeat processes), `Model/LimitWait` (the check of the limits after a refusal) | shutdown only in `Model/ChannelStop` |
| internal/willow queue_channels client | `Model/Queue`, `Model/Waiting`, `Model/Requests` | – |
| internal/willow queues client + memory queue | `Model/Queues`, `Model/QueueGate` (locks of the tree of queues), `Model/DeleteRace` (deletions next to everything else) | a tree of more than one node in `QueueGate` |
| internal/willow handlers and validators | `Model/Requests` | JSON text, TLS, routing |
| pkg/clients/locker_client | `Model/Lease`, `Model/SharedLock` | TLS configuration |
| pkg/clients/willow_client/item.go | `Model/ItemLease` | – |
| pkg/clients/willow_client (other calls), internal/willow/api/v1/router, internal/middleware/encoder.go | `Model/Client` | TLS configuration; contexts; lost answers |
| pkg/clients/limiter_client, internal/limiter/api/v1/router | `Model/LimiterClient` | TLS configuration; contexts; lost answers; the text of values (C03) |
| internal/config, pkg/clients/client_config.go, pkg/clients/http_client.go | `Model/Config` | package flag as documented; time.ParseDuration and the certificate files are parameters |
| internal/reporting, internal/middleware logging, cmd/*, testhelpers, integration-tests | not modelled | logging and process start-up carry no property of the list, except the start of willow against the limiter (C67) |

## Disagreements between the code and the properties

Each one is a theorem `Cxx_violated…` (a concrete reachable history of the model that breaks the English claim), next to the strongest version proved.

* **DestroyAll**: the tree counts the calls under way with a sync.WaitGroup and lets calls begin while DestroyAll waits, which is the misuse its documentation forbids (threadsafe_destroy.go:83, threadsafe_create.go:35). A Create or Find that begins when the last call has just
  left panics, and so may the one that leaves: then DestroyAll sleeps for ever and every later call returns ErrorTreeDestroying. Or DestroyAll itself panics when it wakes, or a lost count makes the counter negative and a later DestroyAll runs next to other calls (C102). ForceDelete of a channel
  calls it (memory_queue_channel.go:137) without itemsLock while timeouts (:542), the dequeue (:659) and the callbacks of a delivery (:685, :740) may go on; enqueues, ACKs and heartbeats are kept out by the trees above.
* **Destroy**: a NaN differs from itself, so Destroy neither finds that it is being destroyed nor removes it from the list of keys being destroyed (threadsafe_destroy.go:33-53; only reached by a user of the tree, the services destroy strings) (C103).
* **Key values**: strings that are not UTF-8 pass validation but change on the wire; different ones become the same key (C03).
* **B-tree**: the type bounds are ignored on one side (C13, C14); read locks are leaked or the wrong node is unlocked when iteration stops early (C16);
  a failing create callback doubles one key and loses another, and makes `Empty` false (C08, C17); NaN keys break the order (C02).
* **DeleteQueue**: a queue that is deleted while the goroutine of an earlier dequeue still looks through the channels, or while a delivered item of it runs out of time, ends the whole service: `panic` outside of a request, and `logger.Fatal` because the error is ErrorOneIDDestroying and only ErrorManyIDDestroying is expected (C88). During a deletion Enqueue, Dequeue and DeleteChannel answer 500, the others 409. QueryChannels of a missing queue answers 200 and an empty list, DeleteQueue of one 204.
* **Lock client**: a second ObtainLock for key-values the client already holds returns the same lock object at once (locker_client.go:196-208), so two goroutines believe they hold the lock, and when one releases it another client gets it while the other goroutine still works (C89_violated_shared). While ObtainLock waits for the locker it keeps its key-value pairs locked in the client's tree (the request is made inside onCreate), so Release of, or ObtainLock for, any other lock with a common pair waits too, although that lock is free; since Release stops the heartbeats only after taking the lock out of the tree, two clients whose goroutines each use a single lock can deadlock for ever with both Releases called (C89_violated_deadlock). After a cancelled ObtainLock another one that was not cancelled can return (nil, nil) (C89_violated_nothing).
* **MatchAction**: `shouldContinue` is set to false before the search for each id (threadsafe_match.go:140), and only the callback sets it to true again. If the item is being destroyed or gone meanwhile the callback is not called and the whole match returns nil, although other items match (C90_violated_stable_item_missed); its documentation says that such items are skipped, as QueryAction does. FindLimits, MatchRules, MatchOverrides and FindOverrideLimits use it: while a rule is being deleted, other rules and overrides can be left out of an increment's check. C91_violated_limit_ignored is such an increment: the limit of a rule nobody touches is exceeded.
* **Rules**: the branches of UpdateRule, CreateOverride and others that answer 409 "rule is being destroyed" after QueryAction are never taken: QueryAction skips such rules, the answer is 404 (C91_refused).
* **Channel at a limit** (memory_queue_channel.go:169-325): after a refusal the channel queries the counters with the values of the rule or override, not with its own. For a wildcard that is a query for values of the type any, which no counter has: the limit is never noticed, the item is offered and refused again in a busy loop without the five seconds' pause (C92_violated_busy). Every error of the three calls is a `panic` in a goroutine of its own, which ends the willow process: a rule deleted after MatchRules (404 of MatchOverrides, C92_violated_crash), or a limiter that cannot be reached for a moment (C92_violated_unreachable).
* **Item.ACK** (pkg/clients/willow_client/item.go) returns nil after a status code it does not expect; the error only goes to the heartbeat callback.
* **Associated tree**: two `!=` on one key, type restrictions, empty sub-queries (C20); `MatchTags` ignores ids, only-Ors matches everything (C21);
  min above max panics (C22).
* **Locker**: negative timeouts crash the service (C32); a refused release is answered 204 (C28); a stale release can deadlock (C30). Stopping the locker hangs for ever in three ways (C93): ObtainLock saves the lock although AddExecuteTask refused it (exclusive_locker.go:75-86, the comment says it should not be saved), and every later request for it waits on channels nobody serves; Execute told to stop waits for `timedOut` (exclusive_lock.go:147) while the timeout waits for the tree, which a heartbeat, release or LostClient waiting for Execute keeps locked; and the stale release of C30. In all of them Server.Shutdown never returns.
* **Queries next to other calls** (C95): `a != 1` searches for a = 1 and for everything one after the other; an item {a:1} that is created in between is reported.  The empty query
  reports items whose destruction has begun.
* **Stopping willow** (C94): an ACK, a heartbeat or a forced delete of an item whose timeout has fired but has not been processed holds the lock the timeout waits for, while it waits for the heartbeat process that waits for the timeout; a heartbeat that arrives before the delivery of its item is completed waits for a heartbeat process that has not started, with the lock Execute needs to go on. Both last for ever: Execute and the heartbeat manager never return, so neither does the task manager of willow. An item handed out after the heartbeat manager noticed the stop is watched by nobody.
* **TLS**: the CA of a server is put into `tls.Config.RootCAs`, which a server never looks at (internal/willow/api/willow_tcp.go, and the same in locker and limiter; not modelled): client certificates are never checked.
* **Heartbeater**: a heartbeat processed while a tick is buffered does not prevent the timeout (C59).
* **Limiter**: an increment above 1 passes the limit (C36); int64 overflow stores negative counters (C39), after which a limit of 0 admits (C37); a lock lost after the one look at the locks is not noticed and the limit is exceeded (C84); an increment whose
  request is cancelled while it waits for a lock dereferences a nil lock (counter_client_local.go:164; recovered, the locks are released).
* **Associated tree**: a create and a destruction that share a pair wait for each other for ever and block the whole tree – DELETE of a rule {a} while POST of a rule {a,b} –, Delete returns ErrorTreeItemDestroying with locks held (C87); while a failed CreateOrFind cleans up, another one
  returns an id without an item (C86; in the lock client ObtainLock then returns neither a lock nor an error).
* **Channel**: the enqueued counter leaks (C49), the running counter is decremented twice or leaks (C50), a failed ACK of a waiting item is answered
  with success (C54), a timeout during a forced deletion panics (C61), an update keeps the old timeout (C62), ACK/heartbeat against a firing timeout
  deadlock (C60).
* **Willow with limiter**: key `queue_name` is counted against another queue (C53); the processing limit is exceeded (C66); a restart on the same limiter
  always ends the process (C67).
* **Queues**: a failed create loses another queue, failed updates are reported, deletes panic (C56); a waiting consumer plus CreateQueue stalls everything (C55).
* **Configuration**: LIMITER_LOG_LEVEL, LIMITER_CA, LIMITER_LOCKER_CLIENT_CA and WILLOW_LIMITER_CLIENT_CA are documented but other variables are read; a switch cannot be
  switched off by its variable, TRUE and 1 are unknown to locker and willow; negative ports (willow: any text) pass; a client key and certificate without a CA
  are accepted and never used (C85).
* **Consumers**: lost wake-up for the empty query (C68); items of unwanted channels (C69).
* **Requests**: five kinds of crash (C57); rejected requests that take effect (C70).
* **Query of locks**: fails with 500 as long as one selected lock is not held at the moment of the visit, or is released before the answer is encoded (C74).
* **Requests to the limiter**: reads that pass validation panic, and one that panics among the overrides of a rule keeps read locks, after which DeleteRule of this rule never returns (C82).
* **Clients**: the lock client believes it holds a lost lock (C58); timeouts below 3 ns crash the client (C71, C73); the item client (C72, C73); item heartbeats have no Content-Type header and are all rejected (C78);
  names with `#`, `?`, `%`, `/` or bytes that are not UTF-8 address other queues, other operations or nothing (C76, C77); the same for rules and overrides: GetRule("r/overrides/o") returns the override, DeleteOverride("r#", o) deletes the rule r, and DeleteRule, QueryOverrides and MatchOverrides report a missing rule as an unexpected status (C83).
