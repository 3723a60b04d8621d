import Verif.Model.Channel
import Verif.Spec.Limiter
/-
The channels of willow together with the limiter: each step of a channel (Model/Channel.lean) with the requests it sends to the limiter
(Model/Limiter.lean), and everything else other users do to the limiter.

Simplifications:
* A step of a channel and its requests to the limiter are one step here: the channel holds its locks until the limiter answers.
* A request of one channel is answered before the next one is (C41 is about concurrent increments).
* The first enqueue creates the channel (queue_channels_client_local.go:159-181); here creation is a step of its own, so that also a
  channel without any item can exist.
* The limiter can always be reached; values of a channel are well-formed ones other than NaN.
-/
namespace Willow.Queue
open Willow Willow.Assoc Willow.Spec Willow.Limiter

/-- An ASCII string as bytes. -/
def str (l : List Char) : GoString := l.map (fun c => UInt8.ofNat c.toNat)

/-- "_willow_" -/
def pre : GoString := str ['_', 'w', 'i', 'l', 'l', 'o', 'w', '_']
/-- "queue_name" -/
def sQueueName : GoString := str ['q', 'u', 'e', 'u', 'e', '_', 'n', 'a', 'm', 'e']
/-- "enqueued" -/
def sEnqueued : GoString := str ['e', 'n', 'q', 'u', 'e', 'u', 'e', 'd']
/-- "running" -/
def sRunning : GoString := str ['r', 'u', 'n', 'n', 'i', 'n', 'g']
/-- "true" -/
def sTrue : GoString := str ['t', 'r', 'u', 'e']

/-- `datatypes.String(s)`. -/
def vString (s : GoString) : Key := ⟨⟨DataType.string, .string s⟩, rfl, id⟩

/-- Assignments to a Go map that overwrite: `for key, value := range new { m[key] = value }`. -/
def overwrite (m new : KVs Key) : KVs Key := m.filter (fun kv => !new.any (fun n => n.1 == kv.1)) ++ new

/-- memory_queue_channel.go:776-782 (and 838-844): the counter of the stored items of a channel. -/
def enqKVs (queue : GoString) (kvs : KVs Key) : KVs Key :=
  overwrite [(pre ++ sQueueName, vString queue), (pre ++ sEnqueued, vString sTrue)] (kvs.map (fun kv => (pre ++ kv.1, kv.2)))

/-- memory_queue_channel.go:808-814 (and 868-874): the counter of the items of a channel that are being processed. -/
def runKVs (queue : GoString) (kvs : KVs Key) : KVs Key :=
  overwrite [(pre ++ sQueueName, vString queue), (pre ++ sRunning, vString sTrue)] kvs

/-- cmd/willow/main.go:72-84: the group-by key-values of the rule for all queues (its limit is 0). -/
def ruleKVs : KVs Key := [(pre ++ sQueueName, KeyOps.any), (pre ++ sEnqueued, KeyOps.any)]

/-- queues/memory/memory_queue.go:38-50: the key-values of a queue's override (its limit is MaxItems). -/
def overrideKVs (queue : GoString) : KVs Key := [(pre ++ sQueueName, vString queue), (pre ++ sEnqueued, vString sTrue)]

/-- The two counters of a channel. -/
inductive Kind
  | enq
  | run
deriving DecidableEq, Repr

/-- What a channel asks for. -/
inductive Ask
  /-- +1, and the limiter agreed -/
  | up
  /-- +1, and the limiter refused -/
  | upRefused
  /-- -1 -/
  | down
  /-- set to 0 -/
  | zero
deriving DecidableEq, Repr

/-- The counter. -/
def kvsOf (queue : GoString) (kvs : KVs Key) : Kind → KVs Key
  | .enq => enqKVs queue kvs
  | .run => runKVs queue kvs

section
variable {D : Type}

/-- The requests behind an event of a channel, in their order. -/
def asksOf : Channel.Ev D → List (Kind × Ask)
  /- memory_queue_channel.go:386 -/
  | .enqueued _ _ => [(.enq, .up)]
  | .refused => [(.enq, .upRefused)]
  /- 437, 443 -/
  | .ackPassed _ true => [(.run, .down), (.enq, .down)]
  /- 493 -/
  | .failed _ => [(.run, .down)]
  /- 506 -/
  | .exhausted _ => [(.enq, .down)]
  /- 721 -/
  | .superseded _ true => [(.enq, .down)]
  /- 698 -/
  | .unsent _ _ => [(.run, .down)]
  /- 118, 122 -/
  | .forced => [(.enq, .zero), (.run, .zero)]
  | _ => []

/-- memory_queue_channel.go:594: the request of a dequeue. -/
def dequeueAsks (s s' : Channel.St D) : List (Kind × Ask) :=
  match s.exec, s'.exec with
  | .called, .counted => [(.run, .up)]
  | .called, .spin => [(.run, .upRefused)]
  | _, _ => []

/-- One request and its answer: memory_queue_channel.go:784-793, 816-832, 846-855, 876-892; the limiter's handlers. -/
inductive Talk1 (k : KVs Key) : State Key → Ask → State Key → Prop
  | up {st st' ch} : LimSpec.ValidChoice ch → Limiter.step st (.upsert ch k 1) = some (st', .ok) → Talk1 k st .up st'
  | upRefused {st st' ch out} : LimSpec.ValidChoice ch → Limiter.step st (.upsert ch k 1) = some (st', out) → out ≠ .ok → Talk1 k st .upRefused st'
  | down {st st' ch} : LimSpec.ValidChoice ch → Limiter.step st (.upsert ch k (-1)) = some (st', .ok) → Talk1 k st .down st'
  | zero {st st'} : Limiter.step st (.setCounter k 0) = some (st', .ok) → Talk1 k st .zero st'

/-- Requests of one channel in a row: as `Talk1`. -/
inductive Talk (q : GoString) (kvs : KVs Key) : State Key → List (Kind × Ask) → State Key → Prop
  | nil {st} : Talk q kvs st [] st
  | cons {st st' st'' κ a as} : Talk1 (kvsOf q kvs κ) st a st' → Talk q kvs st' as st'' → Talk q kvs st ((κ, a) :: as) st''

/-- A channel of a queue: memory_queue_channel.go:29-60. -/
structure Chan (D : Type) where
  queue : GoString
  kvs : KVs Key
  st : Channel.St D

/-- Can the channel still do something for its items?  It is not closed, or it is being deleted by force. -/
def Chan.live (c : Chan D) : Bool := !(c.st.closed && (!c.st.forced || c.st.destroyed))

/-- The limiter, and all channels there are and ever were. -/
structure Sys (D : Type) where
  lim : State Key
  chans : List (Chan D)

/-- What happens. -/
inductive Label (D : Type) where
  /-- a new channel -/
  | create (queue : GoString) (kvs : KVs Key)
  /-- a step of a channel -/
  | chan (c : Chan D)
  /-- a request of another user of the limiter (or of willow for its queues) -/
  | other (op : Op Key)

/-- Steps. -/
inductive Step : Sys D → Label D → Sys D → Prop
  /-- queue_channels_client_local.go:151-193, one-to-many tree: a channel is removed from the tree when its deletion is done -/
  | create {lim chans} (q : GoString) (kvs : KVs Key) : (∀ c ∈ chans, c.live = true → ¬ (c.queue = q ∧ sameKVs c.kvs kvs = true)) →
      Step ⟨lim, chans⟩ (.create q kvs) ⟨lim, chans ++ [⟨q, kvs, Channel.init⟩]⟩
  /-- Model/Channel.lean -/
  | chan {lim lim' l1 l2} {c : Chan D} {st' : Channel.St D} {evs : List (Channel.Ev D)} :
      c.st.crashed = false → Channel.Step c.st st' → st'.log = evs.reverse ++ c.st.log →
      Talk c.queue c.kvs lim (dequeueAsks c.st st' ++ evs.flatMap asksOf) lim' →
      Step ⟨lim, l1 ++ c :: l2⟩ (.chan c) ⟨lim', l1 ++ { c with st := st' } :: l2⟩
  /-- Model/Limiter.lean -/
  | other {lim lim' out chans} (op : Op Key) : Limiter.step lim op = some (lim', out) → Step ⟨lim, chans⟩ (.other op) ⟨lim', chans⟩

/-- A history (oldest label first). -/
inductive Run (s0 : Sys D) : List (Label D) → Sys D → Prop
  | nil : Run s0 [] s0
  | snoc {ls l s s'} : Run s0 ls s → Step s l s' → Run s0 (ls ++ [l]) s'

end
end Willow.Queue
