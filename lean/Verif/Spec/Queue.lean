import Verif.Model.Queue
import Verif.Spec.Channel
/-
What the properties about queues talk about.
-/
namespace Willow.QueueSpec
open Willow Willow.Assoc Willow.Spec Willow.Limiter Willow.LimSpec Willow.Queue Willow.ChanSpec
variable {D : Type}

/-- The channels of a queue that were not deleted. -/
def channels (q : GoString) (s : Sys D) : List (Chan D) := s.chans.filter (fun c => c.queue == q && !c.st.closed)

/-- How many items a queue stores, over all its channels. -/
def itemsIn (q : GoString) (s : Sys D) : Nat := ((channels q s).map (fun c => (stored c.st).length)).sum

/-- How many items are being processed, over all channels (of all queues) that belong to the group: their key-values together with the name of the
queue have the values of `kvs` for the keys. -/
def processingIn (keys : List GoString) (kvs : KVs Key) (s : Sys D) : Nat :=
  ((s.chans.filter (fun c => !c.st.closed && agree keys kvs (runKVs c.queue c.kvs))).map (fun c => (processing c.st).length)).sum

/-- Key-values of an item that pass validation, and none of whose keys is one of the given ones. -/
def GoodKeys (bad : List GoString) (kvs : KVs Key) : Prop := ValidKVs kvs ∧ Typed kvs ∧ ∀ kv ∈ kvs, kv.1 ∉ bad

/-- "queue_name", "enqueued" and "_willow_enqueued": the keys a channel must not have for the count of stored items. -/
def badEnq : List GoString := [sQueueName, sEnqueued, pre ++ sEnqueued]
/-- "_willow_queue_name", "_willow_running" and "_willow_enqueued": the keys a channel must not have for the count of items being processed. -/
def badRun : List GoString := [pre ++ sQueueName, pre ++ sRunning, pre ++ sEnqueued]

/-- A request to the limiter that changes no counter that has the key. -/
def OffKey (k : GoString) : Op Key → Prop
  | .upsert _ kvs _ | .setCounter kvs _ => k ∉ kvs.map (·.1)
  | _ => True

/-- Updates of the override to a limit in `0..M` are allowed, everything else leaves it alone. -/
def KeepsLimit (id oid : Nat) (M : Int) : Op Key → Prop
  | .updateOverride i o l => i = id → o = oid → 0 ≤ l ∧ l ≤ M
  | op => KeepsOverride id oid op

/-- What is valid in a history: channels with good keys, valid requests to the limiter. -/
def ValidLabel (bad : List GoString) : Label D → Prop
  | .create _ kvs => GoodKeys bad kvs
  | .chan _ => True
  | .other op => ValidOp op

/-- No channel was deleted by force, and no delivery of an item failed after somebody had already acked the item (with an older delivery of it). -/
def Calm (s : Sys D) : Prop := ∀ c ∈ s.chans, .forced ∉ c.st.log ∧ ∀ id, .unsent id false ∉ c.st.log

/-- How much a step can add to the counters of the limiter. -/
def labelAmount : Label D → Int
  | .create .. => 0
  | .chan _ => 1
  | .other op => amount op

/-- How much a history can add to the counters of the limiter. -/
def labelsAmount (ls : List (Label D)) : Int := (ls.map labelAmount).sum

end Willow.QueueSpec
