import Verif.Model.LimiterLease
import Verif.Spec.LimiterLocks
/-! Words for C84. -/
namespace Willow.LimLease
open Willow Willow.Assoc Willow.Spec Willow.Limiter Willow.LimSpec Willow.LimConc

/-- The increment was accepted although it had lost a lock before. -/
def LThread.slipped (t : LThread Key) : Bool := !t.lost.isEmpty && t.th.okB

/-- The sum of the amounts of the accepted increments, of counters of one group, that had lost a lock. -/
def slips (keys : List GoString) (kvs : KVs Key) (l : List (LThread Key)) : Int :=
  ((l.filter (fun t => t.slipped && agree keys kvs t.th.req.kvs)).map (fun t => t.th.req.c)).sum

end Willow.LimLease
