import Verif.Model.LimiterLocks
import Verif.Spec.Limiter
/-! Words for the properties of concurrent increments (C41, C42). -/
namespace Willow.LimConc
open Willow Willow.Assoc Willow.Spec Willow.Limiter Willow.LimSpec

/-- A valid step: what arrives passes validation; every positive change of a counter comes as an increment. -/
def ValidLabel : Label Key → Prop
  | .arrive r => ValidKVs r.kvs ∧ Typed r.kvs ∧ 0 < r.c ∧ r.c < 2 ^ 63 ∧ ValidChoice r.ch
  | .other op => LimSpec.ValidOp op ∧ ∀ ch k c, op = .upsert ch k c → c ≤ 0
  | .move => True

/-- How much a step can add to counters, now or later. -/
def labelAmount : Label Key → Int
  | .arrive r => r.c
  | .other op => amount op
  | .move => 0

/-- The sum over a sequence of steps. -/
def labelsAmount (ls : List (Label Key)) : Int := (ls.map labelAmount).sum

/-- The increment is between checking its first limit and having added to its counter, under locks. -/
def Thread.critical (t : Thread Key) : Prop :=
  match t.phase with
  | .checking _ | .summing .. | .adding true => True
  | _ => False

/-- The increment has answered. -/
def Thread.finished (t : Thread Key) : Prop := ∃ out, t.phase = .done out

/-- The steps leave the rule alone, set no counter to a positive value and increase counters by at most `m`. -/
def Quiet (keeps : Op Key → Prop) (m : Int) : Label Key → Prop
  | .arrive r => r.c ≤ m
  | .other op => keeps op ∧ ∀ k c, op = .setCounter k c → c ≤ 0
  | .move => True

end Willow.LimConc

/-! Words for C64. -/
namespace Willow.LimConc
open Willow Willow.Assoc Willow.Spec Willow.Limiter Willow.LimSpec

/-- The increment was accepted (its answer is success, given or about to be given). -/
def Thread.okB (t : Thread Key) : Bool :=
  match t.phase with
  | .done .ok | .releasing _ .ok => true
  | _ => false

/-- The sum of the accepted increments of one counter. -/
def accepted (kvs : KVs Key) (l : List (Thread Key)) : Int := ((l.filter (fun t => t.okB && sameKVs t.req.kvs kvs)).map (fun t => t.req.c)).sum

/-- The request changes no counter with these key-values. -/
def OffCounter (kvs : KVs Key) : Op Key → Prop
  | .upsert _ k _ | .setCounter k _ => sameKVs k kvs = false
  | _ => True

end Willow.LimConc
