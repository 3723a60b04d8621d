import Verif.Model.OneToMany
import Verif.Spec.Assoc
/-
Specification of the one-to-many tree: a separate plain store of items for each relation id.
-/
namespace Willow.OTMSpec
open Willow Willow.Assoc Willow.Spec Willow.OTM

variable {V : Type}

/-- A relation: a plain list of items. -/
abbrev Rel (V : Type) := Store Key (OItem Key V)
/-- A separate relation for each id. -/
abbrev Family (V : Type) := GoString → Option (Rel V)

/-- What a request does to the relation it names and what it answers; it sees nothing else. -/
def relStep (r : Option (Rel V)) : OOp Key V → Option (Rel V) × OOut Key V
  | .createOrFind one kvs v =>
    if one = [] then (r, .error .oneIDEmpty)
    else if kvs.any (fun kv => kv.1 == reservedID) then (r, .error .reservedKeys)
    else
      let s := r.getD ⟨[], 0⟩
      match s.items.find? (fun i => sameKVs kvs i.kvs), v with
      | some i, _ => (some s, .found i.value)
      | none, some v => (some ⟨s.items ++ [⟨s.next, kvs, ⟨v, one, s.next, kvs⟩⟩], s.next + 1⟩, .created s.next)
      | none, none => (some ⟨s.items, s.next + 1⟩, .failed)
  | .deleteByKeyValues one kvs can => remove r one (fun i => sameKVs kvs i.kvs) can
  | .destroyManyByID one id can => remove r one (fun i => i.id == id) can
  | .query one q => visit r one (fun i => satisfies q i)
  | .matchAction one _ mq => visit r one (fun i => covered mq i.kvs)
  | .destroyOne one can ord =>
    if one = [] then (r, .error .oneIDEmpty)
    else match r with
      | none => (none, .destroyed false)
      | some s =>
        let agrees (i : Item Key (OItem Key V)) := can.all (fun f => f i.value)
        if s.items.all agrees then (none, .destroyed true)
        else (some { s with items := s.items.filter (fun j => !(((ord s.items).takeWhile agrees).map (·.id)).contains j.id) }, .destroyed false)
where
  /-- Remove the item with property `p` if the callback agrees. -/
  remove (r : Option (Rel V)) (one : GoString) (p : Item Key (OItem Key V) → Bool) (can : Option (OItem Key V → Bool)) :
      Option (Rel V) × OOut Key V :=
    if one = [] then (r, .error .oneIDEmpty)
    else match r with
      | none => (none, .deleted none)
      | some s => match s.items.find? p, can with
        | none, _ => (some s, .deleted none)
        | some i, none => (some { s with items := s.items.filter (fun j => j.id != i.id) }, .deleted none)
        | some i, some f =>
          if f i.value then (some { s with items := s.items.filter (fun j => j.id != i.id) }, .deleted (some i.value))
          else (some s, .deleted (some i.value))
  /-- Visit the items with property `p`. -/
  visit (r : Option (Rel V)) (one : GoString) (p : Item Key (OItem Key V) → Bool) : Option (Rel V) × OOut Key V :=
    if one = [] then (r, .error .oneIDEmpty)
    else match r with
      | none => (none, .visited [])
      | some s => (some s, .visited ((s.items.filter p).map (·.value)))

/-- One request on the family: only the named relation is read and written. -/
def famStep (f : Family V) (op : OOp Key V) : Family V × OOut Key V :=
  (fun b => if b = op.one then (relStep (f op.one) op).1 else f b, (relStep (f op.one) op).2)

/-- A history on the family. -/
def famRun (f : Family V) : List (OOp Key V) → Family V × List (OOut Key V)
  | [] => (f, [])
  | op :: ops => ((famRun (famStep f op).1 ops).1, (famStep f op).2 :: (famRun (famStep f op).1 ops).2)

/-- The same answer; the order of visited items is not specified. -/
def Same : OOut Key V → OOut Key V → Prop
  | .visited l, .visited l' => l.Perm l'
  | a, b => a = b

/-- Requests that pass validation and are outside the reported crashes of queries and matches (C20, C22). -/
def ValidOp : OOp Key V → Prop
  | .createOrFind _ kvs _ | .deleteByKeyValues _ kvs _ => ValidKVs kvs
  | .destroyManyByID _ _ _ => True
  | .query _ q => everywhere (fun s => ValidSel s ∧ SelExact s) Asks q ∧ (IsEmptyQuery q ∨ Asks q)
  | .matchAction _ sh mq => ValidMatch mq ∧ (mq.min.getD 0 ≤ mq.max.getD (-1) ∨ mq.max.getD (-1) = -1) ∧ ∀ l, (sh l).Perm l
  | .destroyOne _ _ ord => ∀ l, (ord l).Perm l

end Willow.OTMSpec
