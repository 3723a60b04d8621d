import Verif.Model.Waiting
import Verif.Spec.Assoc
/-
Vocabulary for waiting consumers.
-/
namespace Willow.WaitingSpec
open Willow Willow.Assoc Willow.Spec Willow.Waiting

/-- What the API validation ensures: key-values of items are not empty and have every key once. -/
def Label.Valid : Label → Prop
  | .arriveItem kvs => ValidKVs kvs
  | _ => True

/-- The states of a queue after a history of arriving items and clients, with the steps of both in any order. -/
def Reachable (s : St) : Prop := ∃ ls, (∀ l ∈ ls, WaitingSpec.Label.Valid l) ∧ Waiting.run St.init ls = some s

/-- The client's query selects the channel with these key-values. -/
def wants (q : Query Key) (kvs : KVs Key) : Bool := queryHolds (fun _ => true) kvs q

/-- A query that passes validation, does not ask for ids, and has no empty sub-query. -/
def Proper (q : Query Key) : Prop := everywhere (fun s => ValidSel s ∧ s.ids = []) Asks q ∧ Asks q

/-- A selection without != and without a type restriction that cuts off the side of a comparison the tree search ignores (C20). -/
def SelPlain (s : Selection Key) : Prop := ∀ kq ∈ s.kvs, kq.2.cmp ≠ .ne ∧ TrOk kq.2

/-- A query for which both ways to find a channel are exact: the empty one, or one with such selections only, where every (sub-)query has a
selection or an And. -/
def Plain (q : Query Key) : Prop :=
  IsEmptyQuery q ∨ (everywhere (fun s => ValidSel s ∧ s.ids = [] ∧ SelPlain s) (fun q => Asks q ∧ NotOnlyOrs q) q ∧ Asks q ∧ NotOnlyOrs q)

end Willow.WaitingSpec
