import Verif.Model.QueryConc
import Verif.Spec.AssocConc
import Verif.Spec.Assoc
/-!
Words for C95: what a query should report next to other calls.  What it means that an item satisfies a query is in Spec/Assoc (`satisfies`).
-/
namespace Willow.QueryConc
open Willow.AssocConc (Item Call)
open Willow.Assoc (Query Selection)

variable {K A : Type}

/-- The item with its id, as Spec/Assoc writes it. -/
def asItem (id : Nat) (it : Item K A) : Assoc.Item K A := ⟨id, it.kvs, it.val⟩

/-- There is such an item, and nobody has begun to destroy it. -/
def Present (id : Nat) (it : Item K A) (s : Sys K A) : Prop := s.tree.item id = some it ∧ id ∉ s.tree.destroying

/-- The calls other than queries, in the order in which they were made. -/
def others : List (Ev K A) → List (Call K A)
  | [] => []
  | .other (.call c) :: evs => c :: others evs
  | _ :: evs => others evs

/-- The queries, in the order in which they were called: query and callback. -/
def queryCalls : List (Ev K A) → List (Query K × (A → Bool))
  | [] => []
  | .call q more :: evs => (q, more) :: queryCalls evs
  | _ :: evs => queryCalls evs

/-- What the callback of query `m` was called with, in order. -/
def reports (m : Nat) : List (Ev K A) → List (Nat × Item K A)
  | [] => []
  | .report m' id it :: evs => if m' = m then (id, it) :: reports m evs else reports m evs
  | _ :: evs => reports m evs

/-- The selection names the ids of items, or it does not use `!=`. -/
def NoNotEquals (sel : Selection K) : Prop := sel.ids ≠ [] ∨ ∀ kq ∈ sel.kvs, kq.2.cmp ≠ .ne

/-- The selection passes validation and is one that a query of a tree nobody else uses answers exactly (C20). -/
def Exact [KeyOps K] (sel : Selection K) : Prop := Spec.ValidSel sel ∧ Spec.SelExact sel

end Willow.QueryConc
