import Verif.Model.MatchConc
import Verif.Spec.AssocConc
/-!
Words for C90: what a match should report.
-/
namespace Willow.MatchConc
open Willow.AssocConc (Item Call KVs)

variable {V A : Type}

/-- Key-values match a query if each of their pairs is accepted by it. -/
def Matches (q : Query V) (kvs : KVs V) : Prop := ∀ p ∈ kvs, ∃ vs, (p.1, vs) ∈ q ∧ p.2 ∈ vs

/-- There is such an item, and nobody has begun to destroy it. -/
def Present (id : Nat) (it : Item V A) (s : Sys V A) : Prop := s.tree.item id = some it ∧ id ∉ s.tree.destroying

/-- The calls other than matches, in the order in which they were made. -/
def others : List (Ev V A) → List (Call V A)
  | [] => []
  | .other (.call c) :: evs => c :: others evs
  | _ :: evs => others evs

/-- The matches, in the order in which they were called: query and callback. -/
def matchCalls : List (Ev V A) → List (Query V × (A → Bool))
  | [] => []
  | .call q more :: evs => (q, more) :: matchCalls evs
  | _ :: evs => matchCalls evs

/-- What the callback of match `m` was called with, in order. -/
def reports (m : Nat) : List (Ev V A) → List (Nat × Item V A)
  | [] => []
  | .report m' id it :: evs => if m' = m then (id, it) :: reports m evs else reports m evs
  | _ :: evs => reports m evs

/-- Every call that removes something and was made has returned. -/
def NoneRemoving (evs : List (Ev V A)) : Prop :=
  ∀ t c, (others evs)[t]? = some c → c.removes = true → ∃ r, Ev.other (.ret t r) ∈ evs

end Willow.MatchConc
