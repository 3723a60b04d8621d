import Verif.Spec.BTree
/-
What a walk over a range of keys promises when other calls run at the same time.
-/
namespace Willow.Spec

/-- The element is in the list exactly once. -/
def ExactlyOnce {α : Type} (x : α) (l : List α) : Prop := ∃ a b, l = a ++ x :: b ∧ x ∉ a ∧ x ∉ b

variable {K : Type} [KeyOps K]

/-- The keys the five range searches ask for (the type restrictions `lo`, `hi` are numbers of data types). -/
inductive Range (K : Type) where
  /-- every key, and all but one key. -/
  | all (lo hi : Int)
  | lessThan (key : K) (lo : Int)
  | lessThanOrEqual (key : K) (lo : Int)
  | greaterThan (key : K) (hi : Int)
  | greaterThanOrEqual (key : K) (hi : Int)

/-- The key belongs to the range. -/
def Range.has : Range K → K → Prop
  | .all lo hi, k => lo ≤ KeyOps.typ k ∧ KeyOps.typ k ≤ hi
  | .lessThan key lo, k => lo ≤ KeyOps.typ k ∧ KeyOps.lt k key = true
  | .lessThanOrEqual key lo, k => lo ≤ KeyOps.typ k ∧ KeyOps.lt key k = false
  | .greaterThan key hi, k => KeyOps.typ k ≤ hi ∧ KeyOps.lt key k = true
  | .greaterThanOrEqual key hi, k => KeyOps.typ k ≤ hi ∧ KeyOps.lt k key = false

end Willow.Spec
