import Verif.Model.DestroyKeys
/-
What a user of the ordered tree expects of Destroy next to other calls.
-/
namespace Willow.DestroyKeys

/-- A Destroy of `k` that has been admitted and has not returned. -/
def Destroys {K V : Type} (k : K) (c : Call K V) : Prop :=
  c.key = k ∧ c.op = .destroy ∧ (c.pc = .admitted ∨ ∃ r, c.pc = .worked r)

end Willow.DestroyKeys
