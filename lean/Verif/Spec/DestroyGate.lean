import Verif.Model.DestroyGate
/-
What a user of the ordered tree expects of DestroyAll next to other calls.
-/
namespace Willow.DestroyGate

/-- Anything may happen. -/
def anyStep : W → Lbl → Prop := fun _ _ => True

/-- Nobody has panicked so far. -/
def NoPanic (s : W) : Prop := CPc.broke ∉ s.calls ∧ DPc.broke ∉ s.dest

/-- A DestroyAll is asleep in Wait, or has been woken there and not yet gone on. -/
def Asleep (s : W) : Prop := DPc.sleeping ∈ s.dest ∨ DPc.woken ∈ s.dest

/-- No call begins while a DestroyAll is asleep in Wait. -/
def quietWait (s : W) (l : Lbl) : Prop := l = .begin → ¬ Asleep s

/-- Neither a call nor a DestroyAll begins. -/
def goOn (_ : W) (l : Lbl) : Prop := l ≠ .begin ∧ l ≠ .destroy

/-- A DestroyAll that has not returned. -/
def DPc.isOpen : DPc → Prop
  | .waiting | .sleeping | .woken | .inside => True
  | .over | .busy | .broke => False

/-- A call that has not returned. -/
def CPc.isOpen : CPc → Prop
  | .over | .broke => False
  | _ => True

/-- While a DestroyAll is deleting, no call of the tree is at work, no second DestroyAll is under way, and calls are refused. -/
def Exclusive (s : W) : Prop :=
  ∀ i : Nat, s.dest[i]? = some DPc.inside →
    CPc.working ∉ s.calls ∧ s.flag = true ∧ ∀ (j : Nat) (d : DPc), s.dest[j]? = some d → d.isOpen → j = i

end Willow.DestroyGate
