import Mathlib.GroupTheory.Perm.Cycle.Type
import Verif.Spec.Perm

/-!
Specification vocabulary for conjugacy classes, independent of the model.
-/

namespace Snob

/-- `mu` lists the cycle lengths of `σ`, fixed points included. -/
def HasCycleType {n : Nat} (σ : Equiv.Perm (Fin n)) (mu : List Nat) : Prop :=
  (mu : Multiset Nat) = σ.cycleType + Multiset.replicate (n - σ.support.card) 1

end Snob
