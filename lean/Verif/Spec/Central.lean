import Mathlib.Algebra.BigOperators.Group.Finset.Basic
import Mathlib.Data.Int.Init
import Verif.Spec.Partition

/-!
Specification vocabulary for central characters and the branching of characters, independent of the model.
-/

namespace Snob

/-- The sum of the contents (column minus row) of the boxes of a diagram. -/
def contentSum (p : List Nat) : Int := ∑ i ∈ Finset.range p.length, ∑ j ∈ Finset.range (row p i), ((j : Int) - i)

end Snob
