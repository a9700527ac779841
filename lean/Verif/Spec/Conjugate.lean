import Verif.Spec.Partition

/-!
Specification vocabulary for the transposed diagram, independent of the model.
-/

namespace Snob

/-- The diagrams of `p` and `q` are mirror images: the box in row `i`, column `j` belongs to `p` exactly when the box
in row `j`, column `i` belongs to `q`. -/
def Mirror (p q : List Nat) : Prop := ∀ i j, j < row p i ↔ i < row q j

end Snob
