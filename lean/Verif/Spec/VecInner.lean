import Verif.Spec.LetterProg
import Verif.Spec.CGVec

/-! # Adjoints of the operations on vectors: transposed weights, the restriction of a vector -/

namespace Snob

/-- the matrices of `W'` are the transposes of those of `W` -/
def Weights.AdjointOf (W' W : Weights) : Prop :=
  ∀ x r c f, W x = some (.mat r c f) → ∃ g, W' x = some (.mat c r g) ∧ ∀ i < c, ∀ j < r, g i j = f j i

/-- `w` is the restriction of `v`: `downB` of its parts, put together with `cat` -/
def SnVec.Restricts (v w : SnVec) : Prop := ∃ ws, v.mapM SnVec.downB = some ws ∧ SnVec.cat ws = some w

end Snob
