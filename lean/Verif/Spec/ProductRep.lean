import Mathlib.Algebra.BigOperators.Fin
import Mathlib.Analysis.Real.Sqrt

/-! Specification vocabulary for the product of two representations, independent of the model. -/

namespace Snob

/-- Entry of the Kronecker product of two matrices, the second of size `d1`: row `x` stands for the pair of rows
`x / d1`, `x % d1`. -/
def kronEntry (d1 : Nat) (A0 A1 : Nat → Nat → ℝ) (x y : Nat) : ℝ := A0 (x / d1) (y / d1) * A1 (x % d1) (y % d1)

/-- `Y` is `X` with the middle index multiplied by the matrix `A`. -/
def MiddleMul {n0 d n2 : Nat} (A : Nat → Nat → ℝ) (X Y : Fin n0 → Fin d → Fin n2 → ℝ) : Prop :=
  ∀ a i b, Y a i b = ∑ j : Fin d, A i j * X a j b

end Snob
