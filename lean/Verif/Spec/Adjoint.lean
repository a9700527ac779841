import Verif.Model.Function

/-! # Inner products of functions on a group -/

namespace Snob

/-- The sum of the products of the values at the same positions. -/
def cellDot (f g : Cells ℝ) : ℝ := (List.zipWith (fun a b => a.getD 0 * b.getD 0) f g).sum

end Snob
