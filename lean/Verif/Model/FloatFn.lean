import Verif.Model.Float
import Verif.Model.Function

/-! Convolution of functions on a group in `float`. -/

namespace Snob

namespace Rounding

variable (F : Rounding) {E : Type}

/-- Sn/SnFunction.hpp:166-178 `convolve(g)` (Model/Function `GroupI.convolve`) with the rounding of `float`: the product and the
sum of `t+=(*this)(sigma*G.element(j).inv())*g(j)` are rounded one after the other. -/
noncomputable def convolve (I : GroupI E) (f g : Cells ℝ) : Option (Cells ℝ) :=
  if g.length = f.length then
    forUp 0 f.length (List.replicate I.size none) fun i R => do
      let sigma ← I.element i
      let t ← forUp 0 f.length (0 : ℝ) fun j t => do
        let x ← I.element j
        let y ← I.inverse x
        let z ← I.mul sigma y
        let a ← I.value f z
        let b ← rdC g j
        some (F.s (t + F.s (a * b)))
      wrC R i t
  else none

end Rounding

end Snob
