import Verif.Model.Function

/-!
Model of the backward functions of `python/src/snob/SnFunction.py`.

Simplification: the functions read the names `tau`, `x` and `y`, which are not bound in them (a `NameError` in Python);
they are taken to be the `ctx.tau`, `ctx.x` and `ctx.y` that `forward` saved. `g` is the gradient of the result, and a
function returns what it hands to `set_grad`.
-/

namespace Snob.PyGrad

open Snob

/-- python/src/snob/SnFunction.py:112-115 `LeftTranslateFn.backward`. -/
def leftBack (n : Nat) (tau : Arr) (g : Cells ℝ) : Option (Cells ℝ) := do
  let u ← Perm.inverse tau
  (snGroup n).leftTranslate g u

/-- python/src/snob/SnFunction.py:129-132 `RightTranslateFn.backward`. -/
def rightBack (n : Nat) (tau : Arr) (g : Cells ℝ) : Option (Cells ℝ) := do
  let u ← Perm.inverse tau
  (snGroup n).rightTranslate g u

/-- python/src/snob/SnFunction.py:145-148 `InvFn.backward`. -/
def invBack (n : Nat) (g : Cells ℝ) : Option (Cells ℝ) := (snGroup n).invert g

/-- python/src/snob/SnFunction.py:163-167 `ConvolveFn.backward`: the gradients of `x` and of `y`. -/
noncomputable def convolveBack (n : Nat) (x y g : Cells ℝ) : Option (Cells ℝ × Cells ℝ) := do
  let gx ← (snGroup n).convolve g y
  let gy ← (snGroup n).convolve g x
  some (gx, gy)

end Snob.PyGrad
