import Verif.Model.Float
import Verif.Model.SnVecAct

/-! # Acting on vectors in floating point

The functions of `Sn/SnPart.hpp` and `Sn/SnVec.hpp` that act on vectors, with the arithmetic of `Model/Float.lean`: the entries are
`float`, the tables of the irreps and the intermediate values of the loops are `double`. The irreps that the parts point to are those of
`Rounding.mkIrrep`. -/

namespace Snob

namespace Rounding

variable (F : Rounding)

section
variable {K : Type} [DecidableEq K]

/-- Sn/SnIrrepObj.hpp:152-155 `apply_left_inv(A,cyc)`. -/
noncomputable def applyCycleInv (R : IrrepObj) (cols : List K) (a b : Int) (A : Nat → K → ℝ) : Option (Nat → K → ℝ) :=
  forUp a b A fun i A => F.applyTau R cols i A

/-- Sn/SnIrrepObj.hpp:157-164 `apply_left(A,Transposition)`. -/
noncomputable def applyTransposition (R : IrrepObj) (cols : List K) (x y : Int) (A : Nat → K → ℝ) : Option (Nat → K → ℝ) := do
  let a := min x y
  let b := max x y
  let A ← forDown (b - 1) a A fun i A => F.applyTau R cols i A
  forUp (a + 1) b A fun i A => F.applyTau R cols i A

end

/-- Sn/SnPart.hpp:212-221 `apply(sigma)`, `apply_inplace(sigma)`. -/
noncomputable def partApply (P : VPart) (sigma : Arr) : Option VPart := do
  let A ← F.applySigma P.irrep (List.range P.m) sigma P.data
  some { P with data := A }

/-- Sn/SnPart.hpp:223-232 `apply(cyc)`, `apply_inplace(cyc)`. -/
noncomputable def partCycle (P : VPart) (a b : Int) : Option VPart := do
  let A ← F.applyCycle P.irrep (List.range P.m) a b P.data
  some { P with data := A }

/-- Sn/SnPart.hpp:234-237 `apply_inplace_inv(cyc)`. -/
noncomputable def partCycleInv (P : VPart) (a b : Int) : Option VPart := do
  let A ← F.applyCycleInv P.irrep (List.range P.m) a b P.data
  some { P with data := A }

/-- Sn/SnPart.hpp:239-243 `apply(Transposition)`. -/
noncomputable def partTransposition (P : VPart) (a b : Int) : Option VPart := do
  let A ← F.applyTransposition P.irrep (List.range P.m) a b P.data
  some { P with data := A }

/-- Sn/SnVec.hpp:126-134 `apply(sigma)`; 144-148 `apply_inplace(sigma)`. -/
noncomputable def vecApply (v : SnVec) (sigma : Arr) : Option SnVec := v.mapM fun P => F.partApply P sigma

/-- Sn/SnVec.hpp:150-154 `apply_inplace(cyc)`. -/
noncomputable def vecCycle (v : SnVec) (a b : Int) : Option SnVec := v.mapM fun P => F.partCycle P a b

/-- Sn/SnVec.hpp:156-160 `apply_inplace_inv(cyc)`. -/
noncomputable def vecCycleInv (v : SnVec) (a b : Int) : Option SnVec := v.mapM fun P => F.partCycleInv P a b

/-- Sn/SnVec.hpp:136-142 `apply(Transposition)`. -/
noncomputable def vecTransposition (v : SnVec) (a b : Int) : Option SnVec := v.mapM fun P => F.partTransposition P a b

/-- `RtensorObj::add` of the matrices: sums of `float`s. -/
noncomputable def partAdd (P Q : VPart) : Option VPart :=
  if P.d = Q.d ∧ P.m = Q.m then some { P with data := fun i j => F.s (P.data i j + Q.data i j) } else none

/-- Sn/SnVec.hpp:168-169: the loop of `add` over the positions. -/
noncomputable def vecAddLoop : SnVec → SnVec → Option SnVec
  | P :: v, Q :: w => do
    let R ← F.partAdd P Q
    let u ← vecAddLoop v w
    some (R :: u)
  | _, _ => some []

/-- Sn/SnVec.hpp:166-170 `add(y)`. -/
noncomputable def vecAdd (v w : SnVec) : Option SnVec := if v.length = w.length then F.vecAddLoop v w else none

end Rounding

end Snob
