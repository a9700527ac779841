import Verif.Model.SnVec

/-!
Model of the other actions of `SnPart` and `SnVec`, by cycles and transpositions, and of `SnVec::add`.

The versions that copy and those in place do the same and are modelled by one function. `RtensorObj::add` is not part of
the repository: it is taken to add entry by entry two matrices of the same dimensions; other dimensions are `none`.
-/

namespace Snob

namespace VPart

/-- Sn/SnPart.hpp:223-232 `apply(cyc)`, `apply_inplace(cyc)`. -/
noncomputable def applyCycle (P : VPart) (a b : Int) : Option VPart := do
  let A ← P.irrep.applyCycle (List.range P.m) a b P.data
  some { P with data := A }

/-- Sn/SnPart.hpp:234-237 `apply_inplace_inv(cyc)`. -/
noncomputable def applyCycleInv (P : VPart) (a b : Int) : Option VPart := do
  let A ← P.irrep.applyCycleInv (List.range P.m) a b P.data
  some { P with data := A }

/-- Sn/SnPart.hpp:239-243 `apply(Transposition)`. -/
noncomputable def applyTransposition (P : VPart) (a b : Int) : Option VPart := do
  let A ← P.irrep.applyTransposition (List.range P.m) a b P.data
  some { P with data := A }

/-- `RtensorObj::add` of the matrices; the irrep stays. -/
noncomputable def add (P Q : VPart) : Option VPart :=
  if P.d = Q.d ∧ P.m = Q.m then some { P with data := fun i j => P.data i j + Q.data i j } else none

end VPart

namespace SnVec

/-- Sn/SnVec.hpp:150-154 `apply_inplace(cyc)`. -/
noncomputable def applyCycle (v : SnVec) (a b : Int) : Option SnVec := v.mapM fun P => P.applyCycle a b

/-- Sn/SnVec.hpp:156-160 `apply_inplace_inv(cyc)`. -/
noncomputable def applyCycleInv (v : SnVec) (a b : Int) : Option SnVec := v.mapM fun P => P.applyCycleInv a b

/-- Sn/SnVec.hpp:136-142 `apply(Transposition)`. -/
noncomputable def applyTransposition (v : SnVec) (a b : Int) : Option SnVec := v.mapM fun P => P.applyTransposition a b

/-- Sn/SnVec.hpp:168-169: the loop of `add` over the positions. -/
noncomputable def addLoop : SnVec → SnVec → Option SnVec
  | P :: v, Q :: w => do
    let R ← P.add Q
    let u ← addLoop v w
    some (R :: u)
  | _, _ => some []

/-- Sn/SnVec.hpp:166-170 `add(y)`: the new vector. The partitions of the parts are not compared. -/
noncomputable def add (v w : SnVec) : Option SnVec := if v.length = w.length then addLoop v w else none

end SnVec

end Snob
