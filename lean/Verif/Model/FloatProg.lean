import Verif.Model.FloatFFT
import Verif.Model.VecProg

/-!
Programs that combine `SnVec`s (Model/VecProg.lean) in `float`.

The matrix product and the addition are done by `cnine`, which is not part of the repository. They are taken to compute in
`float`: each product of two numbers is rounded, and the products are added in some order, every sum being rounded. That order, `ord c` for
the sum of `c` products, is an argument. A sum of no products is zero.
-/

namespace Snob

namespace Rounding

variable (F : Rounding) (ord : Nat → SumTree)

/-- one entry of a matrix product with `c` products, Sn/SnWeights.hpp:78 -/
noncomputable def dot (c : Nat) (x y : Nat → ℝ) : ℝ := if c = 0 then 0 else (ord c).sum F.s fun k => F.s (x k * y k)

/-- `(*p)*cnine::transp(M)` as the data of a part, Sn/SnWeights.hpp:78 -/
noncomputable def mulPart (M : WTensor) (P : VPart) : Option VPart :=
  match M with
  | .vec _ _ => none
  | .mat r c f => if P.m = c then some ⟨P.d, r, P.irrep, fun i j => F.dot ord c (P.data i) (f j)⟩ else none

/-- Sn/SnWeights.hpp:75-81 `operator*(y)`. -/
noncomputable def mulVec (W : Weights) (v : SnVec) : Option SnVec :=
  v.mapM fun P => do
    let M ← W.getMatrix P.irrep.lambda
    F.mulPart ord M P

/-- Sn/SnVec.hpp:166-170 `add(y)`: every sum is rounded. -/
noncomputable def addVec (v w : SnVec) : Option SnVec := do
  let u ← v.add w
  some (u.map fun P => { P with data := fun i j => F.s (P.data i j) })

/-- one statement, Model/VecProg.lean `VStmt.exec`; `cat` copies columns -/
noncomputable def vexec : VStmt → List SnVec → Option (List SnVec)
  | .mul W i, s => do
    let v ← s[i]?
    let w ← F.mulVec ord W v
    some (s ++ [w])
  | .cat i is, s => do
    let vs ← (i :: is).mapM fun k => s[k]?
    let w ← SnVec.cat vs
    some (s ++ [w])
  | .add i j, s => do
    let u ← s[i]?
    let v ← s[j]?
    let w ← F.addVec u v
    some (s.set i w)

/-- a program -/
noncomputable def vrun : List VStmt → List SnVec → Option (List SnVec)
  | [], s => some s
  | c :: p, s => do
    let s ← F.vexec ord c s
    vrun p s

end Rounding

end Snob
