import Verif.Model.VecProg
import Verif.Model.CGVec

/-!
Model of programs that combine `SnVec`s and multiply them, as the layers of an equivariant network with products do: the
programs of `VStmt`, of any number of vectors, with Clebsch-Gordan products.
-/

namespace Snob

/-- one statement of such a program -/
inductive NStmt
  /-- a statement that combines vectors -/
  | lin (c : VStmt)
  /-- `SnVec w=CGproduct(v_i,v_j);` Sn/SnCGbank.hpp:240-245 -/
  | prod (i j : Nat)

namespace NStmt

/-- Running one statement: `none` when there is no vector of a name, or when the call is undefined. -/
noncomputable def exec (eig : Eig) : NStmt → List SnVec → Option (List SnVec)
  | lin c, s => c.exec s
  | prod i j, s => do
    let u ← s[i]?
    let v ← s[j]?
    let w ← cgVec eig u v
    some (s ++ [w])

/-- Running a program. -/
noncomputable def run (eig : Eig) : List NStmt → List SnVec → Option (List SnVec)
  | [], s => some s
  | c :: p, s => do
    let s ← c.exec eig s
    run eig p s

end NStmt

end Snob
