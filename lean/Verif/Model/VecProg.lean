import Verif.Model.SnWeights
import Verif.Model.SnVecAct

/-!
Model of programs that combine `SnVec`s, as the layers of an equivariant network do: a program holds a list of vectors,
the first of them its input, and makes new ones with the operations of `SnVec` and `SnWeights`.
-/

namespace Snob

/-- one statement of such a program; the vectors are named by their places in the list -/
inductive VStmt
  /-- `SnVec w=W*v_i;` Sn/SnWeights.hpp:75-81 -/
  | mul (W : Weights) (i : Nat)
  /-- `SnVec w=SnVec::cat({&v_i,…});` of at least one vector, Sn/SnVec.hpp:253-267 -/
  | cat (i : Nat) (is : List Nat)
  /-- `v_i.add(v_j);` Sn/SnVec.hpp:166-170, which changes `v_i` -/
  | add (i j : Nat)

namespace VStmt

/-- Running one statement: `none` when there is no vector of a name, or when the call is undefined. -/
noncomputable def exec : VStmt → List SnVec → Option (List SnVec)
  | mul W i, s => do
    let v ← s[i]?
    let w ← Weights.mulVec W v
    some (s ++ [w])
  | cat i is, s => do
    let vs ← (i :: is).mapM fun k => s[k]?
    let w ← SnVec.cat vs
    some (s ++ [w])
  | add i j, s => do
    let u ← s[i]?
    let v ← s[j]?
    let w ← u.add v
    some (s.set i w)

/-- Running a program. -/
noncomputable def run : List VStmt → List SnVec → Option (List SnVec)
  | [], s => some s
  | c :: p, s => do
    let s ← c.exec s
    run p s

end VStmt

end Snob
