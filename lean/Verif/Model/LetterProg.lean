import Verif.Model.NetProg

/-!
Model of programs over vectors of different numbers of letters: the programs of `NStmt` with restriction, `downB` of the parts of a vector put
together with `cat`, and induction, `up`.
-/

namespace Snob

/-- one statement of such a program -/
inductive LStmt
  /-- a statement that keeps the number of letters -/
  | net (c : NStmt)
  /-- `downB` of each part of `v_i` and `cat` of the results, Sn/SnVec.hpp:219-232 and 253-267 -/
  | down (i : Nat)
  /-- `SnVec w=SnVec::up(tau,v_i);` Sn/SnVec.hpp:234-251 -/
  | up (tau : SnType) (i : Nat)

namespace LStmt

/-- Running one statement: `none` when there is no vector of a name, or when a call is undefined. -/
noncomputable def exec (eig : Eig) : LStmt → List SnVec → Option (List SnVec)
  | net c, s => c.exec eig s
  | down i, s => do
    let v ← s[i]?
    let ws ← v.mapM SnVec.downB
    let w ← SnVec.cat ws
    some (s ++ [w])
  | up tau i, s => do
    let v ← s[i]?
    let w ← SnVec.up tau v
    some (s ++ [w])

/-- Running a program. -/
noncomputable def run (eig : Eig) : List LStmt → List SnVec → Option (List SnVec)
  | [], s => some s
  | c :: p, s => do
    let s ← c.exec eig s
    run eig p s

end LStmt

end Snob
