import Verif.Model.FloatProg
import Verif.Model.LetterProg

/-!
Programs that restrict and induce vectors (Model/LetterProg.lean), in `float`.

Restriction, `cat` and induction add blocks to zeros (Sn/SnVec.hpp:225, 246 and 263), and a sum with zero is not rounded: they copy the entries,
and what they compute is what the exact model computes. Products with weights and sums are those of Model/FloatProg.lean. The Clebsch-Gordan
product is left out: its matrices come from a solver for eigenvalues, of which no rounding is known.
-/

namespace Snob

namespace Rounding

variable (F : Rounding) (ord : Nat → SumTree)

/-- one statement, Model/LetterProg.lean `LStmt.exec`; Sn/SnVec.hpp:219-232 `downB`, Sn/SnVec.hpp:234-251 `up` -/
noncomputable def lexec : LStmt → List SnVec → Option (List SnVec)
  | .net (.lin c), s => F.vexec ord c s
  | .net (.prod _ _), _ => none
  | .down i, s => do
    let v ← s[i]?
    let ws ← v.mapM SnVec.downB
    let w ← SnVec.cat ws
    some (s ++ [w])
  | .up tau i, s => do
    let v ← s[i]?
    let w ← SnVec.up tau v
    some (s ++ [w])

/-- a program -/
noncomputable def lrun : List LStmt → List SnVec → Option (List SnVec)
  | [], s => some s
  | c :: p, s => do
    let s ← F.lexec ord c s
    lrun p s

end Rounding

end Snob
