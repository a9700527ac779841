import Verif.Model.CGVecB

/-!
Model of `SnCGbank::CheckCG`, which runs each time the factors of two partitions have been learnt and prints pairs of vectors to be
compared by eye. Printing is left out: the result is the list of the pairs. The two random parts are arguments.
-/

namespace Snob

/-- Sn/SnCGbank.hpp:305-311: what is printed for `i`; `Transposition(i)` swaps `i` and `i+1` (combinatorial/Transposition.hpp:27). -/
noncomputable def checkCGstep (eig : Eig) (x y : BPart) (i : Int) : Option (SnVecB × SnVecB) := do
  let x' ← x.applyTransposition i (i + 1)
  let y' ← y.applyTransposition i (i + 1)
  let S ← cgPartsB eig x' y'
  let R ← cgPartsB eig x y
  let R' ← SnVecB.applyTransposition R i (i + 1)
  some (S, R')

/-- Sn/SnCGbank.hpp:299-313 `CheckCG(lamb1,lamb2)`: `n` is read off `lamb1`, `x` and `y` are the `SnPartB::gaussian(1,lamb,1)`. -/
noncomputable def checkCG (eig : Eig) (x y : BPart) : Option (List (SnVecB × SnVecB)) :=
  (List.range (IP.getn x.irrep.lambda - 1)).mapM fun (k : Nat) => checkCGstep eig x y ((k : Int) + 1)

end Snob
