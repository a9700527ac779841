import Verif.Spec.Tableau

/-! Specification vocabulary for hook lengths, independent of the model. -/

namespace Snob

/-- The length of the hook of the box in row `r`, column `c` (from zero): the box itself, the boxes to its right and
the boxes under it. -/
def hookLen (p : List Nat) (r c : Nat) : Nat :=
  1 + (row p r - (c + 1)) + ((List.range p.length).filter fun r' => decide (r < r' ∧ c < row p r')).length

/-- All hook lengths, row by row, each row from left to right. -/
def hookList (p : List Nat) : List Nat :=
  (List.range p.length).flatMap fun r => (List.range (row p r)).map fun c => hookLen p r c

end Snob
