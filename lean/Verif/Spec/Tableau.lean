import Verif.Spec.Partition

/-!
Specification vocabulary for Young tableaux, independent of the model.
-/

namespace Snob

/-- The entry of a filling (vector of rows) in row `r`, column `c` (from zero), if there is one. -/
def cell (T : List (List Nat)) (r c : Nat) : Option Nat := (T[r]?).bind (fun row => row[c]?)

/-- `T` is a standard tableau of shape `p`: row lengths `p`, entries `1..n` each once, rows increasing
to the right, columns increasing downwards. -/
structure IsSYT (p : List Nat) (T : List (List Nat)) : Prop where
  shape : T.map List.length = p
  entries : T.flatten.Perm (List.range' 1 p.sum)
  rows : ∀ r c x y, cell T r c = some x → cell T r (c + 1) = some y → x < y
  cols : ∀ r c x y, cell T r c = some x → cell T (r + 1) c = some y → x < y

end Snob
