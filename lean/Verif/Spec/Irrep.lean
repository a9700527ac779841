import Mathlib.Analysis.Real.Sqrt
import Mathlib.Data.Matrix.Mul
import Verif.Spec.Perm
import Verif.Spec.Tableau

/-!
Specification vocabulary for the irreducible representations, independent of the model.
-/

namespace Snob

/-- The entry `m` of the tableau `T` has content (column minus row) `z`. -/
def HasContent (T : List (List Nat)) (m : Nat) (z : Int) : Prop :=
  ∃ r c, cell T r c = some m ∧ z = (c : Int) - r

/-- `T'` is `T` with the entries `k` and `k+1` exchanged. -/
def Exchanged (k : Nat) (T T' : List (List Nat)) : Prop :=
  ∀ r c, cell T' r c = (cell T r c).map fun m => if m = k then k + 1 else if m = k + 1 then k else m

open Classical in
/-- `ρ` is Young's orthogonal form with respect to the list `L` of tableaux: the matrix of the adjacent
transposition of the points `k+1`, `k+2` (counted from one) has `1/z` on the diagonal, `z` being the axial
distance from `k+1` to `k+2`, and `√(1-1/z²)` between tableaux that differ by exchanging these entries. -/
def IsYOR {n d : Nat} (L : List (List (List Nat))) (ρ : Equiv.Perm (Fin n) → Matrix (Fin d) (Fin d) ℝ) : Prop :=
  L.length = d ∧ ∀ (k : Nat) (hk : k + 1 < n) (i j : Fin d) (T T' : List (List Nat)) (z z' : Int),
    L[(i : Nat)]? = some T → L[(j : Nat)]? = some T' → HasContent T (k + 1) z → HasContent T (k + 2) z' →
    ρ (Equiv.swap ⟨k, by omega⟩ ⟨k + 1, hk⟩) i j =
      if i = j then 1 / ((z' : ℝ) - z)
      else if Exchanged (k + 1) T T' then √(1 - 1 / ((z' : ℝ) - z) ^ 2) else 0

/-- `Y` is the matrix `X` with every column `k` in `cols` multiplied from the left by the `d×d` matrix
`A`; the other columns and the rows from `d` on are those of `X`. -/
def LeftMul {K : Type} (d : Nat) (A : Nat → Nat → ℝ) (cols : List K) (X Y : Nat → K → ℝ) : Prop :=
  (∀ i k, i < d → k ∈ cols → Y i k = ∑ j : Fin d, A i j * X j k) ∧
  ∀ i k, ¬ (i < d ∧ k ∈ cols) → Y i k = X i k

end Snob
