import Mathlib.LinearAlgebra.Matrix.Defs
import Mathlib.Data.Complex.Basic
import Verif.Model.Groups

/-!
What the elements of the cyclic and dihedral groups are, and how a tensor is read as a matrix.
-/

namespace Snob

/-- A residue modulo `n`, represented by one of `0..n-1`. -/
def CycValid (n : Nat) (x : CycElem) : Prop := x.n = n ∧ 0 ≤ x.i ∧ x.i < n

/-- A rotation (`s=1`) or a reflection (`s=-1`) with a number in `0..n-1`. -/
def DihValid (n : Nat) (x : DihElem) : Prop := x.n = n ∧ 0 ≤ x.i ∧ x.i < n ∧ (x.s = 1 ∨ x.s = -1)

/-- A tensor that holds one number (`d=1`) or a `d` by `d` matrix. -/
def CTensor.Square (T : CTensor) (d : Nat) : Prop := T.dims = (if d = 1 then [1] else [d, d]) ∧ T.data.length = d * d

/-- Its entries. -/
noncomputable def CTensor.mat (T : CTensor) (d : Nat) : Matrix (Fin d) (Fin d) ℂ := fun a b => T.data.getD (a * d + b) 0

end Snob
