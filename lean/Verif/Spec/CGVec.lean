import Verif.Spec.SnVec
import Mathlib.LinearAlgebra.Matrix.Symmetric
import Mathlib.Data.Real.Basic

/-! # What is asked of the eigensolver; inner products and sums of vectors -/

namespace Snob

/-- A solver of symmetric eigenproblems: the columns of `U` are orthonormal, and each is an eigenvector with the
eigenvalue of the same number. Nothing is said about the order of the eigenvalues, or about which of the possible
eigenvectors are returned. -/
def EigOk (eig : (k : Nat) → Matrix (Fin k) (Fin k) ℝ → Matrix (Fin k) (Fin k) ℝ × (Fin k → ℝ)) : Prop :=
  ∀ k M, M.IsSymm → (eig k M).1.transpose * (eig k M).1 = 1 ∧ M * (eig k M).1 = (eig k M).1 * Matrix.diagonal (eig k M).2

namespace SnVec

/-- the inner product of two vectors with the same parts -/
noncomputable def dot (v w : SnVec) : ℝ :=
  (List.zipWith (fun P Q => ∑ i ∈ Finset.range P.d, ∑ j ∈ Finset.range P.m, P.data i j * Q.data i j) v w).sum

/-- `v` and `w` have the same parts, of the same sizes. -/
def SameType (v w : SnVec) : Prop := v.map (fun P => (P.irrep.lambda, P.m)) = w.map fun P => (P.irrep.lambda, P.m)

/-- every entry of `u` is `s` times that of `v` plus that of `w`; all three have the same parts -/
def IsComb (s : ℝ) (u v w : SnVec) : Prop := SameType u v ∧ SameType u w ∧
  ∀ (k : Nat) (P Q R : VPart), u[k]? = some P → v[k]? = some Q → w[k]? = some R →
    ∀ i < P.d, ∀ j < P.m, P.data i j = s * Q.data i j + R.data i j

end SnVec

end Snob
