import Verif.Spec.CGVec
import Mathlib.Analysis.Matrix.Spectrum

/-! # There are eigensolvers -/

namespace Snob

open Matrix

open Classical in
/-- a solver: the eigenvectors given by the spectral theorem -/
noncomputable def eigS (k : Nat) (M : Matrix (Fin k) (Fin k) ℝ) : Matrix (Fin k) (Fin k) ℝ × (Fin k → ℝ) :=
  if h : M.IsHermitian then ((h.eigenvectorUnitary : Matrix (Fin k) (Fin k) ℝ), h.eigenvalues) else (1, 0)

theorem eigS_ok : EigOk eigS := by
  intro k M hM
  have h : M.IsHermitian := by
    unfold Matrix.IsHermitian
    rw [Matrix.conjTranspose_eq_transpose_of_trivial]
    exact hM
  unfold eigS
  rw [dif_pos h]
  constructor
  · have := Unitary.coe_star_mul_self h.eigenvectorUnitary
    rw [Matrix.star_eq_conjTranspose, Matrix.conjTranspose_eq_transpose_of_trivial] at this
    exact this
  · ext i j
    have := congrFun (h.mulVec_eigenvectorBasis j) i
    rw [Matrix.mul_apply, Matrix.mul_diagonal]
    simp only [Matrix.mulVec, dotProduct, Pi.smul_apply, smul_eq_mul] at this
    simp only [h.eigenvectorUnitary_apply]
    rw [this, mul_comm]

end Snob
