import Verif.Proofs.Kron

/-! # The multiplicity is the dimension of a space of invariants -/

namespace Snob

open scoped Nat

/-- the vectors fixed by all matrices of a family -/
def fixedVecs {G ι : Type} [Fintype ι] (M : G → Matrix ι ι ℝ) : Submodule ℝ (ι → ℝ) where
  carrier := {x | ∀ g, (M g).mulVec x = x}
  add_mem' := by
    intro x y hx hy g
    rw [Matrix.mulVec_add, hx g, hy g]
  zero_mem' := by intro g; exact Matrix.mulVec_zero _
  smul_mem' := by
    intro c x hx g
    rw [Matrix.mulVec_smul, hx g]

/-- the average of the characters is the dimension of the fixed space -/
theorem finrank_fixed {n : Nat} {ι : Type} [Fintype ι] [DecidableEq ι] (M : Equiv.Perm (Fin n) →* Matrix ι ι ℝ) :
    (Module.finrank ℝ (fixedVecs M) : ℝ) = (∑ σ, Matrix.trace (M σ)) / n ! := by
  have hf : (n ! : ℝ) ≠ 0 := by exact_mod_cast (Nat.factorial_pos n).ne'
  let P : Matrix ι ι ℝ := (n ! : ℝ)⁻¹ • ∑ σ, M σ
  have hinv : ∀ g, M g * P = P := by
    intro g
    simp only [P]
    rw [Matrix.mul_smul, Matrix.mul_sum]
    congr 1
    simp only [← map_mul]
    exact Equiv.sum_comp (Equiv.mulLeft g) fun σ => M σ
  have hproj : LinearMap.IsProj (fixedVecs M) (Matrix.toLin' P) := by
    constructor
    · intro x g
      rw [Matrix.toLin'_apply, Matrix.mulVec_mulVec, hinv]
    · intro x hx
      rw [Matrix.toLin'_apply]
      simp only [P]
      rw [Matrix.smul_mulVec, Matrix.sum_mulVec, Finset.sum_congr rfl fun g _ => hx g, Finset.sum_const, Finset.card_univ,
        Fintype.card_perm, Fintype.card_fin, ← Nat.cast_smul_eq_nsmul ℝ, smul_smul, inv_mul_cancel₀ hf, one_smul]
  rw [← hproj.trace, Matrix.trace_toLin'_eq]
  simp only [P]
  rw [Matrix.trace_smul, Matrix.trace_sum, smul_eq_mul, div_eq_inv_mul]

end Snob
