import Mathlib.LinearAlgebra.Pi
import Verif.Model.CG
import Verif.Spec.SnBank
import Verif.Spec.SnType

/-!
Specification vocabulary for the multiplicities: which calls respect the preconditions; the invariants of a triple tensor
product.
-/

namespace Snob

/-- The preconditions: the partitions of one call are partitions of one number `n≥1`. -/
def CGCall.Valid : CGCall → Prop
  | .base c => c.Valid
  | .coeff a b c => ∃ n, 1 ≤ n ∧ IsPartition n a ∧ IsPartition n b ∧ IsPartition n c
  | .product a b => ∃ n, 1 ≤ n ∧ IsPartition n a ∧ IsPartition n b
  | .productTypes t u => ∃ n, 1 ≤ n ∧ TypeOk n t ∧ TypeOk n u

/-- The invariants in the tensor product of three representations given by matrices: the arrays `x` with
`sum over i',j',k' of A(i,i') B(j,j') C(k,k') x(i',j',k') = x(i,j,k)` for all group elements. -/
def tripleInvariants {G : Type} (d1 d2 d3 : Nat) (A B C : G → Nat → Nat → ℝ) :
    Submodule ℝ (Fin d1 × Fin d2 × Fin d3 → ℝ) where
  carrier := {x | ∀ (g : G) (i : Fin d1) (j : Fin d2) (k : Fin d3), ∑ i' : Fin d1, ∑ j' : Fin d2, ∑ k' : Fin d3,
    A g i i' * B g j j' * C g k k' * x (i', j', k') = x (i, j, k)}
  add_mem' := by
    intro x y hx hy g i j k
    simp only [Pi.add_apply, mul_add, Finset.sum_add_distrib]
    rw [hx, hy]
  zero_mem' := by intro g i j k; simp
  smul_mem' := by
    intro c x hx g i j k
    simp only [Pi.smul_apply, smul_eq_mul, ← hx g i j k, Finset.mul_sum]
    refine Finset.sum_congr rfl fun _ _ => Finset.sum_congr rfl fun _ _ => Finset.sum_congr rfl fun _ _ => ?_
    ring

end Snob
