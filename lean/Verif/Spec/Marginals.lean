import Mathlib.Data.Real.Basic
import Mathlib.Data.Fintype.BigOperators
import Mathlib.Data.Fintype.Perm

/-! Marginals of functions of permutations, for C132. -/

namespace Snob

variable {n : Nat}

/-- the sum of the values at the permutations that send the place `i a` to `j a`, for all `a` -/
noncomputable def marginal {k : Nat} (v : Equiv.Perm (Fin n) → ℝ) (i j : Fin k → Fin n) : ℝ :=
  ∑ σ ∈ Finset.univ.filter (fun σ : Equiv.Perm (Fin n) => (fun a => σ (i a)) = j), v σ

/-- equal marginals of order `k` -/
def SameMarginals (k : Nat) (v v' : Equiv.Perm (Fin n) → ℝ) : Prop := ∀ i j : Fin k → Fin n, marginal v i j = marginal v' i j

/-- a sum of functions, each of which depends on where `k` places are sent -/
def SumOfPlaces (k : Nat) (v : Equiv.Perm (Fin n) → ℝ) : Prop :=
  ∃ g : (Fin k → Fin n) → (Fin k → Fin n) → ℝ, ∀ σ : Equiv.Perm (Fin n), v σ = ∑ i, g i fun a => σ (i a)

end Snob
