import Verif.Spec.Function
import Verif.Spec.Perm
import Verif.Model.Function
import Verif.Model.Irrep

/-! Functions on `Sn` made from the matrices of an irrep. -/

namespace Snob

/-- `f` has at every permutation the entry `(i,j)` of the matrix of the irrep. -/
def EntryFn (n : Nat) (R : IrrepObj) (i j : Nat) (f : Cells ℝ) : Prop :=
  Written (snSize n) f ∧ ∀ s, IsPerm n s → ∃ A, R.eval s = some A ∧ (snGroup n).value f s = some (A i j)

/-- `f` has at every permutation the trace of the matrix of the irrep. -/
def TraceFn (n : Nat) (R : IrrepObj) (f : Cells ℝ) : Prop :=
  Written (snSize n) f ∧ ∀ s, IsPerm n s → ∃ A, R.eval s = some A ∧
    (snGroup n).value f s = some (∑ i ∈ Finset.range R.d, A i i)

/-- `f` has the same value at conjugate permutations. -/
def ConstantOnClasses (n : Nat) (f : Cells ℝ) : Prop :=
  ∀ σ τ : Equiv.Perm (Fin n), (snGroup n).value f (enc (τ * σ * τ⁻¹)) = (snGroup n).value f (enc σ)

end Snob
