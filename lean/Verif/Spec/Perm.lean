import Mathlib.Algebra.Group.End
import Mathlib.Data.Fintype.Basic
import Mathlib.Tactic.SplitIfs
import Verif.Model.Mem

/-!
# Specification vocabulary for permutations

`enc σ` is the buffer that holds the one-line notation of a mathematical permutation, with all cells written.
-/

namespace Snob

/-- The buffer `[σ(1), ..., σ(n)]` (1-based values) of a permutation of `Fin n`. -/
def enc {n : Nat} (σ : Equiv.Perm (Fin n)) : Arr :=
  List.ofFn fun i => some ((σ i : Int) + 1)

/-- The buffer holds a valid permutation of `n`. -/
def IsPerm (n : Nat) (a : Arr) : Prop := ∃ σ : Equiv.Perm (Fin n), a = enc σ

/-- The contiguous cycle `a → a+1 → ... → b → a` on `0..n-1` (0-based); the identity if `b < a`. -/
def cyc {n : Nat} (a b : Fin n) : Equiv.Perm (Fin n) :=
  if h : a ≤ b then
    { toFun := fun i => if h1 : i < a ∨ b < i then i else if h2 : i = b then a else ⟨i + 1, by
        have h3 : ¬ (i < a) ∧ ¬ (b < i) := not_or.mp h1
        have := h3.2; have hb := b.2; simp only [Fin.lt_def, Fin.ext_iff] at *; omega⟩
      invFun := fun i => if h1 : i < a ∨ b < i then i else if h2 : i = a then b else ⟨i - 1, by omega⟩
      left_inv := by
        intro i
        simp only [Fin.lt_def, Fin.le_def, Fin.ext_iff] at *
        split_ifs <;> simp_all <;> omega
      right_inv := by
        intro i
        simp only [Fin.lt_def, Fin.le_def, Fin.ext_iff] at *
        split_ifs <;> simp_all <;> omega }
  else 1

end Snob
