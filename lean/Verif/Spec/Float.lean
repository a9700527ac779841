import Mathlib.Data.Real.Basic
import Mathlib.Algebra.Order.Floor.Ring
import Mathlib.Data.Real.Archimedean
import Mathlib.LinearAlgebra.Dimension.Finrank
import Verif.Model.Irrep
import Verif.Model.Float
import Verif.Spec.CG
import Verif.Spec.Perm

/-! What a user expects of rounding. -/

namespace Snob

/-- The numbers with at most `p` significant binary digits. -/
def IsFloat (p : Nat) (x : ℝ) : Prop := ∃ m e : ℤ, |m| < 2 ^ p ∧ x = m * 2 ^ e

/-- IEEE 754, 4.3.1: the nearest number of the format. -/
structure RoundsToNearest (p : Nat) (r : ℝ → ℝ) : Prop where
  format : ∀ x, IsFloat p (r x)
  nearest : ∀ x y, IsFloat p y → |r x - x| ≤ |y - x|

/-- Ties: if another number of the format is as near, the last digit of the result is zero, which means that the result has `p-1`
digits. -/
def TiesToEven (p : Nat) (r : ℝ → ℝ) : Prop :=
  ∀ x y, IsFloat p y → y ≠ r x → |r x - x| = |y - x| → IsFloat (p - 1) (r x)

/-- The standard model of floating point arithmetic: the relative error is at most `u`. -/
def RelErr (u : ℝ) (r : ℝ → ℝ) : Prop := ∀ x, |r x - x| ≤ u * |x|

/-- The rounding does not depend on the sign. -/
def Odd' (r : ℝ → ℝ) : Prop := ∀ x, r (-x) = - r x

/-- The multiplicity that `coeff(a,b,c)` stands for: the dimension of the invariants in the tensor product of the three irreps, whose
matrices are the exact ones. -/
def IsMultiplicity (n : Nat) (a b c : List Nat) (K : Nat) : Prop :=
  ∃ R S T, mkIrrep a = some R ∧ mkIrrep b = some S ∧ mkIrrep c = some T ∧
    ∃ A B C : Equiv.Perm (Fin n) → Nat → Nat → ℝ,
      (∀ σ, R.eval (enc σ) = some (A σ) ∧ S.eval (enc σ) = some (B σ) ∧ T.eval (enc σ) = some (C σ)) ∧
      K = Module.finrank ℝ (tripleInvariants R.d S.d T.d A B C)

/-- The answer to a call in a program that made the calls `cs` before. -/
noncomputable def Rounding.answer (F : Rounding) (cs : List CGAsk) (c : CGAsk) : Option CGVal :=
  (F.cgRun CGCache.empty cs).bind fun s => (F.cgExec s c).map Prod.snd

/-- The arguments of a call are partitions of `n` (types whose partitions are partitions of `n`). -/
def CGAsk.At (n : Nat) : CGAsk → Prop
  | .coeff a b c => IsPartition n a ∧ IsPartition n b ∧ IsPartition n c
  | .product a b => IsPartition n a ∧ IsPartition n b
  | .productTypes t u => TypeOk n t ∧ TypeOk n u

/-- The calls of a program respect the preconditions; `n` may change from call to call. -/
def ValidProgram (cs : List CGAsk) : Prop := ∀ c ∈ cs, ∃ n, 1 ≤ n ∧ c.At n

end Snob
