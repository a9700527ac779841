import Verif.Model.FFT

/-! # What it means to act on some of the copies -/

namespace Snob

/-- `P'` is `P` with the copies `o,...,o+s-1` multiplied by the matrix `A` from the left. -/
def ActsOnCopies (A : Nat → Nat → ℝ) (o s : Nat) (P P' : MPart) : Prop :=
  P'.N = P.N ∧ P'.d = P.d ∧ P'.m = P.m ∧ P'.irrep = P.irrep ∧
    ∀ i c k, i < P.d → c < P.N → k < P.m →
      P'.data i (c, k) = if o ≤ c ∧ c < o + s then ∑ j : Fin P.d, A i j * P.data j (c, k) else P.data i (c, k)

end Snob
