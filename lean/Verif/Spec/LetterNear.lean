import Verif.Spec.LetterFloat

/-! Inputs that are known up to an error (property C143). -/

namespace Snob

namespace SnVec

/-- `a` bounds the absolute values of the entries of `x` -/
def Bounds (a x : SnVec) : Prop :=
  ∀ (k : Nat) (P A : VPart), x[k]? = some P → a[k]? = some A → ∀ i < P.d, ∀ j < P.m, |P.data i j| ≤ A.data i j

/-- `y` is `x` up to `δ` times a bound `a` of the entries of `x`; all over the same letters, `m` at least -/
def GivenFor (m : Nat) (δ : ℝ) (x y a : SnVec) : Prop :=
  ∃ n, m ≤ n ∧ Ok n x ∧ Ok n y ∧ Ok n a ∧ a.Bounds x ∧ WithinEntries δ a x y

/-- every entry replaced with the length of its column -/
noncomputable def lengths (x : SnVec) : SnVec := x.map fun P => { P with data := fun _ c => √(∑ i ∈ Finset.range P.d, P.data i c ^ 2) }

/-- a list of inputs -/
def AllGiven (m : Nat) (δ : ℝ) (xs ys as : List SnVec) : Prop :=
  ys.length = xs.length ∧ as.length = xs.length ∧
    ∀ (i : Nat) (x y a : SnVec), xs[i]? = some x → ys[i]? = some y → as[i]? = some a → GivenFor m δ x y a

end SnVec

end Snob
