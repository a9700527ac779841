import Verif.Model.SnWeights
import Verif.Spec.Function
import Verif.Spec.FFT
import Verif.Spec.Perm
import Verif.Spec.Partition

/-! # Specification: weights as maps of functions on `Sn` (C135) -/

namespace Snob

open IP Perm

/-- For every partition of `n` the matrix is square, of the dimension of the irrep. -/
def Weights.Square (n : Nat) (W : Weights) : Prop :=
  ∀ p R, IsPartition n p → mkIrrep p = some R → ∃ f, W p = some (.mat R.d R.d f)

/-- The matrices of `W` are the transposes of the parts of `gs`. -/
def Weights.TransposeOf (W : Weights) (gs : List VPart) : Prop :=
  ∀ P ∈ gs, ∃ f, W P.irrep.lambda = some (.mat P.m P.d f) ∧ ∀ a < P.d, ∀ b < P.m, f b a = P.data a b

/-- For every partition of `n` the rows of the matrix are orthonormal. -/
def Weights.Orthonormal (n : Nat) (W : Weights) : Prop :=
  ∀ p d f, IsPartition n p → W p = some (.mat d d f) →
    ∀ i < d, ∀ j < d, ∑ k ∈ Finset.range d, f i k * f j k = if i = j then 1 else 0

/-- `h=f+s*g`, at every cell -/
def IsCombF (n : Nat) (s : ℝ) (f g h : Cells ℝ) : Prop :=
  ∀ c < snSize n, ∃ x y, rdC f c = some x ∧ rdC g c = some y ∧ rdC h c = some (x + s * y)

/-- `L` is linear on the functions on `Sn`. -/
def LinearF (n : Nat) (L : Cells ℝ → Option (Cells ℝ)) : Prop :=
  ∀ s f g h f' g', Written (snSize n) f → Written (snSize n) g → Written (snSize n) h → IsCombF n s f g h → L f = some f' → L g = some g' →
    ∃ h', L h = some h' ∧ IsCombF n s f' g' h'

/-- `L` commutes with `right_translate`. -/
def CommutesF (n : Nat) (L : Cells ℝ → Option (Cells ℝ)) : Prop :=
  ∀ f t, Written (snSize n) f → IsPerm n t →
    (((snGroup n).rightTranslate f t).bind L) = (L f).bind fun h => (snGroup n).rightTranslate h t

/-- `L` commutes with `left_translate`. -/
def CommutesLeftF (n : Nat) (L : Cells ℝ → Option (Cells ℝ)) : Prop :=
  ∀ f t, Written (snSize n) f → IsPerm n t →
    (((snGroup n).leftTranslate f t).bind L) = (L f).bind fun h => (snGroup n).leftTranslate h t

/-- For every partition of `n` the matrix is a multiple of the identity matrix. -/
def Weights.Scalar (n : Nat) (W : Weights) : Prop :=
  ∀ p R, IsPartition n p → mkIrrep p = some R → ∃ z f, W p = some (.mat R.d R.d f) ∧ ∀ i < R.d, ∀ j < R.d, f i j = if i = j then z else 0

/-- the sum of the squares of the values is kept -/
def KeepsSquares (n : Nat) (L : Cells ℝ → Option (Cells ℝ)) : Prop :=
  ∀ f h (F H : Nat → ℝ), Written (snSize n) f → L f = some h → (∀ c < snSize n, rdC f c = some (F c)) → (∀ c < snSize n, rdC h c = some (H c)) →
    ∑ c ∈ Finset.range (snSize n), H c ^ 2 = ∑ c ∈ Finset.range (snSize n), F c ^ 2

end Snob
