import Verif.Spec.FFT

/-! # Inner products of Fourier transforms -/

namespace Snob

/-- The sum of the products of the entries of two parts, inside the dimensions of the first. -/
noncomputable def partDot (W V : VPart) : ℝ := ∑ i ∈ Finset.range W.d, ∑ k ∈ Finset.range W.m, W.data i k * V.data i k

/-- The inner product of two Fourier transforms, part by part, with each part weighted by the dimension of its irrep. -/
noncomputable def fourierDot (ws vs : List VPart) : ℝ := (List.zipWith (fun W V => (W.d : ℝ) * partDot W V) ws vs).sum

end Snob
