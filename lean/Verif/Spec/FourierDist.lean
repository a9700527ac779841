import Verif.Spec.Plancherel

/-! # Distances in the norm that goes with Plancherel's formula -/

namespace Snob

/-- The sum of the squares of the differences of the entries of two parts, inside the dimensions of the first. -/
noncomputable def partDist (W V : VPart) : ℝ := ∑ i ∈ Finset.range W.d, ∑ k ∈ Finset.range W.m, (V.data i k - W.data i k) ^ 2

/-- The distance of two Fourier transforms: part by part, with each part weighted by the dimension of its irrep. -/
noncomputable def fourierDist (ws vs : List VPart) : ℝ := √(List.zipWith (fun W V => (W.d : ℝ) * partDist W V) ws vs).sum

/-- The length of a Fourier transform in the same norm. -/
noncomputable def fourierLen (ws : List VPart) : ℝ := √(fourierDot ws ws)

end Snob
