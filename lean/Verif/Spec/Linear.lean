import Verif.Model.FFT

/-!
Linear combinations of vectors, for the linearity of the Fourier transform.
-/

namespace Snob

/-- Two vectors of the same type: the same number of parts, each with the same irrep and dimensions. -/
def SameType (F G : List VPart) : Prop :=
  F.length = G.length ∧ ∀ (i : Nat) (P Q : VPart), F[i]? = some P → G[i]? = some Q → Q.d = P.d ∧ Q.m = P.m ∧ Q.irrep = P.irrep

/-- `a F + b G`, part by part and entry by entry. -/
def combine (a b : ℝ) (F G : List VPart) : List VPart :=
  List.zipWith (fun P Q => { P with data := fun i j => a * P.data i j + b * Q.data i j }) F G

end Snob
