import Verif.Model.FourierOnGroup
import Verif.Spec.Groups
import Verif.Spec.Function

/-! What Fourier transforms on groups are to do. -/

namespace Snob

variable {E : Type}

/-- Every function on a group with `N` elements has a transform, and it comes back from it. -/
def Inverts (P : Irreps E) (N : Nat) : Prop :=
  ∀ f, Written N f → ∃ F, fourier P N f = some F ∧ iFourier P N F = some f

/-- `act` does to the transform of `f` what `move` does to `f`: the same numbers in every part. -/
def Follows (P : Irreps E) (N : Nat) (move : Cells ℂ → Option (Cells ℂ)) (act : List CTensor → Option (List CTensor)) (f : Cells ℂ) : Prop :=
  ∃ g F G A, move f = some g ∧ fourier P N f = some F ∧ fourier P N g = some G ∧ act F = some A ∧
    A.map CTensor.data = G.map CTensor.data

/-- All values are real. -/
def RealValued (f : Cells ℂ) : Prop := ∀ v, some v ∈ f → v.im = 0

end Snob
