import Verif.Model.SnWeights
import Verif.Spec.CGVec
import Verif.Spec.Perm

/-! What weights are, for C74-C77. -/

namespace Snob

namespace SnVec

/-- the sum of the columns of a list with the given coefficients -/
noncomputable def mixCols (d : Nat) (c : Nat → ℝ) (l : List (List ℝ)) : List ℝ :=
  (List.range d).map fun i => ((List.range l.length).map fun k => c k * (l.getD k []).getD i 0).sum

end SnVec

namespace Weights

/-- the product of weights, one matrix for each irrep -/
noncomputable def comp (W V : Weights) : Weights := fun x =>
  match W x, V x with
  | some (.mat r _ f), some (.mat c' c g) => some (.mat r c fun i j => ((List.range c').map fun k => f i k * g k j).sum)
  | _, _ => none

/-- A map of vectors of type `y` to vectors of type `x` over `S_n` that is linear and commutes with the group. -/
structure IsEquivariant (n : Nat) (x y : SnType) (T : SnVec → SnVec) : Prop where
  type : ∀ v, SnVec.Ok n v → SnVec.getType v = some y → SnVec.Ok n (T v) ∧ SnVec.getType (T v) = some x
  linear : ∀ s u v w, SnVec.Ok n u → SnVec.Ok n v → SnVec.Ok n w → SnVec.getType u = some y → SnVec.IsComb s u v w →
    SnVec.IsComb s (T u) (T v) (T w)
  commutes : ∀ a v v' w, IsPerm n a → SnVec.Ok n v → SnVec.getType v = some y → v.apply a = some v' → (T v).apply a = some w →
    SnVec.obs (T v') = SnVec.obs w

end Weights

end Snob
