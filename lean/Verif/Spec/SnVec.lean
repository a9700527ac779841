import Verif.Model.SnVec
import Verif.Spec.Partition

/-! What is seen of a vector, for C49 and C50. -/

namespace Snob

/-- the columns of a part, each the list of its entries -/
def VPart.cols (P : VPart) : List (List ℝ) :=
  (List.range P.m).map fun j => (List.range P.d).map fun i => P.data i j

namespace SnVec

/-- What a program can read of a vector: its partitions in order, and the columns of each part. -/
def obs (v : SnVec) : List (List Nat × List (List ℝ)) := v.map fun P => (P.irrep.lambda, P.cols)

/-- `v` is a vector over `S_n`: what a program can make with the constructors from types and the operations. -/
structure Ok (n : Nat) (v : SnVec) : Prop where
  part : ∀ P ∈ v, IsPartition n P.irrep.lambda ∧ mkIrrep P.irrep.lambda = some P.irrep ∧ P.d = P.irrep.d
  sorted : (v.map fun P => P.irrep.lambda).Pairwise LexGreater

/-- the columns of the part of `x` (none if there is no such part) -/
def colsAt (o : List (List Nat × List (List ℝ))) (x : List Nat) : List (List ℝ) := (o.lookup x).getD []

/-- the multiplicities -/
def typeOf (o : List (List Nat × List (List ℝ))) : SnType := o.map fun e => (e.1, (e.2.length : Int))

/-- a matrix times a column -/
noncomputable def mulCol (d : Nat) (A : Nat → Nat → ℝ) (c : List ℝ) : List ℝ :=
  (List.range d).map fun i => ((List.range d).map fun k => A i k * c.getD k 0).sum

end SnVec

end Snob
