import Verif.Model.SnType
import Verif.Spec.Partition

/-!
Specification vocabulary for types: a type over `Sn` lists partitions of `n`, in lexicographic order without repetition,
with integers.
-/

namespace Snob

/-- the multiplicity of a partition, zero if it is not listed -/
def mult (t : SnType) (x : List Nat) : Int := (t.lookup x).getD 0

/-- the partitions listed -/
def parts (t : SnType) : List (List Nat) := t.map Prod.fst

/-- `t` is a type over partitions of `n`: what a program can make with the operations of `SnType`. -/
structure TypeOk (n : Nat) (t : SnType) : Prop where
  all : ∀ x ∈ parts t, IsPartition n x
  sorted : (parts t).Pairwise LexGreater

/-- the total of multiplicities times `d` -/
def typeSum (d : List Nat → Int) (t : SnType) : Int := (t.map fun e => e.2 * d e.1).sum

end Snob
