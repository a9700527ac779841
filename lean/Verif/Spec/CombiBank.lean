import Verif.Model.CombiBank
import Verif.Spec.Partition

/-! # Queries to the combinatorial bank -/

namespace Snob.Combi

/-- The queries a user may make: about `n ≥ 1`, or about a partition of some `n ≥ 1`. -/
def Query.Valid : Query → Prop
  | .partitions n => 1 ≤ n
  | .ro n => 1 ≤ n
  | .tableaux l => ∃ n, 1 ≤ n ∧ IsPartition n l
  | .object l => ∃ n, 1 ≤ n ∧ IsPartition n l

/-- The answers without caches: the functions C10, C17, C19 and C15 are about. -/
def answer : Query → Option Answer
  | .partitions n => some (.parts (IP.partitions n))
  | .ro n => (IP.roPartitions n).map .parts
  | .tableaux l => (tableaux l).map .tabs
  | .object l => (IP.bankParents l).map (.object l)

end Snob.Combi
