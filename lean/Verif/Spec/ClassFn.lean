import Verif.Model.ClassFn
import Verif.Spec.SnBank

/-! What a class function over `S_n` should be: a function of the partitions of `n`. -/

namespace Snob.FnStep

/-- the preconditions: the partitions are partitions of `n`, the numbers are numbers of classes -/
def Valid (n : Nat) : FnStep → Prop
  | .call c => c.Valid
  | .getBy p => IsPartition n p
  | .setBy p _ => IsPartition n p
  | .setAt i _ => i < (IP.partitions n).length

/-- what a step does to the function -/
def effect (n : Nat) (F : List Nat → ℝ) : FnStep → List Nat → ℝ
  | .call _ => F
  | .getBy _ => F
  | .setBy p x => fun q => if q = p then x else F q
  | .setAt i x => fun q => if (IP.partitions n)[i]? = some q then x else F q

end Snob.FnStep
