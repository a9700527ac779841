import Verif.Model.NetProg
import Verif.Spec.CGVec

/-! # Programs with products: the sums they take -/

namespace Snob

/-- the vectors a statement adds -/
def NStmt.sums : NStmt → List (Nat × Nat)
  | .lin (.add i j) => [(i, j)]
  | _ => []

/-- whenever the program, run on `s`, adds two vectors, `A` holds of them -/
def NStmt.Adds (eig : Eig) (A : SnVec → SnVec → Prop) : List NStmt → List SnVec → Prop
  | [], _ => True
  | c :: p, s => (∀ e ∈ c.sums, ∀ u v, s[e.1]? = some u → s[e.2]? = some v → A u v) ∧ ∀ s', c.exec eig s = some s' → Adds eig A p s'

/-- the vectors a program is run on, each acted on by a permutation -/
noncomputable def applyAll (a : Arr) (s : List SnVec) : Option (List SnVec) := s.mapM fun v => v.apply a

end Snob
