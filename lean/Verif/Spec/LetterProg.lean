import Verif.Model.LetterProg
import Verif.Spec.NetProg
import Verif.Spec.SnType

/-! # Programs over vectors of different numbers of letters: which programs are meant, and acting on their inputs -/

namespace Snob

open SnVec

/-- `v` is a vector over the permutations of at least `m` letters, and `v'` is `v` acted on by the permutation `a` of the first `m` of them -/
def ActedBy (m : Nat) (a : Arr) (v v' : SnVec) : Prop :=
  ∃ d, Ok (m + d) v ∧ v.apply (a ++ (List.range d).map fun (i : Nat) => some (((m + i : Nat) : Int) + 1)) = some v'

/-- for every partition of the restriction of `tau`, `v` has a part, with at least as many columns -/
def SnVec.Covers (v : SnVec) (tau : SnType) : Prop :=
  ∃ D, SnType.down tau = some D ∧ ∀ mu ∈ parts D, mu ∈ (obs v).map Prod.fst ∧ mult D mu ≤ (colsAt (obs v) mu).length

/-- the statement puts together or multiplies vectors over the same number of letters, adds vectors of the same type, does not restrict to
fewer than `m` letters and induces to a type for whose restriction the vector has enough columns -/
def LStmt.Fits (m : Nat) : LStmt → List SnVec → Prop
  | .net (.lin (.mul _ _)), _ => True
  | .net (.lin (.cat i is)), s => ∃ n, m ≤ n ∧ ∀ k ∈ i :: is, ∀ v, s[k]? = some v → Ok n v
  | .net (.lin (.add i j)), s => ∀ u v, s[i]? = some u → s[j]? = some v → SameType u v
  | .net (.prod i j), s => ∃ n, m ≤ n ∧ n ≤ 1234567 ∧ ∀ u v, s[i]? = some u → s[j]? = some v → Ok n u ∧ Ok n v
  | .down i, s => ∃ n, m ≤ n ∧ ∀ v, s[i]? = some v → Ok (n + 1) v
  | .up tau i, s => ∃ n, m ≤ n ∧ TypeOk (n + 1) tau ∧ (∀ x ∈ parts tau, 0 ≤ mult tau x) ∧
      ∀ v, s[i]? = some v → Ok n v ∧ v.Covers tau

/-- all the statements of the program do, when it is run on `s` -/
def LStmt.AllFit (eig : Eig) (m : Nat) : List LStmt → List SnVec → Prop
  | [], _ => True
  | c :: p, s => c.Fits m s ∧ ∀ s', c.exec eig s = some s' → AllFit eig m p s'

/-- the statement is not a product of vectors -/
def LStmt.Linear : LStmt → Prop
  | .net (.prod _ _) => False
  | _ => True

end Snob
