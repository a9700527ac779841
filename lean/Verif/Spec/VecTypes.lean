import Verif.Model.VecProg

/-! # Checking the types of programs that combine vectors -/

namespace Snob

/-- the type of a vector: its partitions, and the number of columns of each -/
abbrev VType := List (List Nat × Nat)

/-- the type of a vector -/
def SnVec.typeV (v : SnVec) : VType := v.map fun P => (P.irrep.lambda, P.m)

namespace VType

/-- the number of columns of a partition -/
def cols (t : VType) (z : List Nat) : Nat := (t.lookup z).getD 0

/-- the type of a product with weights: every partition needs a matrix with as many columns as the vector has -/
def mul (W : Weights) (t : VType) : Option VType := t.mapM fun e =>
  match W e.1 with
  | some (.mat r c _) => if c = e.2 then some (e.1, r) else none
  | _ => none

/-- the type of a concatenation -/
def cat (t : VType) (ts : List VType) : VType := t.map fun e => (e.1, e.2 + (ts.map fun t' => t'.cols e.1).sum)

end VType

namespace VStmt

/-- the check of one statement: the types it leaves, or an error -/
def check : VStmt → List VType → Option (List VType)
  | mul W i, s => s[i]?.bind fun t => (t.mul W).map fun t' => s ++ [t']
  | cat i is, s => s[i]?.bind fun t => (is.mapM fun k => s[k]?).map fun ts => s ++ [t.cat ts]
  | add i j, s => s[i]?.bind fun t => s[j]?.bind fun t' => if t = t' then some s else none

/-- the check of a program -/
def checkAll : List VStmt → List VType → Option (List VType)
  | [], s => some s
  | c :: p, s => (c.check s).bind (checkAll p)

end VStmt

end Snob
