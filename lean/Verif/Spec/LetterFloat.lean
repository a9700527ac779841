import Verif.Model.LetterFloat
import Verif.Spec.FloatProg
import Verif.Spec.LetterProg

/-! # What the properties of programs that restrict and induce say in floating point -/

namespace Snob

namespace LStmt

/-- the statement with the absolute values of its weights -/
noncomputable def abs : LStmt → LStmt
  | net (.lin c) => net (.lin c.abs)
  | c => c

/-- the number of roundings an entry goes through in a statement, when no part has more than `C` columns: none in restriction and induction -/
def cost (C : Nat) : LStmt → Nat
  | net (.lin c) => c.cost C
  | _ => 0

/-- all weights are integers -/
def Integral : LStmt → Prop
  | net (.lin c) => c.Integral
  | _ => True

end LStmt

end Snob
