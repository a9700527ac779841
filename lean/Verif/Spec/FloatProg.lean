import Verif.Model.FloatProg

/-! # What the properties of programs in floating point say -/

namespace Snob

namespace SnVec

/-- the absolute values of the entries -/
noncomputable def absVec (v : SnVec) : SnVec := v.map fun P => { P with data := fun i j => |P.data i j| }

/-- `w` and `w'` have the same parts, and corresponding entries differ by at most `ε` times that entry of `a` -/
def WithinEntries (ε : ℝ) (a w w' : SnVec) : Prop :=
  w'.length = w.length ∧ a.length = w.length ∧ ∀ (k : Nat) (P Q A : VPart), w[k]? = some P → w'[k]? = some Q → a[k]? = some A →
    (Q.irrep.lambda = P.irrep.lambda ∧ Q.d = P.d ∧ Q.m = P.m) ∧ (A.irrep.lambda = P.irrep.lambda ∧ A.d = P.d ∧ A.m = P.m) ∧
    ∀ i < P.d, ∀ j < P.m, |Q.data i j - P.data i j| ≤ ε * A.data i j

end SnVec

namespace Weights

/-- the absolute values of the weights -/
noncomputable def absW (W : Weights) : Weights := fun z => (W z).map fun
  | .mat r c f => .mat r c fun j k => |f j k|
  | .vec k f => .vec k f

end Weights

namespace VStmt

/-- the statement with the absolute values of its weights -/
noncomputable def abs : VStmt → VStmt
  | mul W i => mul W.absW i
  | cat i is => cat i is
  | add i j => add i j

/-- the number of roundings an entry goes through in a statement, when no part has more than `C` columns -/
def cost (C : Nat) : VStmt → Nat
  | mul _ _ => C
  | cat _ _ => 0
  | add _ _ => 1

/-- all weights are integers -/
def Integral : VStmt → Prop
  | mul W _ => ∀ z r c f, W z = some (.mat r c f) → ∀ j k, ∃ x : ℤ, f j k = x
  | cat _ _ => True
  | add _ _ => True

end VStmt

end Snob
