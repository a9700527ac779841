import Verif.Spec.LetterNear

/-! Weights that are known up to an error (property C144). -/

namespace Snob

namespace Weights

/-- the entries of `W'` are those of `W` up to a relative error `η` -/
def NearW (η : ℝ) (W W' : Weights) : Prop :=
  ∀ z r c f, W z = some (.mat r c f) → ∃ f', W' z = some (.mat r c f') ∧ ∀ j k, |f' j k - f j k| ≤ η * |f j k|

/-- the weights as stored in `float` -/
noncomputable def rounded (F : Rounding) (W : Weights) : Weights := fun z => (W z).map fun
  | .mat r c f => .mat r c fun j k => F.s (f j k)
  | .vec k f => .vec k f

end Weights

namespace LStmt

/-- the same statement, with other weights -/
def Near (η : ℝ) : LStmt → LStmt → Prop
  | net (.lin (.mul W i)), c' => ∃ W', c' = net (.lin (.mul W' i)) ∧ W.NearW η W'
  | c, c' => c' = c

/-- one for a product with weights -/
def muls : LStmt → Nat
  | net (.lin (.mul _ _)) => 1
  | _ => 0

/-- the statement with the weights as stored in `float` -/
noncomputable def rounded (F : Rounding) : LStmt → LStmt
  | net (.lin (.mul W i)) => net (.lin (.mul (W.rounded F) i))
  | c => c

end LStmt

end Snob
