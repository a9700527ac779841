import Verif.Model.LetterFloat
import Verif.Model.FloatVec

/-! Vectors, weights and programs that differ in their numbers only (property C146). -/

namespace Snob

/-- of the same dimensions and for the same partition -/
def VPart.Like (P Q : VPart) : Prop := P.d = Q.d ∧ P.m = Q.m ∧ P.irrep.lambda = Q.irrep.lambda

/-- of the same dimensions and for the same irrep, with the same tables -/
def VPart.LikeIn (P Q : VPart) : Prop := P.d = Q.d ∧ P.m = Q.m ∧ P.irrep = Q.irrep

/-- part by part -/
def SnVec.Like (v w : SnVec) : Prop := List.Forall₂ VPart.Like v w

/-- part by part -/
def SnVec.LikeIn (v w : SnVec) : Prop := List.Forall₂ VPart.LikeIn v w

/-- of the same dimensions -/
def WTensor.Like : WTensor → WTensor → Prop
  | .mat r c _, .mat r' c' _ => r = r' ∧ c = c'
  | .vec k _, .vec k' _ => k = k'
  | _, _ => False

/-- matrices of the same dimensions for the same partitions -/
def Weights.Like (W W' : Weights) : Prop := ∀ z, Option.Rel WTensor.Like (W z) (W' z)

/-- the same statement, with other weights of the same dimensions -/
def LStmt.Like : LStmt → LStmt → Prop
  | .net (.lin (.mul W i)), c' => ∃ W', c' = .net (.lin (.mul W' i)) ∧ W.Like W'
  | c, c' => c' = c

end Snob
