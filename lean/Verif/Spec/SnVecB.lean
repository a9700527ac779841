import Verif.Model.SnVecB
import Verif.Spec.SnVec

/-! What is seen of a batched vector: its members, which are vectors (C78-C81). -/

namespace Snob

/-- the member `k` of the batch -/
def BPart.member (P : BPart) (k : Nat) : VPart := ⟨P.d, P.m, P.irrep, P.data k⟩

namespace SnVecB

/-- the member `k` of the batch -/
def member (v : SnVecB) (k : Nat) : SnVec := v.map fun P => P.member k

/-- `v` is a batch of `b` vectors over `S_n` -/
structure Ok (n b : Nat) (v : SnVecB) : Prop where
  size : ∀ P ∈ v, P.b = b
  part : ∀ P ∈ v, IsPartition n P.irrep.lambda ∧ mkIrrep P.irrep.lambda = some P.irrep ∧ P.d = P.irrep.d
  sorted : (v.map fun P => P.irrep.lambda).Pairwise LexGreater

end SnVecB

end Snob
