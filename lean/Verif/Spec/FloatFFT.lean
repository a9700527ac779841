import Verif.Model.FloatFFT

/-! # What the properties of the transforms in floating point say -/

namespace Snob

/-- each of the numbers `0,..,n-1` is added exactly once -/
def SumTree.Covers (T : SumTree) (n : Nat) : Prop := T.leaves.Perm (List.range n)

/-- `ws'` has as many parts as `ws`, for the same irreps and of the same sizes, and the Euclidean distance of each column of a part
from the corresponding one of `ws` is at most `ε` -/
def NearVec (ε : ℝ) (ws ws' : List VPart) : Prop :=
  ws.length = ws'.length ∧ ∀ (i : Nat) (W W' : VPart), ws[i]? = some W → ws'[i]? = some W' →
    W.irrep = W'.irrep ∧ W.d = W'.d ∧ W.m = W'.m ∧ ∀ j < W.m, √(∑ i ∈ Finset.range W.d, (W'.data i j - W.data i j) ^ 2) ≤ ε

end Snob
