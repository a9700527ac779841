import Verif.Spec.Irrep

/-!
Specification vocabulary for the action on tensor views, independent of the model.
-/

namespace Snob

/-- In the list `L` of tableaux, consider the pairs of positions of tableaux that differ by exchanging `k`
and `k+1`. They are *packed* if the first element of every pair comes before the second element of every
pair. -/
def PackedPairs (L : List (List (List Nat))) (k : Nat) : Prop :=
  ∀ (i j i' j' : Nat) (T1 T2 T1' T2' : List (List Nat)), L[i]? = some T1 →
    L[j]? = some T2 → L[i']? = some T1' → L[j']? = some T2' →
    Exchanged k T1 T2 → Exchanged k T1' T2' → i < j → i' < j' → i < j'

end Snob
