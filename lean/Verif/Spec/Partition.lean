/-!
Specification vocabulary for integer partitions, independent of the model.
-/

namespace Snob

/-- The length of row `i` of a sequence of row lengths; rows after the end have length zero. -/
def row (p : List Nat) (i : Nat) : Nat := (p[i]?).getD 0

/-- `p` is a partition of `n`: positive parts in weakly decreasing order with sum `n`. -/
structure IsPartition (n : Nat) (p : List Nat) : Prop where
  sorted : p.Pairwise (fun a b => b ≤ a)
  pos : ∀ x ∈ p, 0 < x
  sum : p.sum = n

/-- `p` arises from `q` by adding one box at the end of row `r`. -/
def AddsBoxAt (q p : List Nat) (r : Nat) : Prop :=
  ∀ i, row p i = row q i + (if i = r then 1 else 0)

/-- `p` arises from `q` by adding one box. -/
def AddsBox (q p : List Nat) : Prop := ∃ r, AddsBoxAt q p r

/-- `p` is lexicographically larger than `q`: at the first row in which they differ `p` is longer. -/
def LexGreater (p q : List Nat) : Prop :=
  ∃ i, (∀ j, j < i → row p j = row q j) ∧ row q i < row p i

end Snob
