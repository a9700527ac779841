import Verif.Proofs.PartitionList
import Mathlib.Combinatorics.Enumerative.Partition.Basic
import Mathlib.Data.Multiset.Sort
import Mathlib.SetTheory.Cardinal.Finite

namespace Snob

open IP

/-- partitions as sorted lists are the same as Mathlib's partitions -/
def toNatPartition {n : Nat} (p : {p : List Nat // IsPartition n p}) : Nat.Partition n where
  parts := p.1
  parts_pos := fun {i} hi => p.2.pos i (by simpa using hi)
  parts_sum := by simpa using p.2.sum

theorem toNatPartition_bijective (n : Nat) : Function.Bijective (toNatPartition (n := n)) := by
  constructor
  · rintro ⟨p, hp⟩ ⟨q, hq⟩ h
    have h1 : (p : Multiset Nat) = (q : Multiset Nat) := congrArg Nat.Partition.parts h
    have h2 : p.Perm q := Multiset.coe_eq_coe.1 h1
    have h3 : p = q := h2.eq_of_pairwise (fun a b _ _ h h' => Nat.le_antisymm h' h) hp.sorted hq.sorted
    simp [h3]
  · intro P
    refine ⟨⟨P.parts.sort (· ≥ ·), ⟨?_, ?_, ?_⟩⟩, ?_⟩
    · exact Multiset.pairwise_sort _ _
    · intro x hx
      exact P.parts_pos (by simpa using hx)
    · rw [← Multiset.sum_coe, Multiset.sort_eq, P.parts_sum]
    · apply Nat.Partition.ext
      show ((P.parts.sort (· ≥ ·) : List Nat) : Multiset Nat) = _
      rw [Multiset.sort_eq]

theorem card_partitions (n : Nat) (hn : 0 < n) :
    (partitions n).length = Fintype.card (Nat.Partition n) := by
  have e1 : Nat.card {p : List Nat // IsPartition n p} = Fintype.card (Nat.Partition n) := by
    rw [Nat.card_congr (Equiv.ofBijective _ (toNatPartition_bijective n)), Nat.card_eq_fintype_card]
  rw [← e1, ← List.toFinset_card_of_nodup (partitions_nodup n), ← Nat.card_eq_finsetCard]
  refine Nat.card_congr (Equiv.subtypeEquivRight fun p => ?_)
  rw [List.mem_toFinset]
  exact mem_partitions n hn p

end Snob
