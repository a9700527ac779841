import Verif.Props.Partition
import Verif.Proofs.SnBank
import Verif.Proofs.CombiBank
import Mathlib.Algebra.BigOperators.Group.Finset.Basic
import Mathlib.Algebra.BigOperators.Fin

/-! # Property C117: the documented order of the conjugacy classes -/

namespace Snob.Props

open Snob Snob.IP

/-- `p` majorizes `q`: the first `k` rows of `p` have together at least as many boxes as the first `k` rows of `q`, for every `k`. -/
def Majorizes (p q : List Nat) : Prop := ∀ k, ∑ i ∈ Finset.range k, row q i ≤ ∑ i ∈ Finset.range k, row p i

theorem lexGreater_of_majorizes {p q : List Nat} (h : Majorizes p q) (hne : ∃ i, row p i ≠ row q i) : LexGreater p q := by
  classical
  refine ⟨Nat.find hne, fun j hj => not_not.1 (Nat.find_min hne hj), ?_⟩
  have h1 := h (Nat.find hne + 1)
  rw [Finset.sum_range_succ, Finset.sum_range_succ, Finset.sum_congr rfl fun j hj =>
    not_not.1 (Nat.find_min hne (Finset.mem_range.1 hj))] at h1
  have h2 := Nat.find_spec hne
  omega

/-- **C117.** Of two partitions in `IntegerPartitions(n)` the one that majorizes the other comes first, and is the smaller one for `<`. -/
theorem C117_partitions (n : Nat) (hn : 1 ≤ n) (i j : Nat) (hi : i < (partitions n).length) (hj : j < (partitions n).length)
    (h : Majorizes (partitions n)[i] (partitions n)[j]) : i ≤ j ∧ (i ≠ j → lt (partitions n)[i] (partitions n)[j] = some true) := by
  obtain ⟨h1, h2⟩ := C11_partitions_sorted n hn i j hi hj
  by_cases hij : i = j
  · exact ⟨hij.le, fun h => absurd hij h⟩
  · have : i < j := by
      refine h1.2 (lexGreater_of_majorizes h ?_)
      by_contra hr
      push Not at hr
      have hp := (mem_partitions n hn _).1 (List.getElem_mem hi)
      have hq := (mem_partitions n hn _).1 (List.getElem_mem hj)
      have := (Combi.eqb_part hp hq).1 ((eqb_iff _ _).2 hr)
      exact hij ((List.Nodup.getElem_inj_iff (partitions_nodup n)).1 this)
    exact ⟨this.le, fun _ => by rw [h2, decide_eq_true this]⟩

/-- **C117.** `index` of a class that majorizes another one is smaller, on any group object, and the classes `cclass(i)` are in this order. -/
theorem C117_classes (n : Nat) (o : SnObjSt) (ho : ObjInv n o) (p q : List Nat) (hp : IsPartition n p) (hq : IsPartition n q)
    (h : Majorizes p q) (hne : p ≠ q) :
    ∃ o1 o2 o3 o4 i j, o.index p = some (o1, i) ∧ o1.index q = some (o2, j) ∧ i < j ∧ o2.cclass i = some (o3, p) ∧ o3.cclass j = some (o4, q) := by
  have mp := (mem_partitions n ho.pos p).2 hp
  have mq := (mem_partitions n ho.pos q).2 hq
  have lp := List.idxOf_lt_length_of_mem mp
  have lq := List.idxOf_lt_length_of_mem mq
  have gp := List.getElem_idxOf lp
  have gq := List.getElem_idxOf lq
  obtain ⟨o1, e1, h1, i1⟩ := index_ok _ hp o ho rfl
  obtain ⟨o2, e2, h2, i2⟩ := index_ok _ hq o1 h1 rfl
  obtain ⟨o3, e3, h3, i3⟩ := cclass_ok n _ (List.getElem?_eq_getElem lp) o2 h2 rfl
  obtain ⟨o4, e4, h4, i4⟩ := cclass_ok n _ (List.getElem?_eq_getElem lq) o3 h3 rfl
  rw [gp] at e3
  rw [gq] at e4
  refine ⟨o1, o2, o3, o4, _, _, e1, e2, ?_, e3, e4⟩
  have := C117_partitions n ho.pos _ _ lp lq (by rw [gp, gq]; exact h)
  refine lt_of_le_of_ne this.1 fun he => hne ?_
  rw [← gp, ← gq]
  exact (List.Nodup.getElem_inj_iff (partitions_nodup n)).2 he

/-- **C117 is not an equivalence**: majorization compares not all partitions, so the order of the classes says nothing about majorization
by itself: `[4,1,1]` is before `[3,3]`, and neither majorizes the other. -/
theorem C117_order_is_not_majorization :
    (partitions 6).idxOf [4, 1, 1] < (partitions 6).idxOf [3, 3] ∧ ¬ Majorizes [4, 1, 1] [3, 3] ∧ ¬ Majorizes [3, 3] [4, 1, 1] := by
  refine ⟨by decide, fun h => ?_, fun h => ?_⟩
  · exact absurd (h 2) (by decide)
  · exact absurd (h 1) (by decide)

example : Majorizes [3, 1] [2, 2] := fun k => by
  match k with
  | 0 => decide
  | 1 => decide
  | k + 2 =>
    have e : ∀ p : List Nat, p.length = 2 → ∑ i ∈ Finset.range (k + 2), row p i = row p 0 + row p 1 := fun p hp => by
      rw [Finset.sum_range_succ', Finset.sum_range_succ', Finset.sum_eq_zero fun i _ => ?_]
      · rw [zero_add, zero_add, add_comm]
      · unfold row; rw [List.getElem?_eq_none (by omega)]; rfl
    rw [e _ rfl, e _ rfl]
    decide
example : (((SnObjSt.new 4).index [3, 1]).map Prod.snd, ((SnObjSt.new 4).index [2, 2]).map Prod.snd) = (some 1, some 2) := by decide

end Snob.Props
