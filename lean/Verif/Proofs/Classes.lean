import Mathlib.GroupTheory.Perm.Centralizer
import Mathlib.GroupTheory.Perm.Cycle.Concrete
import Verif.Model.Classes
import Verif.Spec.Classes
import Verif.Proofs.Complete

/-! # Class sizes and cycle types -/

namespace Snob

open scoped Nat

/-- order of the centralizer -/
def zee (m : Multiset Nat) : Nat := m.prod * ∏ x ∈ m.toFinset, (m.count x)!

theorem zee_add_replicate (c x : Nat) (B : Multiset Nat) (hx : x ∉ B) :
    zee (Multiset.replicate c x + B) = x ^ c * c ! * zee B := by
  rcases Nat.eq_zero_or_pos c with rfl | hc
  · simp
  · unfold zee
    have h1 : (Multiset.replicate c x + B).toFinset = insert x B.toFinset := by
      ext y
      simp only [Multiset.toFinset_add, Finset.mem_union, Multiset.mem_toFinset, Multiset.mem_replicate,
        Finset.mem_insert]
      constructor
      · rintro (⟨_, rfl⟩ | h)
        · exact Or.inl rfl
        · exact Or.inr h
      · rintro (rfl | h)
        · exact Or.inl ⟨by omega, rfl⟩
        · exact Or.inr h
    rw [h1, Finset.prod_insert (by simpa using hx), Multiset.prod_add, Multiset.prod_replicate,
      Multiset.count_add, Multiset.count_replicate_self, Multiset.count_eq_zero_of_notMem hx, add_zero]
    have h2 : ∏ y ∈ B.toFinset, ((Multiset.replicate c x + B).count y)! = ∏ y ∈ B.toFinset, (B.count y)! := by
      refine Finset.prod_congr rfl fun y hy => ?_
      have : y ≠ x := by rintro rfl; exact hx (by simpa using hy)
      rw [Multiset.count_add, Multiset.count_replicate, if_neg this.symm, zero_add]
    rw [h2]; ring

theorem zee_pos {m : Multiset Nat} (h : ∀ x ∈ m, 0 < x) : 0 < zee m := by
  unfold zee
  refine Nat.mul_pos (Multiset.prod_pos h) (Finset.prod_pos fun x _ => Nat.factorial_pos _)

theorem classSizeLoop_eq (xs : List Nat) (prev count t : Nat)
    (hs : (prev :: xs).Pairwise (fun a b => b ≤ a)) :
    classSizeLoop xs prev count t = t * zee (Multiset.replicate count prev + (xs : Multiset Nat)) := by
  induction xs generalizing prev count t with
  | nil =>
    rw [classSizeLoop, Multiset.coe_nil, zee_add_replicate _ _ _ (by simp)]
    simp [zee]
  | cons x xs ih =>
    rw [classSizeLoop]
    have hs' := (List.pairwise_cons.1 hs)
    split_ifs with h
    · subst h
      rw [ih x (count + 1) t hs'.2]
      congr 2
      rw [Multiset.replicate_succ, ← Multiset.cons_coe, Multiset.cons_add, Multiset.add_cons]
    · rw [ih x 1 _ hs'.2, zee_add_replicate count prev]
      · rw [Multiset.replicate_one, Multiset.singleton_add, ← Multiset.cons_coe]; ring
      · intro hm
        rw [Multiset.mem_coe] at hm
        have h1 := hs'.1 x (by simp)
        rcases List.mem_cons.1 hm with rfl | hm
        · exact h rfl
        · have := (List.pairwise_cons.1 hs'.2).1 prev hm
          omega

theorem classSize_eq {n : Nat} {p : List Nat} (hn : 1 ≤ n) (hp : IsPartition n p) :
    classSize n p = some (n ! / zee p) := by
  rcases p with _ | ⟨x, xs⟩
  · have := hp.sum; simp at this; omega
  · unfold classSize
    have e : classSizeLoop xs x 1 1 = zee ((x :: xs : List Nat) : Multiset Nat) := by
      rw [classSizeLoop_eq xs x 1 1 hp.sorted, one_mul, Multiset.replicate_one, Multiset.singleton_add, ← Multiset.cons_coe]
    simp only [e]
    rw [if_neg (zee_pos (by simpa using hp.pos)).ne']

/-- multiset of the parts greater than one -/
def big (p : List Nat) : Multiset Nat := (p : Multiset Nat).filter (2 ≤ ·)

theorem coe_eq_big {n : Nat} {p : List Nat} (hp : IsPartition n p) :
    (p : Multiset Nat) = Multiset.replicate (n - (big p).sum) 1 + big p := by
  have h1 : (p : Multiset Nat) = (p : Multiset Nat).filter (fun x => ¬ 2 ≤ x) + big p := by
    rw [add_comm]; exact (Multiset.filter_add_not _ _).symm
  have h2 : (p : Multiset Nat).filter (fun x => ¬ 2 ≤ x) =
      Multiset.replicate (Multiset.card ((p : Multiset Nat).filter fun x => ¬ 2 ≤ x)) 1 := by
    rw [Multiset.eq_replicate_card]
    intro b hb
    have := Multiset.mem_filter.1 hb
    have := hp.pos b (by simpa using this.1)
    omega
  have h3 := congrArg Multiset.sum h1
  rw [h2, Multiset.sum_add, Multiset.sum_replicate, smul_eq_mul, mul_one, Multiset.sum_coe, hp.sum] at h3
  rw [show n - (big p).sum = Multiset.card ((p : Multiset Nat).filter fun x => ¬ 2 ≤ x) by omega, ← h2]
  exact h1

theorem big_sum_le {n : Nat} {p : List Nat} (hp : IsPartition n p) : (big p).sum ≤ n := by
  have := congrArg Multiset.sum (coe_eq_big hp)
  rw [Multiset.sum_add, Multiset.sum_coe, hp.sum] at this
  omega

theorem hasCycleType_iff {n : Nat} {p : List Nat} (hp : IsPartition n p) (σ : Equiv.Perm (Fin n)) :
    HasCycleType σ p ↔ σ.cycleType = big p := by
  unfold HasCycleType
  have hs : σ.support.card = σ.cycleType.sum := σ.sum_cycleType.symm
  constructor
  · intro h
    unfold big
    rw [h, Multiset.filter_add, Multiset.filter_eq_self.2 fun a ha => Equiv.Perm.two_le_of_mem_cycleType ha]
    rw [Multiset.filter_eq_nil.2 fun a ha => by rw [Multiset.eq_of_mem_replicate ha]; omega, add_zero]
  · intro h
    rw [hs, h, add_comm]
    exact coe_eq_big hp

theorem zee_mul_card {n : Nat} {p : List Nat} (hp : IsPartition n p) :
    (Finset.univ.filter fun σ : Equiv.Perm (Fin n) => σ.cycleType = big p).card * zee p = n ! := by
  have h := Equiv.Perm.card_of_cycleType_mul_eq (Fin n) (big p)
  rw [Fintype.card_fin, if_pos ⟨big_sum_le hp, fun a ha => (Multiset.mem_filter.1 ha).2⟩] at h
  rw [← h]
  congr 1
  rw [coe_eq_big hp, zee_add_replicate _ _ _ (by simp [big]), one_pow, one_mul]
  unfold zee
  ring

theorem classSize_card {n : Nat} {p : List Nat} (hn : 1 ≤ n) (hp : IsPartition n p) :
    classSize n p = some (Finset.univ.filter fun σ : Equiv.Perm (Fin n) => σ.cycleType = big p).card := by
  rw [classSize_eq hn hp, ← zee_mul_card hp, Nat.mul_div_cancel _ (zee_pos (by simpa using hp.pos))]

/-- every permutation has a cycle type among the partitions -/
theorem exists_cycleType {n : Nat} (σ : Equiv.Perm (Fin n)) : ∃ p : Pt n, HasCycleType σ p.1 := by
  have hs := σ.partition.parts_sum
  replace hs := hs.trans (Fintype.card_fin n)
  obtain ⟨p, hp⟩ := (toNatPartition_bijective n).2 ⟨σ.partition.parts, fun h => σ.partition.parts_pos h, hs⟩
  refine ⟨p, ?_⟩
  have := congrArg Nat.Partition.parts hp
  unfold HasCycleType
  refine this.trans ?_
  show σ.partition.parts = _
  rw [Equiv.Perm.parts_partition, Fintype.card_fin]

theorem cycleType_unique {n : Nat} {σ : Equiv.Perm (Fin n)} {p q : List Nat} (hp : IsPartition n p) (hq : IsPartition n q)
    (h : HasCycleType σ p) (h' : HasCycleType σ q) : p = q := by
  have e : (p : Multiset Nat) = q := h.trans h'.symm
  exact (Multiset.coe_eq_coe.1 e).eq_of_pairwise (fun a b _ _ h h' => Nat.le_antisymm h' h) hp.sorted hq.sorted

/-- sums over the group by classes -/
theorem sum_by_class {n : Nat} (f : Equiv.Perm (Fin n) → ℝ) :
    ∑ σ, f σ = ∑ p : Pt n, ∑ σ ∈ Finset.univ.filter (fun σ : Equiv.Perm (Fin n) => σ.cycleType = big p.1), f σ := by
  classical
  choose c hc using fun σ : Equiv.Perm (Fin n) => exists_cycleType σ
  rw [← Finset.sum_fiberwise_of_maps_to (g := c) (t := Finset.univ) (fun _ _ => Finset.mem_univ _)]
  refine Finset.sum_congr rfl fun p _ => ?_
  congr 1
  ext σ
  simp only [Finset.mem_filter, Finset.mem_univ, true_and]
  constructor
  · rintro rfl
    exact (hasCycleType_iff (c σ).2 σ).1 (hc σ)
  · intro h
    exact Subtype.ext (cycleType_unique (c σ).2 p.2 (hc σ) ((hasCycleType_iff p.2 σ).2 h))

/-! ## The canonical representative -/

theorem run_formPerm {n : Nat} (m t : Nat) (h : t + m < n) :
    run (adj n) t m = (List.ofFn fun i : Fin (m + 1) => (⟨t + i, by omega⟩ : Fin n)).formPerm := by
  induction m generalizing t with
  | zero => simp [run]
  | succ m ih =>
    rw [run, ih (t + 1) (by omega), List.ofFn_succ, List.ofFn_succ, List.ofFn_succ, List.formPerm_cons_cons]
    congr 1
    · unfold adj
      rw [dif_pos (by omega)]
      rfl
    · congr 2
      refine congrArg List.ofFn (funext fun i => ?_)
      apply Fin.ext
      simp only [Fin.val_succ]
      omega

theorem cycleType_cyc {n t m : Nat} (h : t + m < n) (hm : 1 ≤ m) :
    (cyc (⟨t, by omega⟩ : Fin n) ⟨t + m, h⟩).cycleType = {m + 1} := by
  have hnd : (List.ofFn fun i : Fin (m + 1) => (⟨t + i, by omega⟩ : Fin n)).Nodup := by
    rw [List.nodup_ofFn]
    intro i j e
    simp only [Fin.mk.injEq] at e
    exact Fin.ext (by omega)
  rw [← run_adj h, run_formPerm m t h, (List.isCycle_formPerm hnd (by simp; omega)).cycleType,
    List.support_formPerm_of_nodup _ hnd, List.toFinset_card_of_nodup hnd, List.length_ofFn]
  intro x e
  have := congrArg List.length e
  simp at this; omega

/-- the product of contiguous cycles of the given lengths, starting at `a` -/
def blockPerm (n : Nat) : List Nat → Nat → Equiv.Perm (Fin n)
  | [], _ => 1
  | x :: mu, a => blockPerm n mu (a + x) * run (adj n) a (x - 1)

theorem blockPerm_fix {n : Nat} (mu : List Nat) (a : Nat) (hpos : ∀ x ∈ mu, 0 < x) (hs : a + mu.sum ≤ n) (i : Fin n)
    (hi : (i : Nat) < a) : blockPerm n mu a i = i := by
  induction mu generalizing a with
  | nil => rfl
  | cons x mu ih =>
    simp only [List.sum_cons] at hs
    have hx := hpos x (by simp)
    rw [blockPerm, Equiv.Perm.mul_apply]
    have : run (adj n) a (x - 1) i = i := by
      rw [run_adj (by omega), Fin.ext_iff, cyc_apply _ _ (by rw [Fin.le_def]; simp), if_pos]
      left; exact hi
    rw [this]
    exact ih (a + x) (fun y hy => hpos y (by simp [hy])) (by omega) (by omega)

theorem blockPerm_cycleType {n : Nat} (mu : List Nat) (a : Nat) (hpos : ∀ x ∈ mu, 0 < x) (hs : a + mu.sum ≤ n) :
    (blockPerm n mu a).cycleType = big mu := by
  induction mu generalizing a with
  | nil => simp [blockPerm, big]
  | cons x mu ih =>
    simp only [List.sum_cons] at hs
    have hx := hpos x (by simp)
    have ih' := ih (a + x) (fun y hy => hpos y (by simp [hy])) (by omega)
    rw [blockPerm]
    by_cases h1 : x = 1
    · subst h1
      rw [show run (adj n) a (1 - 1) = 1 from rfl, mul_one, ih']
      unfold big
      rw [← Multiset.cons_coe, Multiset.filter_cons_of_neg _ (by omega)]
    · have hd : (blockPerm n mu (a + x)).Disjoint (run (adj n) a (x - 1)) := by
        intro i
        by_cases hi : (i : Nat) < a + x
        · exact Or.inl (blockPerm_fix mu _ (fun y hy => hpos y (by simp [hy])) (by omega) i hi)
        · right
          rw [run_adj (by omega), Fin.ext_iff, cyc_apply _ _ (by rw [Fin.le_def]; simp), if_pos]
          right; simp only; omega
      rw [hd.cycleType_mul, ih', run_adj (by omega), cycleType_cyc (by omega) (by omega)]
      unfold big
      rw [← Multiset.cons_coe, Multiset.filter_cons_of_pos _ (by omega : 2 ≤ x), add_comm, Multiset.singleton_add,
        show x - 1 + 1 = x by omega]

end Snob
