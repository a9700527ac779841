import Verif.Proofs.Central
import Verif.Proofs.CGSplit

/-! # Branching of characters: restriction to the permutations of one letter less, and induction from them -/

namespace Snob

open scoped Nat

section

variable {n : Nat}

theorem extend_eq_extendDomain (σ : Equiv.Perm (Fin n)) : extend σ = σ.extendDomain (finSuccAboveEquiv (Fin.last n)) := by
  ext i
  by_cases h : i = Fin.last n
  · subst h
    rw [Equiv.Perm.extendDomain_apply_not_subtype _ _ (by simp)]
    simp [extend]
  · have hi : (i : Nat) < n := by
      have := i.2
      have : (i : Nat) ≠ n := fun e => h (Fin.ext e)
      omega
    have e : i = ((finSuccAboveEquiv (Fin.last n)) ⟨i, hi⟩ : Fin (n + 1)) := by
      simp [finSuccAboveEquiv]
    conv_rhs => rw [e]
    rw [Equiv.Perm.extendDomain_apply_image]
    simp [extend, hi, finSuccAboveEquiv]

theorem cycleType_extend (σ : Equiv.Perm (Fin n)) : (extend σ).cycleType = σ.cycleType := by
  rw [extend_eq_extendDomain, Equiv.Perm.cycleType_extendDomain]

theorem isPartition_snoc {mu : List Nat} (h : IsPartition n mu) : IsPartition (n + 1) (mu ++ [1]) := by
  refine ⟨?_, fun x hx => ?_, by simp [h.sum]⟩
  · rw [List.pairwise_append]
    exact ⟨h.sorted, by simp, fun a ha b hb => by simp at hb; subst hb; exact h.pos a ha⟩
  · rcases List.mem_append.1 hx with hx | hx
    · exact h.pos x hx
    · simp at hx; omega

theorem big_snoc (mu : List Nat) : big (mu ++ [1]) = big mu := by
  unfold big
  rw [← Multiset.coe_add, Multiset.filter_add]
  simp

theorem hasCycleType_extend {mu : List Nat} (h : IsPartition n mu) (σ : Equiv.Perm (Fin n)) :
    HasCycleType (extend σ) (mu ++ [1]) ↔ HasCycleType σ mu := by
  rw [hasCycleType_iff (isPartition_snoc h), hasCycleType_iff h, cycleType_extend, big_snoc]

open Classical in
theorem sum_subs_pt {p : List Nat} (hp : IsPartition (n + 1) p) (f : List Nat → ℝ) :
    ((subs p).map f).sum = ∑ q : Pt n, if AddsBox q.1 p then f q.1 else 0 := by
  rw [← List.sum_toFinset _ (subs_nodup p), ← Finset.sum_filter]
  symm
  refine Finset.sum_bij (fun q _ => q.1) (fun q hq => ?_) (fun a _ b _ h => Subtype.ext h) (fun q hq => ?_) (fun _ _ => rfl)
  · rw [List.mem_toFinset, mem_subs hp]
    exact ⟨q.2, (Finset.mem_filter.1 hq).2⟩
  · rw [List.mem_toFinset, mem_subs hp] at hq
    exact ⟨⟨q, hq.1⟩, Finset.mem_filter.2 ⟨Finset.mem_univ _, hq.2⟩, rfl⟩

open Classical in
/-- restriction -/
theorem chi_branch (hn : 1 ≤ n) {p : List Nat} (hp : IsPartition (n + 1) p) (σ : Equiv.Perm (Fin n)) :
    chi hp (extend σ) = ∑ q : Pt n, if AddsBox q.1 p then chi q.2 σ else 0 := by
  rw [← chiN_eq (by omega) hp, chiN_extend hn hp, sum_subs_pt hp]
  refine Finset.sum_congr rfl fun q _ => ?_
  rw [chiN_eq hn q.2]

open Classical in
theorem chiAt_branch (hn : 1 ≤ n) {p mu : List Nat} (hp : IsPartition (n + 1) p) (hmu : IsPartition n mu) :
    chiAt hp (mu ++ [1]) = ∑ q : Pt n, if AddsBox q.1 p then chiAt q.2 mu else 0 := by
  unfold chiAt
  rw [← chi_branch hn hp]
  exact chi_class hp (isPartition_snoc hmu) (hasCycleType_block (isPartition_snoc hmu))
    ((hasCycleType_extend hmu _).2 (hasCycleType_block hmu))

theorem zee_snoc {mu : List Nat} (h : IsPartition n mu) : zee ((mu ++ [1] : List Nat) : Multiset Nat) = (mu.count 1 + 1) * zee (mu : Multiset Nat) := by
  have h1 : (mu : Multiset Nat) = Multiset.replicate (mu.count 1) 1 + big mu := by
    rw [coe_eq_big h]
    congr 2
    have := congrArg (Multiset.count 1) (coe_eq_big h)
    rw [Multiset.coe_count, Multiset.count_add, Multiset.count_replicate_self] at this
    rw [this]
    unfold big
    rw [Multiset.count_filter]
    simp
  have hb : 1 ∉ big mu := by unfold big; simp
  have h2 : ((mu ++ [1] : List Nat) : Multiset Nat) = Multiset.replicate (mu.count 1 + 1) 1 + big mu := by
    rw [← Multiset.coe_add, h1, Multiset.replicate_succ]
    simp only [Multiset.coe_singleton]
    rw [add_comm, ← Multiset.singleton_add, add_assoc]
  rw [h2, zee_add_replicate _ _ _ hb]
  conv_rhs => rw [h1]
  rw [zee_add_replicate _ _ _ hb, Nat.factorial_succ]
  ring

open Classical in
/-- the multiplicity of an irrep in a restriction -/
theorem branch_mult (hn : 1 ≤ n) {p : List Nat} (hp : IsPartition (n + 1) p) (q : Pt n) :
    ∑ mu : Pt n, (ccard n mu.1 : ℝ) * (chiAt q.2 mu.1 * chiAt hp (mu.1 ++ [1])) = if AddsBox q.1 p then (n ! : ℝ) else 0 := by
  have e : ∀ mu : Pt n, (ccard n mu.1 : ℝ) * (chiAt q.2 mu.1 * chiAt hp (mu.1 ++ [1])) =
      ∑ r : Pt n, if AddsBox r.1 p then (ccard n mu.1 : ℝ) * (chiAt q.2 mu.1 * chiAt r.2 mu.1) else 0 := by
    intro mu
    rw [chiAt_branch hn hp mu.2, Finset.mul_sum, Finset.mul_sum]
    refine Finset.sum_congr rfl fun r _ => ?_
    split <;> simp
  rw [Finset.sum_congr rfl fun mu _ => e mu, Finset.sum_comm, Finset.sum_eq_single q]
  · split
    · rw [chi_orthonormal, if_pos rfl]
    · simp
  · intro r _ hr
    split
    · rw [chi_orthonormal, if_neg fun h => hr (Subtype.ext h.symm)]
    · simp
  · simp

open Classical in
/-- induction -/
theorem chiAt_induce (hn : 1 ≤ n) (q : Pt n) (nu : Pt (n + 1)) :
    ∑ p : Pt (n + 1), (if AddsBox q.1 p.1 then chiAt p.2 nu.1 else 0) =
      ∑ mu : Pt n, if mu.1 ++ [1] = nu.1 then ((mu.1.count 1 + 1 : Nat) : ℝ) * chiAt q.2 mu.1 else 0 := by
  have hf : (n ! : ℝ) ≠ 0 := by exact_mod_cast n.factorial_ne_zero
  refine mul_left_cancel₀ hf ?_
  have e : ∀ p : Pt (n + 1), (n ! : ℝ) * (if AddsBox q.1 p.1 then chiAt p.2 nu.1 else 0) =
      ∑ mu : Pt n, (ccard n mu.1 : ℝ) * chiAt q.2 mu.1 * (chiAt p.2 (mu.1 ++ [1]) * chiAt p.2 nu.1) := by
    intro p
    have h := branch_mult hn p.2 q
    have : (n ! : ℝ) * (if AddsBox q.1 p.1 then chiAt p.2 nu.1 else 0) = (if AddsBox q.1 p.1 then (n ! : ℝ) else 0) * chiAt p.2 nu.1 := by
      split <;> simp
    rw [this, ← h, Finset.sum_mul]
    exact Finset.sum_congr rfl fun mu _ => by ring
  rw [Finset.mul_sum, Finset.mul_sum, Finset.sum_congr rfl fun p _ => e p, Finset.sum_comm]
  refine Finset.sum_congr rfl fun mu _ => ?_
  rw [← Finset.mul_sum]
  have hc := chi_columns (n := n + 1) ⟨mu.1 ++ [1], isPartition_snoc mu.2⟩ nu
  simp only at hc
  rw [hc]
  by_cases h : mu.1 ++ [1] = nu.1
  · rw [if_pos (Subtype.ext h), if_pos h, zee_snoc mu.2]
    have hz := ccard_mul_zee mu.2
    rw [← hz]
    push_cast
    ring
  · rw [if_neg fun e => h (congrArg Subtype.val e), if_neg h, mul_zero, mul_zero]

end

end Snob
