import Verif.Proofs.FFTInv

/-! # Every vector of the right shape is a transform -/

namespace Snob

open IP Snob.Perm
open scoped Nat

theorem elem_succ' {l t e : Nat} (he : e < l !) : elem (l + 1) (e + l ! * t) = extend (elem l e) * (slicePerm l t)⁻¹ := by
  rw [elem, ins]
  congr 2
  · rw [Nat.add_mul_mod_self_left, Nat.mod_eq_of_lt he]
  · rw [slicePerm]
    congr 1
    simp only [Fin.mk.injEq]
    rw [Nat.add_mul_div_left _ _ (Nat.factorial_pos _), Nat.div_eq_of_lt he, Nat.zero_add]

/-- the columns whose first `m` letters lie in row zero are the same for all elements of a coset of `Sm` -/
theorem rho_coset {m : Nat} (hm : 0 < m) (l : Nat) (hl : m ≤ l) (p : List Nat) (hp : IsPartition l p) (c j : Nat) (hc : c < l ! / m !) (hj : j < m !)
    (u w : Wd l p) (hw : goodW m w.1 = true) :
    rho hp (elem l (c * m ! + j))⁻¹ u w = rho hp (elem l (c * m !))⁻¹ u w := by
  induction l, hl using Nat.le_induction generalizing p c j with
  | base =>
    have hr : m ≤ row p 0 := by
      rw [← ((mem_words hp w.1).1 w.2).2 0]
      exact goodW_count hw (by rw [w.length hp])
    obtain rfl := eq_single_of_row hm hp hr
    rw [rho_row hm, rho_row hm]
  | succ l hl ih =>
    have hK : 0 < l ! / m ! := Nat.div_pos (Nat.factorial_le hl) (Nat.factorial_pos _)
    have hc' : c % (l ! / m !) < l ! / m ! := Nat.mod_lt _ hK
    have hlt : c % (l ! / m !) * m ! + j < l ! := by
      calc c % (l ! / m !) * m ! + j < c % (l ! / m !) * m ! + m ! := by omega
        _ = (c % (l ! / m !) + 1) * m ! := by ring
        _ ≤ l ! / m ! * m ! := Nat.mul_le_mul_right _ hc'
        _ = l ! := quot_mul hl
    have hce : c * m ! = c % (l ! / m !) * m ! + l ! * (c / (l ! / m !)) := by
      have h2 := quot_mul hl
      calc c * m ! = (l ! / m ! * (c / (l ! / m !)) + c % (l ! / m !)) * m ! := by rw [Nat.div_add_mod]
        _ = c % (l ! / m !) * m ! + (l ! / m ! * m !) * (c / (l ! / m !)) := by ring
        _ = _ := by rw [h2]
    have hce2 : c * m ! + j = c % (l ! / m !) * m ! + j + l ! * (c / (l ! / m !)) := by omega
    rw [hce2, hce, elem_succ' hlt, elem_succ' (by omega), mul_inv_rev, mul_inv_rev, inv_inv, map_mul, map_mul, Matrix.mul_apply,
      Matrix.mul_apply]
    refine Finset.sum_congr rfl fun x _ => ?_
    congr 1
    obtain ⟨q, -, hq, r, hb, w', hw', rfl⟩ := exists_emb_good hl hp w hw
    obtain ⟨q2, -, hq2, r2, hb2, x', rfl⟩ := exists_emb hp x
    rw [← extend_inv, ← extend_inv]
    by_cases e : r = r2
    · subst e
      obtain rfl := sub_unique hq hq2 hb hb2
      rw [rho_emb, rho_emb]
      exact ih q hq _ j hc' hj x' w' hw'
    · rw [rho_emb_ne hp hq hb hq2 hb2 e, rho_emb_ne hp hq hb hq2 hb2 e]

theorem sum_elem {n : Nat} (g : Equiv.Perm (Fin n) → ℝ) : ∑ e ∈ Finset.range (n !), g (elem n e) = ∑ σ, g σ := by
  rw [Finset.sum_range, ← (elemEquiv n).sum_comp]
  rfl

theorem sum_coset {m n : Nat} (hm : 0 < m) (hn : m ≤ n) {p q : List Nat} (hp : IsPartition n p) (hq : IsPartition n q)
    (i k : Wd n p) (a b : Wd n q) (hk : goodW m k.1 = true) (hb : goodW m b.1 = true) :
    (m ! : ℝ) * ∑ c ∈ Finset.range (n ! / m !), rho hp (elem n (c * m !))⁻¹ i k * rho hq (elem n (c * m !))⁻¹ a b =
      ∑ σ, rho hp σ i k * rho hq σ a b := by
  rw [← Equiv.sum_comp (Equiv.inv _) fun σ => rho hp σ i k * rho hq σ a b]
  simp only [Equiv.inv_apply]
  rw [← sum_elem fun σ => rho hp σ⁻¹ i k * rho hq σ⁻¹ a b]
  conv_rhs => rw [← quot_mul hn]
  rw [sum_range_mul', Finset.mul_sum]
  refine Finset.sum_congr rfl fun c hc => ?_
  rw [Finset.sum_congr rfl fun j hj => by
    rw [rho_coset hm n hn p hp c j (Finset.mem_range.1 hc) (Finset.mem_range.1 hj) i k hk,
      rho_coset hm n hn q hq c j (Finset.mem_range.1 hc) (Finset.mem_range.1 hj) a b hb]]
  rw [Finset.sum_const, Finset.card_range, nsmul_eq_mul]

/-- the function with transform `F` -/
noncomputable def invF (m n : Nat) (F : (p : List Nat) → IsPartition n p → Wd n p → Wd n p → ℝ) (c : Nat) : ℝ :=
  ∑ p : Pt n, (dimW n p.1 : ℝ) * m ! / n ! * ∑ i, ∑ k, if goodW m k.1 = true then rho p.2 (elem n (c * m !))⁻¹ i k * F p.1 p.2 i k else 0

theorem tF_invF {m n : Nat} (hm : 0 < m) (hn : m ≤ n) (F : (p : List Nat) → IsPartition n p → Wd n p → Wd n p → ℝ)
    (q : List Nat) (hq : IsPartition n q) (a b : Wd n q) (hb : goodW m b.1 = true) :
    tF m (invF m n F) n q hq 0 a b = F q hq a b := by
  classical
  have hn0 : (n ! : ℝ) ≠ 0 := by exact_mod_cast (Nat.factorial_pos n).ne'
  have hd : (dimW n q : ℝ) ≠ 0 := by exact_mod_cast (dimW_pos hq).ne'
  have h1 : tF m (invF m n F) n q hq 0 a b = ∑ p : Pt n, ∑ i, ∑ k, if goodW m k.1 = true then
      (dimW n p.1 : ℝ) / n ! * F p.1 p.2 i k * ∑ σ, rho p.2 σ i k * rho hq σ a b else 0 := by
    unfold tF invF
    simp only [Nat.zero_mul, Nat.zero_add, Finset.sum_mul]
    rw [Finset.sum_comm]
    refine Finset.sum_congr rfl fun p _ => ?_
    simp only [Finset.mul_sum, Finset.sum_mul]
    rw [Finset.sum_comm]
    refine Finset.sum_congr rfl fun i _ => ?_
    rw [Finset.sum_comm]
    refine Finset.sum_congr rfl fun k _ => ?_
    by_cases hk : goodW m k.1 = true
    · simp only [if_pos hk]
      rw [← Finset.mul_sum, ← sum_coset hm hn p.2 hq i k a b hk hb, Finset.mul_sum, Finset.mul_sum]
      refine Finset.sum_congr rfl fun c _ => ?_
      ring
    · simp [if_neg hk]
  rw [h1, Finset.sum_eq_single ⟨q, hq⟩, Finset.sum_eq_single a, Finset.sum_eq_single b]
  · rw [if_pos hb, orthogonality_eq, if_pos ⟨rfl, rfl⟩, card_Wd hq, ← dimW]
    field_simp
  · intro k _ hk
    rw [orthogonality_eq, if_neg (c := a = a ∧ k = b) (fun h => hk h.2), mul_zero, ite_self]
  · simp
  · intro i _ hi
    refine Finset.sum_eq_zero fun k _ => ?_
    rw [orthogonality_eq, if_neg (c := i = a ∧ k = b) (fun h => hi h.1), mul_zero, ite_self]
  · simp
  · intro p _ hp
    refine Finset.sum_eq_zero fun i _ => Finset.sum_eq_zero fun k _ => ?_
    rw [orthogonality_ne p.2 hq (fun h => hp (Subtype.ext h)), mul_zero, ite_self]
  · simp

end Snob
