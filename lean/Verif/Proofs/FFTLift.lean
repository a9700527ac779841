import Verif.Proofs.FFTSpec

/-! # Functions on cosets as functions on the group -/

namespace Snob

open IP Snob.Perm
open scoped Nat

/-- the columns that do not have `1..m` in row zero add up to zero over every coset of `Sm` -/
theorem rho_coset_zero {m : Nat} (hm : 0 < m) (l : Nat) (hl : m ≤ l) (p : List Nat) (hp : IsPartition l p) (c : Nat) (hc : c < l ! / m !)
    (u w : Wd l p) (hw : goodW m w.1 = false) :
    ∑ j ∈ Finset.range (m !), rho hp (elem l (c * m ! + j))⁻¹ u w = 0 := by
  induction l, hl using Nat.le_induction generalizing p c with
  | base =>
    have hc0 : c = 0 := by rw [Nat.div_self (Nat.factorial_pos m)] at hc; omega
    subst hc0
    simp only [Nat.zero_mul, Nat.zero_add]
    have hne : p ≠ [m] := by
      rintro rfl
      have h1 : w.1 = List.replicate m 0 := by
        obtain ⟨w, hw'⟩ := w
        simpa [words_self hm] using hw'
      rw [h1] at hw
      unfold goodW at hw
      simp at hw
    rw [sum_elem fun σ => rho hp σ⁻¹ u w]
    have h2 := orthogonality_ne hp (isPartition_row hm) hne u w
      ⟨List.replicate m 0, by rw [words_self hm]; simp⟩ ⟨List.replicate m 0, by rw [words_self hm]; simp⟩
    simp only [rho_row hm, mul_one] at h2
    rw [← h2]
    exact Equiv.sum_comp (Equiv.inv _) fun σ => rho hp σ u w
  | succ l hl ih =>
    have hK : 0 < l ! / m ! := Nat.div_pos (Nat.factorial_le hl) (Nat.factorial_pos _)
    have hc' : c % (l ! / m !) < l ! / m ! := Nat.mod_lt _ hK
    have hce : c * m ! = c % (l ! / m !) * m ! + l ! * (c / (l ! / m !)) := by
      have h2 := quot_mul hl
      calc c * m ! = (l ! / m ! * (c / (l ! / m !)) + c % (l ! / m !)) * m ! := by rw [Nat.div_add_mod]
        _ = c % (l ! / m !) * m ! + (l ! / m ! * m !) * (c / (l ! / m !)) := by ring
        _ = _ := by rw [h2]
    have hterm : ∀ j ∈ Finset.range (m !), rho hp (elem (l + 1) (c * m ! + j))⁻¹ u w =
        ∑ x, rho hp (slicePerm l (c / (l ! / m !))) u x * rho hp (extend (elem l (c % (l ! / m !) * m ! + j))⁻¹) x w := by
      intro j hj
      have hlt : c % (l ! / m !) * m ! + j < l ! := by
        calc c % (l ! / m !) * m ! + j < c % (l ! / m !) * m ! + m ! := by have := Finset.mem_range.1 hj; omega
          _ = (c % (l ! / m !) + 1) * m ! := by ring
          _ ≤ l ! / m ! * m ! := Nat.mul_le_mul_right _ hc'
          _ = l ! := quot_mul hl
      have hce2 : c * m ! + j = c % (l ! / m !) * m ! + j + l ! * (c / (l ! / m !)) := by omega
      rw [hce2, elem_succ' hlt, mul_inv_rev, inv_inv, ← extend_inv, map_mul, Matrix.mul_apply]
    rw [Finset.sum_congr rfl hterm, Finset.sum_comm]
    refine Finset.sum_eq_zero fun x _ => ?_
    rw [← Finset.mul_sum]
    obtain ⟨q, -, hq, r, hb, w', rfl⟩ := exists_emb hp w
    obtain ⟨q2, -, hq2, r2, hb2, x', rfl⟩ := exists_emb hp x
    rw [good_emb hp hq hb hl] at hw
    by_cases e : r = r2
    · subst e
      obtain rfl := sub_unique hq hq2 hb hb2
      simp only [rho_emb]
      rw [ih q hq _ hc' x' w' hw, mul_zero]
    · simp only [rho_emb_ne hp hq hb hq2 hb2 e, Finset.sum_const_zero, mul_zero]

/-- the Fourier transform of a function that is constant on cosets -/
theorem lift_good {m n : Nat} (hm : 0 < m) (hn : m ≤ n) {p : List Nat} (hp : IsPartition n p) (f : Nat → ℝ) (u w : Wd n p)
    (hw : goodW m w.1 = true) :
    ∑ e ∈ Finset.range (n !), f (e / m !) * rho hp (elem n e)⁻¹ u w =
      m ! * ∑ c ∈ Finset.range (n ! / m !), f c * rho hp (elem n (c * m !))⁻¹ u w := by
  conv_lhs => rw [← quot_mul hn]
  rw [sum_range_mul', Finset.mul_sum]
  refine Finset.sum_congr rfl fun c hc => ?_
  rw [Finset.sum_congr rfl fun j hj => by
    rw [rho_coset hm n hn p hp c j (Finset.mem_range.1 hc) (Finset.mem_range.1 hj) u w hw,
      show (c * m ! + j) / m ! = c by
        rw [Nat.add_comm, Nat.add_mul_div_right _ _ (Nat.factorial_pos m), Nat.div_eq_of_lt (Finset.mem_range.1 hj), Nat.zero_add]]]
  rw [Finset.sum_const, Finset.card_range, nsmul_eq_mul]

theorem lift_bad {m n : Nat} (hm : 0 < m) (hn : m ≤ n) {p : List Nat} (hp : IsPartition n p) (f : Nat → ℝ) (u w : Wd n p)
    (hw : goodW m w.1 = false) :
    ∑ e ∈ Finset.range (n !), f (e / m !) * rho hp (elem n e)⁻¹ u w = 0 := by
  conv_lhs => rw [← quot_mul hn]
  rw [sum_range_mul']
  refine Finset.sum_eq_zero fun c hc => ?_
  rw [Finset.sum_congr rfl fun j hj => by
    rw [show (c * m ! + j) / m ! = c by
        rw [Nat.add_comm, Nat.add_mul_div_right _ _ (Nat.factorial_pos m), Nat.div_eq_of_lt (Finset.mem_range.1 hj), Nat.zero_add]]]
  rw [← Finset.mul_sum, rho_coset_zero hm n hn p hp c (Finset.mem_range.1 hc) u w hw, mul_zero]

/-- the entries of a transform -/
theorem IsTransform.entry {n K : Nat} {x : Nat → Option Arr} {g : Nat → Equiv.Perm (Fin n)} (hx : ∀ c < K, x c = some (enc (g c)))
    {f : Nat → ℝ} {sel : IrrepObj → List Nat} {ws : List VPart} (h : IsTransform K x f sel ws) {W : VPart} (hW : W ∈ ws)
    {p : List Nat} {hp : IsPartition n p} (hrep : Repr' hp W.irrep) {i : Nat} (hi : i < W.d) (hi' : i < W.irrep.d) {k j : Nat}
    (hk : (sel W.irrep)[k]? = some j) (hj : j < W.irrep.d) :
    W.data i k = ∑ c ∈ Finset.range K, f c * rho hp (g c)⁻¹ (hrep.eqv ⟨i, hi'⟩) (hrep.eqv ⟨j, hj⟩) := by
  obtain ⟨ρ, h1, h2⟩ := h W hW
  rw [h2 i hi k j hk]
  refine Finset.sum_congr rfl fun c hc => ?_
  obtain ⟨s, t, e1, e2, e3⟩ := h1 c (Finset.mem_range.1 hc)
  rw [hx c (Finset.mem_range.1 hc)] at e1
  obtain rfl := Option.some.inj e1
  rw [inverse_eq] at e2
  obtain rfl := Option.some.inj e2
  obtain ⟨A, a1, a2⟩ := hrep.eval_eq (g c)⁻¹
  rw [a1] at e3
  obtain rfl := Option.some.inj e3
  have h3 := a2 ⟨i, hi'⟩ ⟨j, hj⟩
  rw [hrep.rep_apply] at h3
  exact congrArg (f c * ·) h3

end Snob
