import Mathlib.Algebra.MonoidAlgebra.Basic
import Mathlib.RingTheory.IntegralClosure.IsIntegral.Basic
import Mathlib.Algebra.BigOperators.Intervals
import Verif.Proofs.Rational
import Verif.Proofs.JM
import Verif.Spec.Central

/-! # Class functions under the representations; central characters -/

namespace Snob

open scoped Matrix

section

variable {n : Nat} {p : List Nat}

/-- the transform of a class function is a multiple of the identity -/
theorem class_scalar (hp : IsPartition n p) (f : Equiv.Perm (Fin n) → ℝ) (hf : ∀ σ τ, f (τ * σ * τ⁻¹) = f σ) :
    ∑ σ, f σ • rho hp σ = ((∑ σ, f σ * chi hp σ) / Fintype.card (Wd n p)) • (1 : Matrix (Wd n p) (Wd n p) ℝ) := by
  have hd : (Fintype.card (Wd n p) : ℝ) ≠ 0 := by exact_mod_cast (card_Wd_pos hp).ne'
  obtain ⟨c, hc⟩ := schur_eq hp (∑ σ, f σ • rho hp σ) (fun τ => by
    rw [Finset.mul_sum, Finset.sum_mul]
    refine Eq.trans (Finset.sum_congr rfl fun σ _ => ?_) (Equiv.sum_comp (MulAut.conj τ).toEquiv _)
    show _ = f (τ * σ * τ⁻¹) • rho hp (τ * σ * τ⁻¹) * rho hp τ
    rw [hf, smul_mul_assoc, ← map_mul, mul_assoc (τ * σ), inv_mul_cancel, mul_one, map_mul, mul_smul_comm])
  rw [hc]
  congr 1
  have := congrArg Matrix.trace hc
  rw [Matrix.trace_sum, Matrix.trace_smul, Matrix.trace_one, smul_eq_mul] at this
  rw [eq_div_iff hd, ← this]
  exact Finset.sum_congr rfl fun σ _ => by rw [Matrix.trace_smul, smul_eq_mul]; rfl

/-- an integral combination of representing matrices that is a multiple of the identity has an integral factor -/
theorem scalar_integral (hp : IsPartition n p) (f : Equiv.Perm (Fin n) → ℤ) {c : ℝ}
    (hc : ∑ σ, (f σ : ℝ) • rho hp σ = c • (1 : Matrix (Wd n p) (Wd n p) ℝ)) : IsIntegral ℤ c := by
  haveI : Nonempty (Wd n p) := Fintype.card_pos_iff.1 (card_Wd_pos hp)
  let φ : MonoidAlgebra ℤ (Equiv.Perm (Fin n)) →ₐ[ℤ] Matrix (Wd n p) (Wd n p) ℝ := MonoidAlgebra.lift ℤ _ _ (rho hp)
  let x : MonoidAlgebra ℤ (Equiv.Perm (Fin n)) := ∑ σ, MonoidAlgebra.single σ (f σ)
  have hx : φ x = algebraMap ℝ (Matrix (Wd n p) (Wd n p) ℝ) c := by
    rw [Algebra.algebraMap_eq_smul_one, ← hc, map_sum]
    refine Finset.sum_congr rfl fun σ _ => ?_
    rw [MonoidAlgebra.lift_single, Int.cast_smul_eq_zsmul]
  have hi : IsIntegral ℤ x := IsIntegral.of_finite ℤ x
  have := hi.map φ
  rw [hx] at this
  exact (isIntegral_algebraMap_iff (FaithfulSMul.algebraMap_injective ℝ _)).1 this

/-- the central character is an integer -/
theorem central_int (hp : IsPartition n p) (f : Equiv.Perm (Fin n) → ℤ) (hf : ∀ σ τ, f (τ * σ * τ⁻¹) = f σ) :
    ∃ z : ℤ, ∑ σ, (f σ : ℝ) * chi hp σ = z * Fintype.card (Wd n p) := by
  have hd : (Fintype.card (Wd n p) : ℝ) ≠ 0 := by exact_mod_cast (card_Wd_pos hp).ne'
  have hi := scalar_integral hp f (class_scalar hp (fun σ => (f σ : ℝ)) fun σ τ => by rw [hf])
  choose k hk using chi_int hp
  have e : (∑ σ, (f σ : ℝ) * chi hp σ) / Fintype.card (Wd n p) =
      algebraMap ℚ ℝ ((∑ σ, (f σ : ℚ) * k σ) / Fintype.card (Wd n p)) := by
    simp only [hk]
    simp
  rw [e, isIntegral_algebraMap_iff (algebraMap ℚ ℝ).injective] at hi
  obtain ⟨z, hz⟩ := IsIntegrallyClosed.isIntegral_iff.1 hi
  refine ⟨z, ?_⟩
  rw [← hz] at e
  rw [div_eq_iff hd] at e
  rw [e]
  simp

/-- the content sum does not depend on the tableau -/
theorem sum_contW {u : List Nat} {N : Nat} (hN : ∀ r ∈ u, r < N) :
    ∑ k ∈ Finset.range u.length, contW u (k + 1) = ∑ i ∈ Finset.range N, ∑ j ∈ Finset.range (u.count i), ((j : Int) - i) := by
  induction u with
  | nil => simp
  | cons r u ih =>
    rw [List.length_cons, Finset.sum_range_succ]
    have e1 : contW (r :: u) (u.length + 1) = (u.count r : Int) - r := by unfold contW; rw [posW_cons_top]
    have e2 : ∀ k ∈ Finset.range u.length, contW (r :: u) (k + 1) = contW u (k + 1) := fun k hk => by
      unfold contW; rw [posW_cons_ne (by have := Finset.mem_range.1 hk; omega)]
    rw [e1, Finset.sum_congr rfl e2, ih fun x hx => hN x (by simp [hx])]
    have hr : r ∈ Finset.range N := Finset.mem_range.2 (hN r (by simp))
    rw [← Finset.add_sum_erase _ _ hr, ← Finset.add_sum_erase _ _ hr, List.count_cons_self, Finset.sum_range_succ]
    have : ∑ i ∈ (Finset.range N).erase r, ∑ j ∈ Finset.range ((r :: u).count i), ((j : Int) - i) =
        ∑ i ∈ (Finset.range N).erase r, ∑ j ∈ Finset.range (u.count i), ((j : Int) - i) :=
      Finset.sum_congr rfl fun i hi => by rw [List.count_cons_of_ne (Finset.ne_of_mem_erase hi).symm]
    rw [this]
    ring

theorem Wd.sum_cont (hp : IsPartition n p) (u : Wd n p) : ∑ k ∈ Finset.range n, u.cont (k + 1) = contentSum p := by
  have hu := (mem_words hp u.1).1 u.2
  have hb : ∀ r ∈ u.1, r < p.length := fun r hr => by
    by_contra h
    have h1 := List.count_pos_iff.2 hr
    rw [hu.2, row, List.getElem?_eq_none (by omega)] at h1
    simp at h1
  have := sum_contW hb
  rw [u.length hp] at this
  unfold Wd.cont contentSum
  rw [this]
  simp only [hu.2]

/-- the character at the transpositions -/
theorem chi_transposition (hp : IsPartition n p) {i j : Fin n} (hij : i ≠ j) :
    (n * (n - 1) : ℝ) * chi hp (Equiv.swap i j) = 2 * contentSum p * Fintype.card (Wd n p) := by
  have hconj : ∀ a b : Nat, a < b → b < n → chi hp (tr n a b) = chi hp (Equiv.swap i j) := fun a b h1 h2 => by
    rw [tr_of (by omega) h2]
    exact chi_conj hp (Equiv.Perm.isConj_swap (by simp; omega) hij)
  have h1 : ∀ k < n, (k : ℝ) * chi hp (Equiv.swap i j) = ∑ u : Wd n p, (u.cont (k + 1) : ℝ) := fun k hk => by
    have := congrArg Matrix.trace (jm_eq hp k hk)
    unfold jm at this
    rw [Matrix.trace_sum, Matrix.trace_diagonal] at this
    rw [← this]
    show _ = ∑ a ∈ Finset.range k, chi hp (tr n a k)
    rw [Finset.sum_congr rfl fun a ha => hconj a k (Finset.mem_range.1 ha) hk]
    simp
  have h2 : ∑ k ∈ Finset.range n, (k : ℝ) * chi hp (Equiv.swap i j) = contentSum p * Fintype.card (Wd n p) := by
    rw [Finset.sum_congr rfl fun k hk => h1 k (Finset.mem_range.1 hk), Finset.sum_comm]
    have : ∀ u : Wd n p, ∑ k ∈ Finset.range n, (u.cont (k + 1) : ℝ) = contentSum p := fun u => by
      rw [← Wd.sum_cont hp u]; push_cast; rfl
    rw [Finset.sum_congr rfl fun u _ => this u]
    simp [mul_comm]
  rw [← Finset.sum_mul] at h2
  have h3 : (∑ k ∈ Finset.range n, (k : ℝ)) * 2 = n * (n - 1) := by
    have h := Finset.sum_range_id_mul_two n
    have hn : 1 ≤ n := by have := i.2; omega
    have : ((∑ k ∈ Finset.range n, k : Nat) : ℝ) * 2 = n * (n - 1) := by
      rw [← Nat.cast_ofNat, ← Nat.cast_mul, h]; push_cast [hn]; rfl
    rw [← this]; push_cast; rfl
  rw [← h3]
  linear_combination 2 * h2

end

end Snob
