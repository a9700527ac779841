import Mathlib.LinearAlgebra.Matrix.ToLinearEquiv
import Mathlib.Algebra.Order.Chebyshev
import Verif.Proofs.Plancherel
import Verif.Props.Symmetry

/-! Lemmas on Fourier transforms as matrices: convolution, surjectivity, quadratic forms, the distance to the constant function. -/

namespace Snob

open IP Perm
open scoped Matrix
open scoped Nat

variable {n : Nat} {p : List Nat}

/-- the transform of a convolution -/
theorem hat_convolve (hp : IsPartition n p) (f g : Equiv.Perm (Fin n) → ℝ) :
    hat hp (fun x => ∑ y, f (x * y⁻¹) * g y) = hat hp g * hat hp f := by
  rw [hat_eq, hat_eq, hat_eq, Finset.sum_mul_sum]
  simp only [Finset.sum_smul]
  rw [Finset.sum_comm]
  refine Finset.sum_congr rfl fun y _ => ?_
  refine (Fintype.sum_equiv (Equiv.mulRight y) _ _ fun z => ?_).symm
  simp only [Equiv.coe_mulRight, mul_inv_cancel_right, mul_inv_rev, map_mul]
  rw [smul_mul_assoc, mul_smul_comm, smul_smul, mul_comm (g y)]

/-- the function with given matrices as transform -/
noncomputable def unhat (M : ∀ q : Pt n, Matrix (Wd n q.1) (Wd n q.1) ℝ) (τ : Equiv.Perm (Fin n)) : ℝ :=
  ∑ q : Pt n, (Fintype.card (Wd n q.1) : ℝ) / n ! * Matrix.trace (M q * rho q.2 τ)

theorem hat_unhat (M : ∀ q : Pt n, Matrix (Wd n q.1) (Wd n q.1) ℝ) (q : Pt n) : hat q.2 (unhat M) = M q := by
  classical
  have hn0 : (n ! : ℝ) ≠ 0 := by exact_mod_cast (Nat.factorial_pos n).ne'
  have hc0 : (Fintype.card (Wd n q.1) : ℝ) ≠ 0 := by exact_mod_cast (card_Wd_pos q.2).ne'
  ext a b
  have e1 : hat q.2 (unhat M) a b = ∑ r : Pt n, (Fintype.card (Wd n r.1) : ℝ) / n ! *
      ∑ c, ∑ d, M r c d * ∑ σ, rho r.2 σ d c * rho q.2 σ b a := by
    unfold hat unhat
    simp only [rho_inv, Matrix.transpose_apply, Finset.sum_mul]
    rw [Finset.sum_comm]
    refine Finset.sum_congr rfl fun r _ => ?_
    simp only [Matrix.trace, Matrix.diag, Matrix.mul_apply, Finset.mul_sum, Finset.sum_mul]
    rw [Finset.sum_comm]
    refine Finset.sum_congr rfl fun c _ => ?_
    rw [Finset.sum_comm]
    refine Finset.sum_congr rfl fun d _ => Finset.sum_congr rfl fun σ _ => by ring
  rw [e1, Finset.sum_eq_single q]
  · simp only [orthogonality_eq]
    have e2 : ∀ c d, M q c d * (if d = b ∧ c = a then (n ! : ℝ) / Fintype.card (Wd n q.1) else 0) =
        if c = a then if d = b then M q a b * ((n ! : ℝ) / Fintype.card (Wd n q.1)) else 0 else 0 := by
      intro c d
      by_cases h1 : c = a <;> by_cases h2 : d = b <;> simp [h1, h2]
    simp only [e2]
    simp
    field_simp
  · intro r _ hr
    have : r.1 ≠ q.1 := fun h => hr (Subtype.ext h)
    simp [orthogonality_ne r.2 q.2 this]
  · exact fun h => absurd (Finset.mem_univ _) h

/-- the quadratic form of a kernel that is invariant under translations -/
theorem kernel_form (f c : Equiv.Perm (Fin n) → ℝ) :
    (n ! : ℝ) * ∑ σ, ∑ τ, c σ * f (σ⁻¹ * τ) * c τ =
      ∑ q : Pt n, (dimW n q.1 : ℝ) * ∑ a, ∑ i, ∑ j, hat q.2 c i a * hat q.2 f i j * hat q.2 c j a := by
  have e1 : ∀ q : Pt n, ∑ a, ∑ i, ∑ j, hat q.2 c i a * hat q.2 f i j * hat q.2 c j a =
      Matrix.trace ((hat q.2 c)ᵀ * hat q.2 f * hat q.2 c) := by
    intro q
    simp only [Matrix.trace, Matrix.diag, Matrix.mul_apply, Matrix.transpose_apply, Finset.sum_mul]
    refine Finset.sum_congr rfl fun a _ => ?_
    rw [Finset.sum_comm]
  have e2 : ∀ q : Pt n, (hat q.2 c)ᵀ = ∑ σ, c σ • rho q.2 σ := by
    intro q
    rw [hat_eq, Matrix.transpose_sum]
    refine Finset.sum_congr rfl fun σ _ => ?_
    rw [Matrix.transpose_smul, ← rho_inv, inv_inv]
  have e3 : ∀ q : Pt n, Matrix.trace ((hat q.2 c)ᵀ * hat q.2 f * hat q.2 c) =
      ∑ σ, ∑ τ, c σ * c τ * Matrix.trace (hat q.2 f * rho q.2 (τ⁻¹ * σ)) := by
    intro q
    rw [e2, hat_eq q.2 c, Finset.sum_mul, Finset.sum_mul_sum, Matrix.trace_sum]
    refine Finset.sum_congr rfl fun σ _ => ?_
    rw [Matrix.trace_sum]
    refine Finset.sum_congr rfl fun τ _ => ?_
    rw [Matrix.smul_mul, Matrix.smul_mul, Matrix.mul_smul, Matrix.trace_smul, Matrix.trace_smul, smul_eq_mul, smul_eq_mul,
      Matrix.mul_assoc, Matrix.trace_mul_comm, map_mul, ← Matrix.mul_assoc]
    ring
  simp only [e1, e3, Finset.mul_sum]
  rw [Finset.sum_comm]
  conv_rhs => rw [Finset.sum_comm]
  refine Finset.sum_congr rfl fun σ _ => ?_
  conv_rhs => rw [Finset.sum_comm]
  refine Finset.sum_congr rfl fun τ _ => ?_
  have h1 := hat_inversion f (σ⁻¹ * τ)
  calc (n ! : ℝ) * (c τ * f (τ⁻¹ * σ) * c σ) = c σ * c τ * (n ! * f (τ⁻¹ * σ)) := by ring
    _ = _ := by
      rw [← hat_inversion f (τ⁻¹ * σ), Finset.mul_sum]
      refine Finset.sum_congr rfl fun q _ => by ring

/-- `f(σ⁻¹τ)` is a positive semidefinite kernel exactly if all parts of the transform are positive semidefinite. -/
theorem kernel_iff (f : Equiv.Perm (Fin n) → ℝ) :
    (∀ c : Equiv.Perm (Fin n) → ℝ, 0 ≤ ∑ σ, ∑ τ, c σ * f (σ⁻¹ * τ) * c τ) ↔
      ∀ (q : Pt n) (x : Wd n q.1 → ℝ), 0 ≤ ∑ i, ∑ j, x i * hat q.2 f i j * x j := by
  classical
  have hn0 : (0 : ℝ) < n ! := by exact_mod_cast Nat.factorial_pos n
  constructor
  · intro h q x
    have hd : (0 : ℝ) < dimW n q.1 := by
      have := card_Wd_pos q.2
      rw [card_Wd q.2] at this
      exact_mod_cast this
    obtain ⟨a0⟩ : Nonempty (Wd n q.1) := Fintype.card_pos_iff.1 (card_Wd_pos q.2)
    let M : ∀ r : Pt n, Matrix (Wd n r.1) (Wd n r.1) ℝ := Function.update (fun _ => 0) q fun i a => if a = a0 then x i else 0
    have hk := kernel_form f (unhat M)
    rw [Finset.sum_eq_single q] at hk
    · simp only [hat_unhat] at hk
      have hM : M q = fun i a => if a = a0 then x i else 0 := Function.update_self _ _ _
      rw [hM, Finset.sum_eq_single a0] at hk
      · simp only [if_true] at hk
        have h2 := mul_nonneg hn0.le (h (unhat M))
        rw [hk] at h2
        exact nonneg_of_mul_nonneg_right h2 hd
      · intro a _ ha
        simp [ha]
      · exact fun h => absurd (Finset.mem_univ _) h
    · intro r _ hr
      simp only [hat_unhat]
      have hM : M r = 0 := Function.update_of_ne hr _ _
      simp [hM]
    · exact fun h => absurd (Finset.mem_univ _) h
  · intro h c
    refine nonneg_of_mul_nonneg_right ?_ hn0
    rw [kernel_form]
    exact Finset.sum_nonneg fun q _ => mul_nonneg (Nat.cast_nonneg _) (Finset.sum_nonneg fun a _ => h q fun i => hat q.2 c i a)

/-- Convolution with `f` loses nothing exactly if all parts are invertible, and then it reaches everything. -/
theorem deconvolve_iff (f : Equiv.Perm (Fin n) → ℝ) :
    ((∀ h h' : Equiv.Perm (Fin n) → ℝ, (fun x => ∑ y, f (x * y⁻¹) * h y) = (fun x => ∑ y, f (x * y⁻¹) * h' y) → h = h') ↔
      ∀ q : Pt n, IsUnit (hat q.2 f)) ∧
    ((∀ g : Equiv.Perm (Fin n) → ℝ, ∃ h : Equiv.Perm (Fin n) → ℝ, (fun x => ∑ y, f (x * y⁻¹) * h y) = g) ↔
      ∀ q : Pt n, IsUnit (hat q.2 f)) := by
  classical
  refine ⟨⟨fun h q => ?_, fun h u v huv => ?_⟩, fun h q => ?_, fun h g => ?_⟩
  · by_contra hc
    rw [Matrix.isUnit_iff_isUnit_det, isUnit_iff_ne_zero, not_not] at hc
    obtain ⟨y, hy, hy0⟩ := Matrix.exists_vecMul_eq_zero_iff.2 hc
    let M : ∀ r : Pt n, Matrix (Wd n r.1) (Wd n r.1) ℝ := Function.update (fun _ => 0) q fun _ b => y b
    have hM : M q = fun _ b => y b := Function.update_self _ _ _
    have h1 := h (unhat M) 0 (hat_injective fun r => by
      rw [hat_convolve, hat_convolve, hat_unhat]
      have hz : hat r.2 (0 : Equiv.Perm (Fin n) → ℝ) = 0 := by rw [hat_eq]; simp
      rw [hz, Matrix.zero_mul]
      by_cases hr : r = q
      · subst hr
        rw [hM]
        ext a b
        exact congrFun hy0 b
      · have : M r = 0 := Function.update_of_ne hr _ _
        rw [this, Matrix.zero_mul])
    apply hy
    funext b
    have h2 := hat_unhat M q
    rw [h1, hM] at h2
    have h3 := congrFun (congrFun h2 b) b
    have hz : hat q.2 (0 : Equiv.Perm (Fin n) → ℝ) = 0 := by rw [hat_eq]; simp
    rw [hz] at h3
    exact h3.symm
  · refine hat_injective fun q => ?_
    have h1 : hat q.2 (fun x => ∑ y, f (x * y⁻¹) * u y) = hat q.2 (fun x => ∑ y, f (x * y⁻¹) * v y) := by rw [huv]
    rw [hat_convolve, hat_convolve] at h1
    exact (h q).mul_right_cancel h1
  · obtain ⟨u, hu⟩ := h (unhat fun _ => 1)
    have h1 : hat q.2 (fun x => ∑ y, f (x * y⁻¹) * u y) = hat q.2 (unhat fun _ => 1) := by rw [hu]
    rw [hat_convolve, hat_unhat] at h1
    exact IsUnit.of_mul_eq_one_right _ h1
  · refine ⟨unhat fun q => hat q.2 g * (hat q.2 f)⁻¹, hat_injective fun q => ?_⟩
    rw [hat_convolve, hat_unhat, Matrix.mul_assoc, Matrix.nonsing_inv_mul _ ((Matrix.isUnit_iff_isUnit_det _).1 (h q)), Matrix.mul_one]

/-- repeated convolution -/
theorem hat_power (hp : IsPartition n p) (f : Equiv.Perm (Fin n) → ℝ) (k : Nat) :
    hat hp ((fun g : Equiv.Perm (Fin n) → ℝ => fun x => ∑ y, g (x * y⁻¹) * f y)^[k] f) = hat hp f ^ (k + 1) := by
  induction k with
  | zero => simp
  | succ k ih => rw [Function.iterate_succ_apply', hat_convolve, ih, ← pow_succ']

/-- the squared distance to the constant function -/
theorem distance_eq (hn : 1 ≤ n) (h : Equiv.Perm (Fin n) → ℝ) (hs : ∑ σ, h σ = 1) :
    (n ! : ℝ) * ∑ σ, (h σ - 1 / n !) ^ 2 =
      ∑ q : Pt n, if q.1 = [n] then 0 else (dimW n q.1 : ℝ) * ∑ w, ∑ u, hat q.2 h u w ^ 2 := by
  have hn0 : (n ! : ℝ) ≠ 0 := by exact_mod_cast (Nat.factorial_pos n).ne'
  have hcard : (Fintype.card (Equiv.Perm (Fin n)) : ℝ) = n ! := by rw [Fintype.card_perm, Fintype.card_fin]
  have key := plancherel_group (fun σ => h σ - 1 / n !) (fun σ => h σ - 1 / n !)
  have e0 : ∑ σ, (h σ - 1 / n !) = 0 := by
    rw [Finset.sum_sub_distrib, hs, Finset.sum_const, Finset.card_univ, nsmul_eq_mul, hcard]
    field_simp
    ring
  have e1 : ∑ σ, (h σ - 1 / n !) ^ 2 = ∑ σ, (h σ - 1 / n !) * (h σ - 1 / n !) := Finset.sum_congr rfl fun σ _ => sq _
  rw [e1, ← key]
  refine Finset.sum_congr rfl fun q _ => ?_
  by_cases hq : q.1 = [n]
  · rw [if_pos hq]
    obtain ⟨q, hp⟩ := q
    obtain rfl : q = [n] := hq
    have : ∀ u w : Wd n [n], ∑ σ, (h σ - 1 / n !) * rho hp σ⁻¹ u w = 0 := by
      intro u w
      rw [← e0]
      refine Finset.sum_congr rfl fun σ _ => by rw [rho_row hn, mul_one]
    simp only [this, mul_zero, Finset.sum_const_zero]
  · rw [if_neg hq]
    congr 1
    refine Finset.sum_congr rfl fun w _ => Finset.sum_congr rfl fun u _ => ?_
    have h2 : ∑ σ, (h σ - 1 / n !) * rho q.2 σ⁻¹ u w = hat q.2 h u w := by
      simp only [sub_mul, Finset.sum_sub_distrib]
      rw [← Finset.mul_sum]
      have h3 : ∑ σ, rho q.2 σ⁻¹ u w = 0 := by
        rw [← Equiv.sum_comp (Equiv.inv (Equiv.Perm (Fin n)))]
        simp only [Equiv.inv_apply, inv_inv]
        obtain ⟨u0⟩ := Fintype.card_pos_iff.1 (card_Wd_pos (isPartition_row hn))
        have h4 := orthogonality_ne q.2 (isPartition_row hn) hq u w u0 u0
        simpa only [rho_row hn, mul_one] using h4
      rw [h3, mul_zero, sub_zero]
      rfl
    rw [h2, sq]

theorem distance_le (hn : 1 ≤ n) (h : Equiv.Perm (Fin n) → ℝ) (hs : ∑ σ, h σ = 1) :
    (∑ σ, |h σ - 1 / (n ! : ℝ)|) ^ 2 ≤
      ∑ q : Pt n, if q.1 = [n] then 0 else (dimW n q.1 : ℝ) * ∑ w, ∑ u, hat q.2 h u w ^ 2 := by
  rw [← distance_eq hn h hs]
  have h1 := sq_sum_le_card_mul_sum_sq (s := Finset.univ) (f := fun σ : Equiv.Perm (Fin n) => |h σ - 1 / (n ! : ℝ)|)
  rw [Finset.card_univ, Fintype.card_perm, Fintype.card_fin] at h1
  simpa only [sq_abs] using h1

end Snob
