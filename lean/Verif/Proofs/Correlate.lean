import Verif.Proofs.Kernels
import Verif.Props.Fill

/-! # Correlations of functions on a group -/

namespace Snob

section
variable {G : Type*} [Group G] [Fintype G] [DecidableEq G]

/-- the triple correlation, with three arguments -/
def triple (f : G → ℝ) (a b c : G) : ℝ := ∑ x, f (x * a) * f (x * b) * f (x * c)

theorem triple_one (f : G → ℝ) (a b c : G) : triple f a b c = triple f 1 (a⁻¹ * b) (a⁻¹ * c) := by
  unfold triple
  refine Fintype.sum_equiv (Equiv.mulRight a) _ _ fun x => ?_
  simp [mul_assoc]

/-- a function with the triple correlation of the function that is one at the unit is one at some element and zero elsewhere -/
theorem triple_delta (w : G → ℝ) (h : ∀ b c, triple w 1 b c = if b = 1 ∧ c = 1 then 1 else 0) :
    ∃ g, ∀ x, w x = if x = g then 1 else 0 := by
  have hT : ∀ b c, ∑ x, w x * w (x * b) * w (x * c) = if b = 1 ∧ c = 1 then 1 else 0 := fun b c => by
    have := h b c
    unfold triple at this
    simpa using this
  set Z : Matrix G G ℝ := Matrix.of fun j x => w (x * j) * w (x * j) with hZ
  set W : Matrix G G ℝ := Matrix.of fun x k => w (x * k) with hW
  have hZW : Z * W = 1 := by
    ext j k
    rw [Matrix.mul_apply, Matrix.one_apply]
    have e : ∑ x, Z j x * W x k = ∑ x, w x * w (x * 1) * w (x * (j⁻¹ * k)) := by
      refine Fintype.sum_equiv (Equiv.mulRight j) _ _ fun x => ?_
      simp [hZ, hW, mul_assoc]
    rw [e, hT]
    have : ((1 : G) = 1 ∧ j⁻¹ * k = 1) ↔ j = k := by
      constructor
      · rintro ⟨_, h⟩; exact (inv_mul_eq_one.1 h)
      · rintro rfl; exact ⟨rfl, inv_mul_cancel j⟩
    exact if_congr this rfl rfl
  have hWZ : W * Z = 1 := mul_eq_one_comm.1 hZW
  have hsupp : ∀ x y, x ≠ y → w x * w y = 0 := by
    intro x y hxy
    have hb : x⁻¹ * y ≠ 1 := fun e => hxy (inv_mul_eq_one.1 e)
    have hv : Matrix.vecMul (fun z => w z * w (z * (x⁻¹ * y))) W = 0 := by
      funext k
      show ∑ z, w z * w (z * (x⁻¹ * y)) * w (z * k) = 0
      rw [hT, if_neg fun e => hb e.1]
    have hz : (fun z => w z * w (z * (x⁻¹ * y))) = 0 := by
      rw [← Matrix.vecMul_one (fun z => w z * w (z * (x⁻¹ * y))), ← hWZ, ← Matrix.vecMul_vecMul, hv, Matrix.zero_vecMul]
    have := congrFun hz x
    simpa using this
  have h1 := hT 1 1
  simp only [mul_one, and_self, if_true] at h1
  obtain ⟨g, hg⟩ : ∃ g, w g ≠ 0 := by
    by_contra hn
    push Not at hn
    simp [hn] at h1
  have hz : ∀ x, x ≠ g → w x = 0 := fun x hx => by
    rcases mul_eq_zero.1 (hsupp x g hx) with h | h
    · exact h
    · exact absurd h hg
  rw [Finset.sum_eq_single g (fun x _ hx => by rw [hz x hx]; ring) (by simp)] at h1
  have hg1 : w g = 1 := by
    have : (w g - 1) * (w g ^ 2 + w g + 1) = 0 := by ring_nf; ring_nf at h1; linarith
    rcases mul_eq_zero.1 this with h | h
    · linarith
    · nlinarith [sq_nonneg (w g + 1 / 2)]
  refine ⟨g, fun x => ?_⟩
  by_cases hx : x = g
  · rw [if_pos hx, hx, hg1]
  · rw [if_neg hx, hz x hx]

/-- functions with the same triple correlation, one of them with an inverse under convolution, are translates of each other -/
theorem triple_translate (f f' e : G → ℝ) (h1 : ∀ x, ∑ y, f (x * y⁻¹) * e y = if x = 1 then 1 else 0)
    (h2 : ∀ x, ∑ y, e (x * y⁻¹) * f y = if x = 1 then 1 else 0) (h : ∀ b c, triple f 1 b c = triple f' 1 b c) :
    ∃ g, ∀ x, f' x = f (g⁻¹ * x) := by
  have h3 : ∀ a b c, triple f a b c = triple f' a b c := fun a b c => by rw [triple_one, triple_one f', h]
  have hw : ∀ v : G → ℝ, ∀ a b c, triple (fun x => ∑ y, v (x * y⁻¹) * e y) a b c =
      ∑ r, ∑ q, ∑ p, e p * e q * e r * triple v (a * p⁻¹) (b * q⁻¹) (c * r⁻¹) := by
    intro v a b c
    unfold triple
    simp only [Finset.mul_sum, Finset.sum_mul]
    rw [Finset.sum_comm]
    refine Finset.sum_congr rfl fun p _ => ?_
    rw [Finset.sum_comm]
    refine Finset.sum_congr rfl fun q _ => ?_
    rw [Finset.sum_comm]
    refine Finset.sum_congr rfl fun r _ => Finset.sum_congr rfl fun x _ => ?_
    simp only [mul_assoc]
    ring
  have hd : ∀ b c, triple (fun x => ∑ y, f' (x * y⁻¹) * e y) 1 b c = if b = 1 ∧ c = 1 then 1 else 0 := by
    intro b c
    rw [hw]
    simp only [← h3]
    rw [← hw]
    unfold triple
    simp only [h1, mul_one]
    rw [Finset.sum_eq_single 1]
    · simp only [one_mul, if_true]
      by_cases hb : b = 1 <;> by_cases hc : c = 1 <;> simp [hb, hc]
    · intro x _ hx
      simp [hx]
    · simp
  obtain ⟨g, hg⟩ := triple_delta _ hd
  refine ⟨g, fun x => ?_⟩
  have e1 : ∑ z, (∑ y, f' (x * z⁻¹ * y⁻¹) * e y) * f z = f' x := by
    simp only [Finset.sum_mul]
    rw [Finset.sum_comm]
    have : ∀ y, ∑ z, f' (x * z⁻¹ * y⁻¹) * e y * f z = ∑ z, f' (x * z⁻¹) * (e y * f (y⁻¹ * z)) := by
      intro y
      refine Fintype.sum_equiv (Equiv.mulLeft y) _ _ fun z => ?_
      simp [mul_assoc]
    rw [Finset.sum_congr rfl fun y _ => this y, Finset.sum_comm]
    have h4 : ∀ z, ∑ y, f' (x * z⁻¹) * (e y * f (y⁻¹ * z)) = f' (x * z⁻¹) * if z = 1 then 1 else 0 := by
      intro z
      rw [← Finset.mul_sum, ← h2]
      congr 1
      refine Fintype.sum_equiv ((Equiv.inv G).trans (Equiv.mulRight z)) _ _ fun y => ?_
      simp
    rw [Finset.sum_congr rfl fun z _ => h4 z]
    simp
  rw [← e1]
  have h5 : ∀ z, (∑ y, f' (x * z⁻¹ * y⁻¹) * e y) = if z = g⁻¹ * x then 1 else 0 := by
    intro z
    rw [hg (x * z⁻¹)]
    have : x * z⁻¹ = g ↔ z = g⁻¹ * x := by
      rw [mul_inv_eq_iff_eq_mul, eq_inv_mul_iff_mul_eq, eq_comm]
    simp only [this]
  simp [h5]

theorem triple_of_translate (f : G → ℝ) (g b c : G) : triple (fun x => f (g⁻¹ * x)) 1 b c = triple f 1 b c := by
  unfold triple
  refine Fintype.sum_equiv (Equiv.mulLeft g⁻¹) _ _ fun x => ?_
  simp [mul_assoc]

end

section
variable {n : Nat} {p : List Nat}

/-- a function all of whose parts are invertible has an inverse under convolution -/
theorem exists_conv_inverse (f : Equiv.Perm (Fin n) → ℝ) (h : ∀ q : Pt n, IsUnit (hat q.2 f)) :
    ∃ e : Equiv.Perm (Fin n) → ℝ, (∀ x, ∑ y, f (x * y⁻¹) * e y = if x = 1 then 1 else 0) ∧
      ∀ x, ∑ y, e (x * y⁻¹) * f y = if x = 1 then 1 else 0 := by
  classical
  refine ⟨unhat fun q => (hat q.2 f)⁻¹, ?_, ?_⟩
  · refine congrFun (hat_injective fun q => ?_)
    rw [hat_convolve, hat_unhat, hat_delta, Matrix.nonsing_inv_mul _ ((Matrix.isUnit_iff_isUnit_det _).1 (h q)), inv_one, map_one]
  · refine congrFun (hat_injective fun q => ?_)
    rw [hat_convolve, hat_unhat, hat_delta, Matrix.mul_nonsing_inv _ ((Matrix.isUnit_iff_isUnit_det _).1 (h q)), inv_one, map_one]

open scoped Matrix in
/-- the transform of the autocorrelation -/
theorem hat_auto (hp : IsPartition n p) (f : Equiv.Perm (Fin n) → ℝ) :
    hat hp (fun s => ∑ x, f x * f (x * s)) = hat hp f * (hat hp f)ᵀ := by
  rw [hat_eq, hat_eq, Matrix.transpose_sum, Finset.sum_mul_sum]
  simp only [Finset.sum_smul]
  rw [Finset.sum_comm, Finset.sum_comm (f := fun i j => f i • rho hp i⁻¹ * (f j • rho hp j⁻¹)ᵀ)]
  refine Finset.sum_congr rfl fun x _ => ?_
  refine Fintype.sum_equiv (Equiv.mulLeft x) _ _ fun s => ?_
  rw [Equiv.coe_mulLeft, Matrix.transpose_smul, ← rho_inv, inv_inv, smul_mul_assoc, mul_smul_comm, smul_smul, ← map_mul, mul_comm (f x)]
  congr 2
  group

end

end Snob
