import Verif.Props.Symmetry

/-! # Counting with characters (for C124) -/

namespace Snob

open IP Perm
open scoped Nat

variable {n : Nat} {p : List Nat}

theorem hat_chi (p q : Pt n) : hat q.2 (chi p.2) = if p = q then ((n ! : ℝ) / Fintype.card (Wd n q.1)) • 1 else 0 := by
  classical
  ext a b
  have e : hat q.2 (chi p.2) a b = ∑ c, ∑ σ, rho p.2 σ c c * rho q.2 σ b a := by
    unfold hat chi Matrix.trace
    conv_rhs => rw [Finset.sum_comm]
    refine Finset.sum_congr rfl fun σ _ => ?_
    rw [rho_inv q.2 σ, Matrix.transpose_apply, Finset.sum_mul]
    rfl
  rw [e]
  by_cases h : p = q
  · subst h
    rw [if_pos rfl, Matrix.smul_apply, Matrix.one_apply, smul_eq_mul]
    simp only [orthogonality_eq]
    by_cases hab : a = b
    · subst hab
      simp
    · rw [if_neg hab, mul_zero]
      refine Finset.sum_eq_zero fun c _ => if_neg ?_
      rintro ⟨rfl, rfl⟩
      exact hab rfl
  · rw [if_neg h, Matrix.zero_apply]
    exact Finset.sum_eq_zero fun c _ => orthogonality_ne p.2 q.2 (fun h' => h (Subtype.ext h')) _ _ _ _

theorem hat_count {ι : Type} (s : Finset ι) (g : ι → Equiv.Perm (Fin n)) (hp : IsPartition n p) :
    hat hp (fun σ => ((s.filter fun x => g x = σ).card : ℝ)) = ∑ x ∈ s, rho hp (g x)⁻¹ := by
  rw [hat_eq]
  have e : ∀ σ, ((s.filter fun x => g x = σ).card : ℝ) • rho hp σ⁻¹ = ∑ x ∈ s, if g x = σ then rho hp σ⁻¹ else 0 := fun σ => by
    rw [Finset.sum_ite, Finset.sum_const_zero, add_zero, Finset.sum_const, Nat.cast_smul_eq_nsmul]
  rw [Finset.sum_congr rfl fun σ _ => e σ, Finset.sum_comm]
  exact Finset.sum_congr rfl fun x _ => by rw [Finset.sum_ite_eq, if_pos (Finset.mem_univ _)]

theorem hat_sum (c : Pt n → ℝ) (q : Pt n) : hat q.2 (fun σ => ∑ p : Pt n, c p * chi p.2 σ) = (c q * ((n ! : ℝ) / Fintype.card (Wd n q.1))) • 1 := by
  have e : hat q.2 (fun σ => ∑ p : Pt n, c p * chi p.2 σ) = ∑ p : Pt n, c p • hat q.2 (chi p.2) := by
    simp only [hat_eq, Finset.sum_smul, Finset.smul_sum, smul_smul]
    rw [Finset.sum_comm]
  rw [e]
  simp only [hat_chi, smul_ite, smul_zero, Finset.sum_ite_eq', Finset.mem_univ, if_true, smul_smul]

/-- numbers of solutions from the sums of the matrices over all candidates -/
theorem count_eq {ι : Type} (s : Finset ι) (g : ι → Equiv.Perm (Fin n)) (z : Pt n → ℝ) (h : ∀ q : Pt n, ∑ x ∈ s, rho q.2 (g x)⁻¹ = z q • 1)
    (σ : Equiv.Perm (Fin n)) :
    ((s.filter fun x => g x = σ).card : ℝ) = ∑ q : Pt n, z q * (Fintype.card (Wd n q.1) / (n ! : ℝ)) * chi q.2 σ := by
  have hn0 : (n ! : ℝ) ≠ 0 := by exact_mod_cast (Nat.factorial_pos n).ne'
  have := hat_injective (f := fun σ => ((s.filter fun x => g x = σ).card : ℝ))
    (g := fun σ => ∑ q : Pt n, z q * (Fintype.card (Wd n q.1) / (n ! : ℝ)) * chi q.2 σ) fun q => by
    rw [hat_count, h, hat_sum]
    congr 1
    have hd : (Fintype.card (Wd n q.1) : ℝ) ≠ 0 := by exact_mod_cast (card_Wd_pos q.2).ne'
    field_simp
  exact congrFun this σ

theorem sum_rho_sq (hp : IsPartition n p) : ∑ τ, rho hp (τ * τ)⁻¹ = ((n ! : ℝ) / Fintype.card (Wd n p)) • 1 := by
  ext a b
  have e : ∀ τ : Equiv.Perm (Fin n), rho hp (τ * τ)⁻¹ a b = ∑ c, rho hp τ⁻¹ a c * rho hp τ⁻¹ c b := fun τ => by
    rw [mul_inv_rev, map_mul, Matrix.mul_apply]
  rw [Matrix.sum_apply, Finset.sum_congr rfl fun τ _ => e τ, Finset.sum_comm]
  have e2 : ∀ c, ∑ τ : Equiv.Perm (Fin n), rho hp τ⁻¹ a c * rho hp τ⁻¹ c b = if a = c ∧ c = b then (n ! : ℝ) / Fintype.card (Wd n p) else 0 := fun c => by
    rw [← orthogonality_eq hp a c c b]
    exact Fintype.sum_equiv (Equiv.inv _) _ _ fun σ => by simp
  rw [Finset.sum_congr rfl fun c _ => e2 c, Matrix.smul_apply, Matrix.one_apply, smul_eq_mul]
  by_cases hab : a = b
  · subst hab
    rw [if_pos rfl, mul_one, Finset.sum_eq_single a]
    · simp
    · intro c _ hc
      rw [if_neg fun h => hc h.2]
    · exact fun h => absurd (Finset.mem_univ _) h
  · rw [if_neg hab, mul_zero]
    refine Finset.sum_eq_zero fun c _ => if_neg ?_
    rintro ⟨rfl, rfl⟩
    exact hab rfl

theorem sum_conj (hp : IsPartition n p) (M : Matrix (Wd n p) (Wd n p) ℝ) :
    ∑ σ, rho hp σ * M * rho hp σ⁻¹ = ((n ! : ℝ) / Fintype.card (Wd n p) * Matrix.trace M) • 1 := by
  ext a b
  have e : ∀ σ : Equiv.Perm (Fin n), (rho hp σ * M * rho hp σ⁻¹) a b = ∑ d, ∑ c, rho hp σ a c * M c d * rho hp σ b d := fun σ => by
    rw [Matrix.mul_apply]
    refine Finset.sum_congr rfl fun d _ => ?_
    rw [Matrix.mul_apply, Finset.sum_mul, rho_inv hp σ]
    rfl
  rw [Matrix.sum_apply, Finset.sum_congr rfl fun σ _ => e σ, Finset.sum_comm]
  have e2 : ∀ d, ∑ σ : Equiv.Perm (Fin n), ∑ c, rho hp σ a c * M c d * rho hp σ b d = if a = b then (n ! : ℝ) / Fintype.card (Wd n p) * M d d else 0 := fun d => by
    rw [Finset.sum_comm, Finset.sum_eq_single d]
    · have : ∑ σ, rho hp σ a d * M d d * rho hp σ b d = M d d * ∑ σ, rho hp σ a d * rho hp σ b d := by
        rw [Finset.mul_sum]
        exact Finset.sum_congr rfl fun σ _ => by ring
      rw [this, orthogonality_eq]
      by_cases h : a = b <;> simp [h, mul_comm]
    · intro c _ hc
      have : ∑ σ, rho hp σ a c * M c d * rho hp σ b d = M c d * ∑ σ, rho hp σ a c * rho hp σ b d := by
        rw [Finset.mul_sum]
        exact Finset.sum_congr rfl fun σ _ => by ring
      rw [this, orthogonality_eq, if_neg fun h => hc h.2, mul_zero]
    · exact fun h => absurd (Finset.mem_univ _) h
  rw [Finset.sum_congr rfl fun d _ => e2 d, Matrix.smul_apply, Matrix.one_apply, smul_eq_mul]
  by_cases hab : a = b
  · simp only [if_pos hab, mul_one]
    rw [← Finset.mul_sum]
    rfl
  · simp [hab]

theorem chi_inv' (hp : IsPartition n p) (σ : Equiv.Perm (Fin n)) : chi hp σ⁻¹ = chi hp σ := by
  unfold chi
  rw [rho_inv, Matrix.trace_transpose]

theorem sum_chi_rho (hp : IsPartition n p) : ∑ σ, chi hp σ⁻¹ • rho hp σ = ((n ! : ℝ) / Fintype.card (Wd n p)) • 1 := by
  have := hat_chi ⟨p, hp⟩ ⟨p, hp⟩
  rw [if_pos rfl, hat_eq] at this
  rw [← this]
  exact Fintype.sum_equiv (Equiv.inv _) _ _ fun σ => by simp

theorem sum_commutator (hp : IsPartition n p) :
    ∑ x : Equiv.Perm (Fin n) × Equiv.Perm (Fin n), rho hp (x.1 * x.2 * x.1⁻¹ * x.2⁻¹)⁻¹ = ((n ! : ℝ) / Fintype.card (Wd n p)) ^ 2 • 1 := by
  rw [Fintype.sum_prod_type_right]
  have e : ∀ b : Equiv.Perm (Fin n), ∑ a : Equiv.Perm (Fin n), rho hp (a * b * a⁻¹ * b⁻¹)⁻¹ =
      ((n ! : ℝ) / Fintype.card (Wd n p) * chi hp b⁻¹) • rho hp b := fun b => by
    have e1 : ∀ a : Equiv.Perm (Fin n), rho hp (a * b * a⁻¹ * b⁻¹)⁻¹ = rho hp b * (rho hp a * rho hp b⁻¹ * rho hp a⁻¹) := fun a => by
      rw [← map_mul, ← map_mul, ← map_mul]
      exact congrArg _ (by group)
    rw [Finset.sum_congr rfl fun a _ => e1 a, ← Finset.mul_sum, sum_conj, Matrix.mul_smul, Matrix.mul_one]
    rfl
  simp only [e, mul_smul]
  rw [← Finset.smul_sum, sum_chi_rho, smul_smul, sq]

theorem class_sum_scalar (hp : IsPartition n p) {mu : List Nat} (hmu : IsPartition n mu) (s : Finset (Equiv.Perm (Fin n)))
    (hs : ∀ σ, σ ∈ s ↔ HasCycleType σ mu) :
    ∑ σ ∈ s, rho hp σ⁻¹ = ((s.card : ℝ) * chi hp (blockPerm n mu 0) / Fintype.card (Wd n p)) • 1 := by
  classical
  have hc : ∀ σ τ : Equiv.Perm (Fin n), (if τ * σ * τ⁻¹ ∈ s then (1 : ℝ) else 0) = if σ ∈ s then 1 else 0 := fun σ τ => by
    have : (τ * σ * τ⁻¹ ∈ s) ↔ σ ∈ s := by
      rw [hs, hs, hasCycleType_iff hmu, hasCycleType_iff hmu, Equiv.Perm.cycleType_conj]
    simp only [this]
  obtain ⟨z, hz⟩ := (hat_central (fun σ : Equiv.Perm (Fin n) => if σ ∈ s then (1 : ℝ) else 0)).1 hc ⟨p, hp⟩
  have e : hat hp (fun σ : Equiv.Perm (Fin n) => if σ ∈ s then (1 : ℝ) else 0) = ∑ σ ∈ s, rho hp σ⁻¹ := by
    rw [hat_eq]
    simp only [ite_smul, one_smul, zero_smul, Finset.sum_ite_mem, Finset.univ_inter]
  have hz : ∑ σ ∈ s, rho hp σ⁻¹ = z • 1 := e.symm.trans hz
  have ht := congrArg Matrix.trace hz
  rw [Matrix.trace_sum, Matrix.trace_smul, Matrix.trace_one] at ht
  rw [Finset.sum_congr rfl fun σ h => show Matrix.trace (rho hp σ⁻¹) = chi hp (blockPerm n mu 0) from
    (chi_inv' hp σ).trans (chi_class hp hmu ((hs σ).1 h) (hasCycleType_block hmu)), Finset.sum_const, nsmul_eq_mul, smul_eq_mul] at ht
  rw [hz]
  congr 1
  have hd : (Fintype.card (Wd n p) : ℝ) ≠ 0 := by exact_mod_cast (card_Wd_pos hp).ne'
  field_simp
  exact ht.symm

end Snob
