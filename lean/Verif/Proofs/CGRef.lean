import Mathlib.Analysis.InnerProductSpace.PiL2
import Verif.Proofs.CG

/-! # The tensor product of two irreps has an orthonormal basis in which it is a sum of irreps -/

namespace Snob

open IP Matrix
open scoped Nat

theorem exists_onb {ι : Type} [Fintype ι] (S : Submodule ℝ (ι → ℝ)) :
    ∃ B : Fin (Module.finrank ℝ S) → ι → ℝ, (∀ c, B c ∈ S) ∧ ∀ c c', ∑ i, B c i * B c' i = if c = c' then 1 else 0 := by
  classical
  let e := (WithLp.linearEquiv 2 ℝ (ι → ℝ))
  let S' : Submodule ℝ (EuclideanSpace ℝ ι) := S.map (e.symm : (ι → ℝ) →ₗ[ℝ] EuclideanSpace ℝ ι)
  have hr : Module.finrank ℝ S' = Module.finrank ℝ S := LinearEquiv.finrank_map_eq e.symm S
  let b := (stdOrthonormalBasis ℝ S').reindex (finCongr hr)
  refine ⟨fun c => e (b c : EuclideanSpace ℝ ι), fun c => ?_, fun c c' => ?_⟩
  · obtain ⟨x, hx, h⟩ := Submodule.mem_map.1 (b c).2
    show e (b c : EuclideanSpace ℝ ι) ∈ S
    rw [← h]
    simpa using hx
  · have := orthonormal_iff_ite.1 b.orthonormal c' c
    rw [Submodule.coe_inner, PiLp.inner_apply] at this
    simp only [RCLike.inner_apply, conj_trivial] at this
    simp only [eq_comm (a := c)]
    rw [← this]
    rfl

section
variable {n : Nat} {a b : List Nat}

/-- the tensor product of two irreps -/
noncomputable def tpW (ha : IsPartition n a) (hb : IsPartition n b) (σ : Equiv.Perm (Fin n)) :
    Matrix (Wd n a × Wd n b) (Wd n a × Wd n b) ℝ := Matrix.kroneckerMap (· * ·) (rho ha σ) (rho hb σ)

theorem tpW_orth (ha : IsPartition n a) (hb : IsPartition n b) (σ : Equiv.Perm (Fin n)) : (tpW ha hb σ)ᵀ * tpW ha hb σ = 1 := by
  unfold tpW
  rw [← Matrix.kroneckerMap_transpose, ← Matrix.mul_kronecker_mul]
  have h : ∀ {p : List Nat} (hp : IsPartition n p), (rho hp σ)ᵀ * rho hp σ = 1 := by
    intro p hp
    rw [← rho_inv, ← map_mul, inv_mul_cancel, map_one]
  rw [h ha, h hb, Matrix.one_kronecker_one]

/-- the intertwiners between equivariant families are scalar -/
theorem inner_scalar (ha : IsPartition n a) (hb : IsPartition n b) {p q : List Nat} (hp : IsPartition n p) (hq : IsPartition n q)
    (F : Matrix (Wd n a × Wd n b) (Wd n p) ℝ) (G : Matrix (Wd n a × Wd n b) (Wd n q) ℝ)
    (hF : ∀ σ, tpW ha hb σ * F = F * rho hp σ) (hG : ∀ σ, tpW ha hb σ * G = G * rho hq σ) (σ : Equiv.Perm (Fin n)) :
    rho hp σ * (Fᵀ * G) = Fᵀ * G * rho hq σ := by
  have h : (rho hp σ)ᵀ * (Fᵀ * G) * rho hq σ = Fᵀ * G := by
    calc (rho hp σ)ᵀ * (Fᵀ * G) * rho hq σ = (F * rho hp σ)ᵀ * (G * rho hq σ) := by
          rw [Matrix.transpose_mul, Matrix.mul_assoc, Matrix.mul_assoc, Matrix.mul_assoc]
      _ = Fᵀ * G := by
          rw [← hF, ← hG, Matrix.transpose_mul, Matrix.mul_assoc, ← Matrix.mul_assoc (tpW ha hb σ)ᵀ, tpW_orth, Matrix.one_mul]
  have h2 : rho hp σ * (rho hp σ)ᵀ = 1 := by rw [← rho_inv, ← map_mul, mul_inv_cancel, map_one]
  calc rho hp σ * (Fᵀ * G) = rho hp σ * ((rho hp σ)ᵀ * (Fᵀ * G) * rho hq σ) := by rw [h]
    _ = Fᵀ * G * rho hq σ := by rw [← Matrix.mul_assoc, ← Matrix.mul_assoc, h2, Matrix.one_mul]

open Classical in
theorem exists_family (ha : IsPartition n a) (hb : IsPartition n b) {p : List Nat} (hp : IsPartition n p) :
    ∃ F : Fin (kronN n a b p) → Matrix (Wd n a × Wd n b) (Wd n p) ℝ, (∀ c σ, tpW ha hb σ * F c = F c * rho hp σ) ∧
      ∀ c c', (F c)ᵀ * F c' = if c = c' then 1 else 0 := by
  have hk : kronN n a b p = Module.finrank ℝ (fixedVecs (tens (rho ha) (rho hb) (rho hp))) := by
    unfold kronN; rw [dif_pos ⟨ha, hb, hp⟩]
  rw [hk]
  obtain ⟨B, hB, ho⟩ := exists_onb (fixedVecs (tens (rho ha) (rho hb) (rho hp)))
  have hd : (0 : ℝ) < Fintype.card (Wd n p) := by exact_mod_cast card_Wd_pos hp
  let s : ℝ := √(Fintype.card (Wd n p))
  have hs : s * s = Fintype.card (Wd n p) := Real.mul_self_sqrt hd.le
  let F0 : Fin (Module.finrank ℝ (fixedVecs (tens (rho ha) (rho hb) (rho hp)))) → Matrix (Wd n a × Wd n b) (Wd n p) ℝ :=
    fun c z T => B c (z.1, z.2, T)
  have h0 : ∀ c σ, tpW ha hb σ * F0 c = F0 c * rho hp σ := by
    intro c σ
    have hfix : tpW ha hb σ * F0 c * (rho hp σ)ᵀ = F0 c := by
      ext z T
      have := congrFun (hB c σ) (z.1, z.2, T)
      rw [← show B c (z.1, z.2, T) = F0 c z T from rfl, ← this]
      show _ = ∑ y : Wd n a × Wd n b × Wd n p, tens (rho ha) (rho hb) (rho hp) σ (z.1, z.2, T) y * B c y
      rw [Fintype.sum_prod_type, Matrix.mul_apply]
      simp only [Fintype.sum_prod_type, Matrix.mul_apply, Finset.sum_mul]
      rw [Finset.sum_comm]
      refine Finset.sum_congr rfl fun i _ => ?_
      rw [Finset.sum_comm]
      refine Finset.sum_congr rfl fun j _ => ?_
      refine Finset.sum_congr rfl fun T' _ => ?_
      show rho ha σ z.1 i * rho hb σ z.2 j * B c (i, j, T') * rho hp σ T T' = rho ha σ z.1 i * (rho hb σ z.2 j * rho hp σ T T') * B c (i, j, T')
      ring
    have h1 : (rho hp σ)ᵀ * rho hp σ = 1 := by rw [← rho_inv, ← map_mul, inv_mul_cancel, map_one]
    conv_rhs => rw [← hfix]
    rw [Matrix.mul_assoc, h1, Matrix.mul_one]
  refine ⟨fun c => s • F0 c, fun c σ => ?_, fun c c' => ?_⟩
  · rw [Matrix.mul_smul, h0, Matrix.smul_mul]
  · obtain ⟨t, ht⟩ := schur_eq hp _ (inner_scalar ha hb hp hp (F0 c) (F0 c') (h0 c) (h0 c'))
    have htr : Matrix.trace ((F0 c)ᵀ * F0 c') = if c = c' then 1 else 0 := by
      rw [← ho c c']
      simp only [Matrix.trace, Matrix.diag_apply, Matrix.mul_apply, Matrix.transpose_apply]
      rw [Fintype.sum_prod_type, Finset.sum_comm, Fintype.sum_prod_type]
      refine Finset.sum_congr rfl fun i _ => ?_
      rw [Fintype.sum_prod_type]
    rw [ht, Matrix.trace_smul, Matrix.trace_one, smul_eq_mul] at htr
    rw [Matrix.transpose_smul, Matrix.smul_mul, Matrix.mul_smul, ht, smul_smul, smul_smul, hs, mul_comm, htr]
    split_ifs <;> simp

/-- the indices of the basis -/
abbrev RefIx (n : Nat) (a b : List Nat) := Σ p : Pt n, Fin (kronN n a b p.1) × Wd n p.1

open Classical in
theorem exists_ref (hn : 1 ≤ n) (ha : IsPartition n a) (hb : IsPartition n b) :
    ∃ E : (p : Pt n) → Fin (kronN n a b p.1) → Matrix (Wd n a × Wd n b) (Wd n p.1) ℝ,
      (∀ p c σ, tpW ha hb σ * E p c = E p c * rho p.2 σ) ∧
      (∀ x y : RefIx n a b, (∑ z, E x.1 x.2.1 z x.2.2 * E y.1 y.2.1 z y.2.2) = if x = y then 1 else 0) ∧
      ∀ z w : Wd n a × Wd n b, (∑ x : RefIx n a b, E x.1 x.2.1 z x.2.2 * E x.1 x.2.1 w x.2.2) = if z = w then 1 else 0 := by
  choose E hE ho using fun p : Pt n => exists_family ha hb p.2
  have orth : ∀ x y : RefIx n a b, (∑ z, E x.1 x.2.1 z x.2.2 * E y.1 y.2.1 z y.2.2) = if x = y then 1 else 0 := by
    rintro ⟨p, c, T⟩ ⟨q, c', T'⟩
    by_cases hpq : p = q
    · subst hpq
      have := congrFun (congrFun (ho p c c') T) T'
      rw [Matrix.mul_apply] at this
      simp only [Matrix.transpose_apply] at this
      simp only [Sigma.mk.injEq, heq_eq_eq, true_and, Prod.mk.injEq]
      rw [this]
      by_cases h1 : c = c'
      · subst h1
        rw [if_pos rfl, Matrix.one_apply]
        simp
      · rw [if_neg h1, if_neg (fun h => h1 h.1)]; rfl
    · rw [if_neg fun h => hpq (Sigma.mk.inj h).1]
      have := schur_ne p.2 q.2 (fun h => hpq (Subtype.ext h)) _ (inner_scalar ha hb p.2 q.2 (E p c) (E q c') (hE p c) (hE q c'))
      have := congrFun (congrFun this T) T'
      rw [Matrix.mul_apply] at this
      exact this
  refine ⟨E, hE, orth, ?_⟩
  let M : Matrix (RefIx n a b) (Wd n a × Wd n b) ℝ := fun x z => E x.1 x.2.1 z x.2.2
  have h1 : M * Mᵀ = 1 := by
    ext x y
    rw [Matrix.mul_apply, Matrix.one_apply]
    exact orth x y
  have hcard : Fintype.card (RefIx n a b) = Fintype.card (Wd n a × Wd n b) := by
    rw [Fintype.card_sigma, Fintype.card_prod]
    have := sum_kron_chi ha hb 1
    have key : ∀ {p : List Nat} (hp : IsPartition n p), chi hp 1 = (Fintype.card (Wd n p) : ℝ) := by
      intro p hp
      unfold chi
      rw [map_one, Matrix.trace_one]
    simp only [key] at this
    simp only [Fintype.card_prod, Fintype.card_fin]
    exact_mod_cast this
  have h2 : Mᵀ * M = 1 := (Matrix.mul_eq_one_comm_of_card_eq (R := ℝ) (eq := hcard)).1 h1
  intro z w
  have := congrFun (congrFun h2 z) w
  rw [Matrix.mul_apply, Matrix.one_apply] at this
  exact this

end

end Snob
