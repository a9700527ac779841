import Verif.Proofs.Character
import Mathlib.LinearAlgebra.Matrix.Charpoly.Eigs
import Mathlib.Analysis.Complex.Polynomial.Basic
import Mathlib.FieldTheory.IsAlgClosed.Spectrum
import Mathlib.RingTheory.IntegralClosure.IntegrallyClosed
import Mathlib.RingTheory.Polynomial.RationalRoot

/-! # The entries of Young's orthogonal matrices up to a rational scaling; characters are integers -/

namespace Snob

open Finset

/-! ## The scaling -/

/-- the factor of two positions `x.1 < x.2` of a content vector -/
noncomputable def scf (α : Nat → Int) (x : Nat × Nat) : ℝ :=
  if x.1 < x.2 ∧ 2 ≤ α x.1 - α x.2 then offc (α x.1 - α x.2) else 1

/-- the scaling of a content vector -/
noncomputable def sc (n : Nat) (α : Nat → Int) : ℝ := ∏ x ∈ range (n + 1) ×ˢ range (n + 1), scf α x

theorem offc_pos {d : Int} (h : 2 ≤ d ∨ d ≤ -2) : 0 < offc d :=
  lt_of_le_of_ne (Real.sqrt_nonneg _) (offc_ne_zero h).symm

theorem scf_pos (α : Nat → Int) (x : Nat × Nat) : 0 < scf α x := by
  unfold scf
  split_ifs with h
  · exact offc_pos (Or.inl h.2)
  · exact one_pos

theorem sc_pos (n : Nat) (α : Nat → Int) : 0 < sc n α := prod_pos fun x _ => scf_pos α x

theorem offc_sq_rat {d : Int} (h : d ≠ 0) : offc d * offc d = ((1 - 1 / ((d : ℚ) * d) : ℚ) : ℝ) := by
  rw [offc_sq d h]
  unfold diagc
  push_cast
  rw [div_mul_div_comm, one_mul]

theorem sc_sq_rat (n : Nat) (α : Nat → Int) : ∃ q : ℚ, sc n α * sc n α = q := by
  have : ∀ x, ∃ q : ℚ, scf α x * scf α x = q := by
    intro x
    unfold scf
    split_ifs with h
    · exact ⟨_, offc_sq_rat (by omega)⟩
    · exact ⟨1, by simp⟩
  choose f hf using this
  refine ⟨∏ x ∈ range (n + 1) ×ˢ range (n + 1), f x, ?_⟩
  unfold sc
  rw [← prod_mul_distrib, prod_congr rfl fun x _ => hf x]
  push_cast
  rfl

theorem prod_two {ι : Type} [DecidableEq ι] (s : Finset ι) (f g : ι → ℝ) {x y : ι} (hx : x ∈ s) (hy : y ∈ s) (hxy : x ≠ y)
    (h : ∀ z ∈ s, z ≠ x → z ≠ y → f z = g z) : (∏ z ∈ s, f z) * (g x * g y) = (∏ z ∈ s, g z) * (f x * f y) := by
  have hy' : y ∈ s.erase x := mem_erase.2 ⟨hxy.symm, hy⟩
  rw [← mul_prod_erase s f hx, ← mul_prod_erase s g hx, ← mul_prod_erase _ f hy', ← mul_prod_erase _ g hy',
    prod_congr rfl fun z hz => h z (mem_of_mem_erase (mem_of_mem_erase hz)) (ne_of_mem_erase (mem_of_mem_erase hz)) (ne_of_mem_erase hz)]
  ring

/-- the scaling under an exchange of neighbours -/
theorem sc_sw {n k : Nat} (hk : k < n) (α : Nat → Int) :
    sc n (sw k α) * (if α (k + 1) - α k ≤ -2 then offc (α (k + 1) - α k) else 1) =
      sc n α * (if 2 ≤ α (k + 1) - α k then offc (α (k + 1) - α k) else 1) := by
  have hs : ∀ a, swp k (k + 1) (swp k (k + 1) a) = a := fun a => swp_swp _ _ a
  have hr : ∀ a, a < n + 1 → swp k (k + 1) a < n + 1 := by intro a ha; unfold swp; split_ifs <;> omega
  have e1 : sc n (sw k α) = ∏ x ∈ range (n + 1) ×ˢ range (n + 1), scf (sw k α) (swp k (k + 1) x.1, swp k (k + 1) x.2) := by
    unfold sc
    refine prod_bij' (fun x _ => (swp k (k + 1) x.1, swp k (k + 1) x.2)) (fun x _ => (swp k (k + 1) x.1, swp k (k + 1) x.2)) ?_ ?_ ?_ ?_ ?_
    · intro x hx
      rw [mem_product, mem_range, mem_range] at hx ⊢
      exact ⟨hr _ hx.1, hr _ hx.2⟩
    · intro x hx
      rw [mem_product, mem_range, mem_range] at hx ⊢
      exact ⟨hr _ hx.1, hr _ hx.2⟩
    · intro x _; simp [hs]
    · intro x _; simp [hs]
    · intro x _; simp [hs]
  have e2 := prod_two (range (n + 1) ×ˢ range (n + 1)) (fun x => scf (sw k α) (swp k (k + 1) x.1, swp k (k + 1) x.2)) (scf α)
    (x := (k, k + 1)) (y := (k + 1, k)) (by simp; omega) (by simp; omega) (by simp) (by
      rintro ⟨a, b⟩ - h1 h2
      rw [Ne, Prod.mk.injEq, not_and] at h1 h2
      unfold scf sw
      simp only [hs]
      by_cases hab : a = b
      · rw [hab]; simp
      refine if_congr (and_congr_left fun _ => ?_) rfl rfl
      unfold swp
      split_ifs <;> omega)
  rw [← e1] at e2
  have g1 : scf α (k, k + 1) = if α (k + 1) - α k ≤ -2 then offc (α (k + 1) - α k) else 1 := by
    unfold scf
    dsimp only
    by_cases h : α (k + 1) - α k ≤ -2
    · rw [if_pos h, if_pos ⟨by omega, by omega⟩, ← offc_neg]; congr 1; ring
    · rw [if_neg h, if_neg (by omega)]
  have g2 : scf α (k + 1, k) = 1 := by
    unfold scf; rw [if_neg (by dsimp only; omega)]
  have f1 : scf (sw k α) (swp k (k + 1) k, swp k (k + 1) (k + 1)) = 1 := by
    unfold scf; rw [if_neg (by simp [swp])]
  have f2 : scf (sw k α) (swp k (k + 1) (k + 1), swp k (k + 1) k) = if 2 ≤ α (k + 1) - α k then offc (α (k + 1) - α k) else 1 := by
    unfold scf
    have a1 : swp k (k + 1) (k + 1) = k := by simp [swp]
    have a2 : swp k (k + 1) k = k + 1 := by simp [swp]
    simp only [a1, a2, sw_lo, sw_hi]
    refine if_congr ⟨fun h => h.2, fun h => ⟨by omega, h⟩⟩ rfl rfl
  simp only [f1, f2, g1, g2, one_mul, mul_one] at e2
  exact e2

/-! ## Matrices -/

section
variable {n : Nat} {p : List Nat}

/-- entries that are rational after the scaling -/
def IsScRat (M : Matrix (Wd n p) (Wd n p) ℝ) : Prop := ∃ q : Wd n p → Wd n p → ℚ, ∀ u v, M u v * sc n v.cont = q u v * sc n u.cont

theorem scRat_one : IsScRat (1 : Matrix (Wd n p) (Wd n p) ℝ) := by
  classical
  refine ⟨fun u v => if u = v then 1 else 0, fun u v => ?_⟩
  rw [Matrix.one_apply]
  split_ifs with h
  · rw [h]; simp
  · simp [h]

theorem scRat_mul {M N : Matrix (Wd n p) (Wd n p) ℝ} (hM : IsScRat M) (hN : IsScRat N) : IsScRat (M * N) := by
  obtain ⟨q, hq⟩ := hM
  obtain ⟨r, hr⟩ := hN
  refine ⟨fun u v => ∑ w, q u w * r w v, fun u v => ?_⟩
  rw [Matrix.mul_apply, Finset.sum_mul]
  push_cast
  rw [Finset.sum_mul]
  refine Finset.sum_congr rfl fun w _ => ?_
  rw [mul_assoc, hr]
  linear_combination (r w v : ℝ) * hq u w

theorem scRat_yor (hp : IsPartition n p) {k : Nat} (h1 : 1 ≤ k) (h2 : k < n) : IsScRat (yorM n p k) := by
  classical
  have : ∀ u v : Wd n p, ∃ q : ℚ, yorM n p k u v * sc n v.cont = q * sc n u.cont := by
    intro u v
    unfold yorM
    by_cases e : v = u
    · rw [if_pos e, e]
      exact ⟨1 / ((u.cont (k + 1) - u.cont k : Int) : ℚ), by unfold diagc; push_cast; rfl⟩
    rw [if_neg e]
    by_cases e' : v.cont = sw k u.cont
    · rw [if_pos e']
      have h0 := u.cont_ne hp h1 h2
      have hs := sc_sw h2 u.cont
      rw [← e'] at hs
      rcases (by omega : 2 ≤ u.cont (k + 1) - u.cont k ∨ u.cont (k + 1) - u.cont k ≤ -2 ∨ u.cont (k + 1) - u.cont k = 1 ∨ u.cont (k + 1) - u.cont k = -1) with h | h | h
      · rw [if_pos h, if_neg (by omega), mul_one] at hs
        exact ⟨_, by rw [hs, mul_left_comm, offc_sq_rat (by omega), mul_comm]⟩
      · rw [if_pos h, if_neg (by omega), mul_one] at hs
        exact ⟨1, by rw [mul_comm, hs]; simp⟩
      · rw [offc_zero_of_unit h]
        exact ⟨0, by simp⟩
    · rw [if_neg e']
      exact ⟨0, by simp⟩
  choose q hq using this
  exact ⟨q, hq⟩

theorem scRat_rho (hp : IsPartition n p) (σ : Equiv.Perm (Fin n)) : IsScRat (rho hp σ) := by
  refine perm_induction (P := fun σ => IsScRat (rho hp σ)) (by rw [map_one]; exact scRat_one) (fun k σ hk ih => ?_) σ
  rw [map_mul, rho_adj hp hk]
  exact scRat_mul (scRat_yor hp (by omega) hk) ih

theorem rho_diag_rat (hp : IsPartition n p) (σ : Equiv.Perm (Fin n)) (u : Wd n p) : ∃ q : ℚ, rho hp σ u u = q := by
  obtain ⟨q, hq⟩ := scRat_rho hp σ
  exact ⟨q u u, mul_right_cancel₀ (sc_pos n u.cont).ne' (hq u u)⟩

theorem rho_sq_rat (hp : IsPartition n p) (σ : Equiv.Perm (Fin n)) (u v : Wd n p) : ∃ q : ℚ, rho hp σ u v * rho hp σ u v = q := by
  obtain ⟨q, hq⟩ := scRat_rho hp σ
  obtain ⟨a, ha⟩ := sc_sq_rat n u.cont
  obtain ⟨b, hb⟩ := sc_sq_rat n v.cont
  have hb0 : (b : ℝ) ≠ 0 := by rw [← hb]; exact (mul_pos (sc_pos _ _) (sc_pos _ _)).ne'
  refine ⟨q u v * q u v * a / b, ?_⟩
  push_cast
  rw [eq_div_iff hb0, ← ha, ← hb]
  linear_combination (rho hp σ u v * sc n v.cont + q u v * sc n u.cont) * hq u v

/-! ## Characters -/

/-- the trace of a matrix of finite order is an algebraic integer -/
theorem trace_integral {ι : Type} [Fintype ι] [DecidableEq ι] [Nonempty ι] (A : Matrix ι ι ℂ) {k : Nat} (hk : 0 < k) (h : A ^ k = 1) : IsIntegral ℤ A.trace := by
  rw [Matrix.trace_eq_sum_roots_charpoly]
  refine IsIntegral.multiset_sum fun x hx => ?_
  have hx' : x ∈ spectrum ℂ A := Matrix.mem_spectrum_of_isRoot_charpoly (Polynomial.isRoot_of_mem_roots hx)
  have := spectrum.pow_mem_pow A k hx'
  rw [h, spectrum.one_eq, Set.mem_singleton_iff] at this
  refine ⟨Polynomial.X ^ k - 1, Polynomial.monic_X_pow_sub_C 1 hk.ne', ?_⟩
  simp [this]

theorem chi_int (hp : IsPartition n p) (σ : Equiv.Perm (Fin n)) : ∃ z : ℤ, chi hp σ = z := by
  classical
  choose q hq using rho_diag_rat hp σ
  have e : chi hp σ = ((∑ u, q u : ℚ) : ℝ) := by
    unfold chi Matrix.trace
    push_cast
    exact Finset.sum_congr rfl fun u _ => hq u
  rcases isEmpty_or_nonempty (Wd n p) with h | h
  · exact ⟨0, by rw [e]; simp⟩
  have hpow : (rho hp σ).map (algebraMap ℝ ℂ) ^ orderOf σ = 1 := by
    have : (rho hp σ) ^ orderOf σ = 1 := by rw [← map_pow, pow_orderOf_eq_one, map_one]
    rw [← RingHom.mapMatrix_apply, ← map_pow, this, map_one]
  have hi := trace_integral _ (orderOf_pos σ) hpow
  have et : ((rho hp σ).map (algebraMap ℝ ℂ)).trace = algebraMap ℚ ℂ (∑ u, q u) := by
    have : ((rho hp σ).map (algebraMap ℝ ℂ)).trace = algebraMap ℝ ℂ (chi hp σ) := by
      unfold chi; exact (AddMonoidHom.map_trace (algebraMap ℝ ℂ).toAddMonoidHom (rho hp σ)).symm
    rw [this, e]
    simp
  rw [et, isIntegral_algebraMap_iff (algebraMap ℚ ℂ).injective] at hi
  obtain ⟨z, hz⟩ := IsIntegrallyClosed.isIntegral_iff.1 hi
  refine ⟨z, ?_⟩
  rw [e, ← hz]
  simp

end

end Snob
