import Verif.Props.Symmetry
import Verif.Props.Counting
import Verif.Proofs.Kron
import Verif.Proofs.Plancherel
import Verif.Spec.Marginals
import Mathlib.LinearAlgebra.Basis.VectorSpace

/-! # Marginals of functions on `Sn` -/

namespace Snob

open scoped Nat Matrix

variable {n : Nat}

section
variable {p : List Nat} {m : Nat}

theorem sum_symF_transpose (hp : IsPartition n p) : (∑ s ∈ symF n m, rho hp s)ᵀ = ∑ s ∈ symF n m, rho hp s := by
  rw [Matrix.transpose_sum]
  refine Finset.sum_bij' (fun σ _ => σ⁻¹) (fun σ _ => σ⁻¹) (fun σ hσ => symF_inv hσ) (fun σ hσ => symF_inv hσ)
    (by simp) (by simp) fun σ _ => ?_
  rw [rho_inv]

theorem symF_row (hm : 0 < m) (hn : m ≤ n) (hp : IsPartition n p) (w u : Wd n p) (hw : goodW m w.1 = true) :
    (∑ s ∈ symF n m, rho hp s) w u = if u = w then (m ! : ℝ) else 0 := by
  rw [← sum_symF_transpose, Matrix.transpose_apply, Matrix.sum_apply]
  exact sum_symF_good hm hn hp u w hw

/-- the transform of the sums over the double cosets -/
theorem hat_double (hp : IsPartition n p) (u : Equiv.Perm (Fin n) → ℝ) (y : Equiv.Perm (Fin n)) :
    hat hp (fun x => ∑ s ∈ symF n m, u (x * s * y)) = (∑ s ∈ symF n m, rho hp s) * rho hp y * hat hp u := by
  rw [hat_eq, hat_eq, Finset.sum_mul, Finset.sum_mul]
  simp only [Finset.sum_smul]
  rw [Finset.sum_comm]
  refine Finset.sum_congr rfl fun s _ => ?_
  rw [Finset.mul_sum]
  refine Fintype.sum_equiv (Equiv.mulRight (s * y)) _ _ fun x => ?_
  show u (x * s * y) • rho hp x⁻¹ = rho hp s * rho hp y * (u (x * (s * y)) • rho hp (x * (s * y))⁻¹)
  rw [← mul_assoc x, Matrix.mul_smul, ← map_mul, ← map_mul]
  congr 2
  group

/-- the sums over all double cosets vanish exactly if the parts with a long first row do -/
theorem double_zero_iff (hm : 0 < m) (hn : m ≤ n) (u : Equiv.Perm (Fin n) → ℝ) :
    (∀ x y, ∑ s ∈ symF n m, u (x * s * y) = 0) ↔ ∀ q : Pt n, m ≤ row q.1 0 → hat q.2 u = 0 := by
  constructor
  · intro h q hq
    obtain ⟨w, hw⟩ := exists_good q.2 hq
    have hz : ∀ y b, (rho q.2 y * hat q.2 u) w b = 0 := fun y b => by
      have e := hat_double (m := m) q.2 u y
      have : (fun x => ∑ s ∈ symF n m, u (x * s * y)) = fun _ => 0 := funext fun x => h x y
      rw [this] at e
      have e := congrFun (congrFun e w) b
      rw [mul_assoc, Matrix.mul_apply, Finset.sum_eq_single w] at e
      · rw [symF_row hm hn q.2 w w hw, if_pos rfl] at e
        have h0 : hat q.2 (fun _ => (0 : ℝ)) w b = 0 := by simp [hat]
        rw [h0] at e
        have hne : (m ! : ℝ) ≠ 0 := by exact_mod_cast (Nat.factorial_pos m).ne'
        exact (mul_eq_zero.1 e.symm).resolve_left hne
      · intro c _ hc
        rw [symF_row hm hn q.2 w c hw, if_neg hc, zero_mul]
      · simp
    ext a b
    have hs : ∑ y, rho q.2 y w a * (rho q.2 y * hat q.2 u) w b = 0 := Finset.sum_eq_zero fun y _ => by rw [hz, mul_zero]
    simp only [Matrix.mul_apply, Finset.mul_sum] at hs
    rw [Finset.sum_comm, Finset.sum_eq_single a] at hs
    · simp only [← mul_assoc] at hs
      rw [← Finset.sum_mul, orthogonality_eq, if_pos ⟨rfl, rfl⟩] at hs
      refine (mul_eq_zero.1 hs).resolve_left ?_
      have h1 : (n ! : ℝ) ≠ 0 := by exact_mod_cast (Nat.factorial_pos n).ne'
      have h2 : (Fintype.card (Wd n q.1) : ℝ) ≠ 0 := by exact_mod_cast (card_Wd_pos q.2).ne'
      exact div_ne_zero h1 h2
    · intro c _ hc
      simp only [← mul_assoc]
      rw [← Finset.sum_mul, orthogonality_eq, if_neg fun e => hc e.2.symm, zero_mul]
    · simp
  · intro h x y
    have : (fun x => ∑ s ∈ symF n m, u (x * s * y)) = fun _ => 0 := hat_injective fun q => by
      rw [hat_double]
      have h0 : hat q.2 (fun _ => (0 : ℝ)) = 0 := by ext a b; simp [hat]
      rw [h0]
      by_cases hq : m ≤ row q.1 0
      · rw [h q hq, mul_zero]
      · rw [sum_symF_zero (by omega) hn q.2, zero_mul, zero_mul]
    exact congrFun this x

end

/-- some permutation takes the last places onto given ones -/
theorem exists_cover {k : Nat} (hk : k ≤ n) (i : Fin k → Fin n) : ∃ y : Equiv.Perm (Fin n), ∀ a, ∃ b : Fin n, n - k ≤ (b : Nat) ∧ y b = i a := by
  classical
  obtain ⟨T, hT, hc⟩ := Finset.exists_superset_card_eq (s := Finset.univ.image i) (n := k)
    (Finset.card_image_le.trans (by simp)) (by simpa using hk)
  have hcard : Fintype.card {b : Fin n // n - k ≤ (b : Nat)} = Fintype.card {b : Fin n // b ∈ T} := by
    rw [Fintype.card_subtype, Fintype.card_coe, hc]
    have e : (Finset.univ.filter fun b : Fin n => n - k ≤ (b : Nat)) = Finset.univ.image (fun a : Fin k => (⟨n - k + a, by omega⟩ : Fin n)) := by
      ext b
      simp only [Finset.mem_filter, Finset.mem_univ, true_and, Finset.mem_image]
      constructor
      · intro hb
        exact ⟨⟨b - (n - k), by omega⟩, Fin.ext (by simp; omega)⟩
      · rintro ⟨a, rfl⟩; simp
    rw [e, Finset.card_image_of_injective _ fun a a' h => by
      have := congrArg Fin.val h
      exact Fin.ext (by simpa using this)]
    simp
  let e := Fintype.equivOfCardEq hcard
  refine ⟨e.extendSubtype, fun a => ?_⟩
  have ha : i a ∈ T := hT (Finset.mem_image_of_mem i (Finset.mem_univ a))
  refine ⟨(e.symm ⟨i a, ha⟩).1, (e.symm ⟨i a, ha⟩).2, ?_⟩
  rw [Equiv.extendSubtype_apply_of_mem e _ (e.symm ⟨i a, ha⟩).2]
  simp

/-- permutations of the first places, moved elsewhere, do not change what a permutation does to given places -/
theorem fix_places {k : Nat} {i : Fin k → Fin n} {y : Equiv.Perm (Fin n)} (hy : ∀ a, ∃ b : Fin n, n - k ≤ (b : Nat) ∧ y b = i a)
    {s : Equiv.Perm (Fin n)} (hs : s ∈ symF n (n - k)) (σ : Equiv.Perm (Fin n)) : (fun a => (σ * (y * s * y⁻¹)) (i a)) = fun a => σ (i a) := by
  funext a
  obtain ⟨b, hb, e⟩ := hy a
  rw [← e]
  simp [mem_symF.1 hs b hb]

theorem sum_fix {k : Nat} {i : Fin k → Fin n} {y : Equiv.Perm (Fin n)} (hy : ∀ a, ∃ b : Fin n, n - k ≤ (b : Nat) ∧ y b = i a)
    (u : Equiv.Perm (Fin n) → ℝ) (j : Fin k → Fin n) {s : Equiv.Perm (Fin n)} (hs : s ∈ symF n (n - k)) :
    ∑ σ ∈ Finset.univ.filter (fun σ : Equiv.Perm (Fin n) => (fun a => σ (i a)) = j), u (σ * (y * s * y⁻¹)) = marginal u i j := by
  unfold marginal
  refine Finset.sum_bij' (fun σ _ => σ * (y * s * y⁻¹)) (fun σ _ => σ * (y * s⁻¹ * y⁻¹)) (fun σ hσ => ?_) (fun σ hσ => ?_) ?_ ?_ fun _ _ => rfl
  · rw [Finset.mem_filter] at hσ ⊢
    rw [fix_places hy hs]; exact ⟨Finset.mem_univ _, hσ.2⟩
  · rw [Finset.mem_filter] at hσ ⊢
    rw [fix_places hy (symF_inv hs)]; exact ⟨Finset.mem_univ _, hσ.2⟩
  · intro σ _; group
  · intro σ _; group

theorem symF_card {m : Nat} (hm : m ≤ n) : ((symF n m).card : ℝ) = m ! := by
  have := sum_symF hm fun _ => 1
  simpa using this

/-- all marginals vanish exactly if the sums over double cosets do -/
theorem marginal_zero_iff {k : Nat} (hk : k ≤ n) (u : Equiv.Perm (Fin n) → ℝ) :
    (∀ i j : Fin k → Fin n, marginal u i j = 0) ↔ ∀ x y, ∑ s ∈ symF n (n - k), u (x * s * y) = 0 := by
  constructor
  · intro h x y
    rw [← h (fun a => y⁻¹ ⟨n - k + a, by omega⟩) fun a => x ⟨n - k + a, by omega⟩]
    unfold marginal
    refine Finset.sum_bij' (fun s _ => x * s * y) (fun σ _ => x⁻¹ * σ * y⁻¹) (fun s hs => ?_) (fun σ hσ => ?_) ?_ ?_ fun _ _ => rfl
    · rw [Finset.mem_filter]
      refine ⟨Finset.mem_univ _, funext fun a => ?_⟩
      have := mem_symF.1 hs ⟨n - k + a, by omega⟩ (by simp)
      simp [this]
    · rw [Finset.mem_filter] at hσ
      rw [mem_symF]
      intro b hb
      have := congrFun hσ.2 ⟨b - (n - k), by omega⟩
      have e : (⟨n - k + (b - (n - k)), by omega⟩ : Fin n) = b := Fin.ext (by simp; omega)
      simp only [e] at this
      rw [Equiv.Perm.mul_apply, Equiv.Perm.mul_apply, this, Equiv.Perm.inv_eq_iff_eq]
    · intro s _; group
    · intro s _; group
  · intro h i j
    obtain ⟨y, hy⟩ := exists_cover hk i
    have e : ∑ s ∈ symF n (n - k), marginal u i j = 0 := by
      rw [Finset.sum_congr rfl fun s hs => (sum_fix hy u j hs).symm, Finset.sum_comm]
      refine Finset.sum_eq_zero fun σ _ => ?_
      rw [← h (σ * y) y⁻¹]
      exact Finset.sum_congr rfl fun s _ => by rw [mul_assoc σ, mul_assoc σ]
    rw [Finset.sum_const, nsmul_eq_mul, symF_card (by omega)] at e
    exact (mul_eq_zero.1 e).resolve_left (by exact_mod_cast (Nat.factorial_pos _).ne')

theorem marginal_zero_hat {k : Nat} (hk : k < n) (u : Equiv.Perm (Fin n) → ℝ) :
    (∀ i j : Fin k → Fin n, marginal u i j = 0) ↔ ∀ q : Pt n, n - k ≤ row q.1 0 → hat q.2 u = 0 := by
  rw [marginal_zero_iff (by omega), double_zero_iff (by omega) (by omega)]

theorem marginal_sub {k : Nat} (u v : Equiv.Perm (Fin n) → ℝ) (i j : Fin k → Fin n) :
    marginal (fun σ => u σ - v σ) i j = marginal u i j - marginal v i j := Finset.sum_sub_distrib _ _

theorem hat_sub' {p : List Nat} (hp : IsPartition n p) (u v : Equiv.Perm (Fin n) → ℝ) : hat hp (fun σ => u σ - v σ) = hat hp u - hat hp v := by
  ext a b
  simp only [hat, Matrix.sub_apply, sub_mul, Finset.sum_sub_distrib]

/-- **marginals and parts** -/
theorem marginal_hat {k : Nat} (hk : k < n) (u v : Equiv.Perm (Fin n) → ℝ) :
    (∀ i j : Fin k → Fin n, marginal u i j = marginal v i j) ↔ ∀ q : Pt n, n - k ≤ row q.1 0 → hat q.2 u = hat q.2 v := by
  have := marginal_zero_hat hk fun σ => u σ - v σ
  simpa only [marginal_sub, hat_sub', sub_eq_zero] using this

/-- a function of the images of `k` places has no parts with a short first row -/
theorem hat_places {k : Nat} (hk : k < n) (i : Fin k → Fin n) (g : (Fin k → Fin n) → ℝ) (q : Pt n) (hq : row q.1 0 < n - k) :
    hat q.2 (fun σ => g fun a => σ (i a)) = 0 := by
  obtain ⟨y, hy⟩ := exists_cover hk.le i
  have h1 : ∀ s ∈ symF n (n - k), hat q.2 (fun σ => g fun a => σ (i a)) = rho q.2 y * rho q.2 s * (rho q.2 y⁻¹ * hat q.2 (fun σ => g fun a => σ (i a))) := by
    intro s hs
    rw [← mul_assoc, ← map_mul, ← map_mul, hat_eq, Finset.mul_sum]
    symm
    refine Fintype.sum_equiv (Equiv.mulRight (y * s⁻¹ * y⁻¹)) _ _ fun σ => ?_
    rw [Equiv.coe_mulRight]
    beta_reduce
    rw [fix_places hy (symF_inv hs), Matrix.mul_smul, ← map_mul,
      show y * s * y⁻¹ * σ⁻¹ = (σ * (y * s⁻¹ * y⁻¹))⁻¹ by group]
  have h2 : ∑ s ∈ symF n (n - k), hat q.2 (fun σ => g fun a => σ (i a)) = 0 := by
    rw [Finset.sum_congr rfl h1, ← Finset.sum_mul, ← Finset.mul_sum, sum_symF_zero hq (by omega) q.2, mul_zero, zero_mul]
  rw [Finset.sum_const, ← Nat.cast_smul_eq_nsmul ℝ, symF_card (by omega)] at h2
  exact (smul_eq_zero.1 h2).resolve_left (by exact_mod_cast (Nat.factorial_pos _).ne')

/-- **sums of functions of `k` places** -/
theorem places_iff {k : Nat} (hk : k < n) (f : Equiv.Perm (Fin n) → ℝ) :
    SumOfPlaces k f ↔ ∀ q : Pt n, row q.1 0 < n - k → hat q.2 f = 0 := by
  constructor
  · rintro ⟨g, hg⟩ q hq
    have e : hat q.2 f = ∑ i, hat q.2 (fun σ => g i fun a => σ (i a)) := by
      rw [show f = fun σ => ∑ i, g i fun a => σ (i a) from funext hg]
      simp only [hat_eq, Finset.sum_smul]
      rw [Finset.sum_comm]
    rw [e]
    exact Finset.sum_eq_zero fun i _ => hat_places hk i (g i) q hq
  · intro h
    let S : Submodule ℝ (Equiv.Perm (Fin n) → ℝ) :=
      { carrier := {f | ∃ g : (Fin k → Fin n) → (Fin k → Fin n) → ℝ, ∀ σ : Equiv.Perm (Fin n), f σ = ∑ i, g i fun a => σ (i a)}
        zero_mem' := ⟨fun _ _ => 0, by simp⟩
        add_mem' := by
          rintro a b ⟨g, hg⟩ ⟨g', hg'⟩
          exact ⟨fun i j => g i j + g' i j, fun σ => by rw [Pi.add_apply, hg, hg', Finset.sum_add_distrib]⟩
        smul_mem' := by
          rintro c a ⟨g, hg⟩
          exact ⟨fun i j => c * g i j, fun σ => by rw [Pi.smul_apply, hg, smul_eq_mul, Finset.mul_sum]⟩ }
    change f ∈ S
    by_contra hf
    obtain ⟨phi, h1, h2⟩ := Submodule.exists_le_ker_of_notMem hf
    set u : Equiv.Perm (Fin n) → ℝ := fun σ => phi (Pi.single σ 1) with hu
    have hphi : ∀ g : Equiv.Perm (Fin n) → ℝ, phi g = ∑ σ, u σ * g σ := fun g => by
      rw [LinearMap.pi_apply_eq_sum_univ phi g]
      refine Finset.sum_congr rfl fun σ _ => ?_
      rw [smul_eq_mul, mul_comm, hu]
      congr 2
      funext τ
      rw [Pi.single_apply]
      simp [eq_comm]
    have hmz : ∀ i j : Fin k → Fin n, marginal u i j = 0 := fun i j => by
      have hmem : (fun σ : Equiv.Perm (Fin n) => if (fun a => σ (i a)) = j then (1 : ℝ) else 0) ∈ S :=
        ⟨fun i' j' => if i' = i then (if j' = j then 1 else 0) else 0, fun σ => by
          rw [Finset.sum_eq_single i (fun i' _ hi => if_neg hi) (by simp)]
          exact (if_pos rfl).symm⟩
      have := LinearMap.mem_ker.1 (h2 hmem)
      rw [hphi] at this
      unfold marginal
      rw [Finset.sum_filter]
      exact (Finset.sum_congr rfl fun σ _ => by rw [mul_ite, mul_one, mul_zero]).trans this
    have hz := (marginal_zero_hat hk u).1 hmz
    have hp := plancherel_group u f
    rw [Finset.sum_eq_zero] at hp
    · rw [← hphi] at hp
      refine h1 ((mul_eq_zero.1 hp.symm).resolve_left ?_)
      exact_mod_cast (Nat.factorial_pos n).ne'
    · intro q _
      rw [Finset.sum_eq_zero, mul_zero]
      intro w _
      refine Finset.sum_eq_zero fun v _ => ?_
      by_cases hq : n - k ≤ row q.1 0
      · have := congrFun (congrFun (hz q hq) v) w
        unfold hat at this
        rw [this]; simp
      · have := congrFun (congrFun (h q (by omega)) v) w
        unfold hat at this
        rw [this]; simp

/-- functions without common parts are orthogonal -/
theorem dot_zero (u f : Equiv.Perm (Fin n) → ℝ) (h : ∀ q : Pt n, hat q.2 u = 0 ∨ hat q.2 f = 0) : ∑ σ, u σ * f σ = 0 := by
  have hp := plancherel_group u f
  rw [Finset.sum_eq_zero] at hp
  · exact (mul_eq_zero.1 hp.symm).resolve_left (by exact_mod_cast (Nat.factorial_pos n).ne')
  · intro q _
    rw [Finset.sum_eq_zero, mul_zero]
    intro w _
    refine Finset.sum_eq_zero fun v _ => ?_
    rcases h q with hz | hz
    · have := congrFun (congrFun hz v) w
      unfold hat at this
      rw [this]; simp
    · have := congrFun (congrFun hz v) w
      unfold hat at this
      rw [this]; simp

/-- leaving out the parts with a short first row gives the nearest sum of functions of `k` places -/
theorem truncate_nearest {k : Nat} (hk : k < n) (f g h : Equiv.Perm (Fin n) → ℝ)
    (h1 : ∀ q : Pt n, n - k ≤ row q.1 0 → hat q.2 g = hat q.2 f) (h2 : ∀ q : Pt n, row q.1 0 < n - k → hat q.2 g = 0)
    (hh : SumOfPlaces k h) : ∑ σ, (f σ - h σ) ^ 2 = ∑ σ, (f σ - g σ) ^ 2 + ∑ σ, (g σ - h σ) ^ 2 := by
  have hz : ∑ σ, (f σ - g σ) * (g σ - h σ) = 0 := dot_zero _ _ fun q => by
    rw [hat_sub', hat_sub']
    rcases Nat.lt_or_ge (row q.1 0) (n - k) with hq | hq
    · right
      rw [h2 q hq, (places_iff hk h).1 hh q hq, sub_zero]
    · left
      rw [h1 q hq, sub_self]
  rw [← Finset.sum_add_distrib]
  have : ∑ σ, (f σ - h σ) ^ 2 = ∑ σ, ((f σ - g σ) ^ 2 + (g σ - h σ) ^ 2) + 2 * ∑ σ, (f σ - g σ) * (g σ - h σ) := by
    rw [Finset.mul_sum, ← Finset.sum_add_distrib]
    exact Finset.sum_congr rfl fun σ _ => by ring
  rw [this, hz, mul_zero, add_zero]

end Snob
