import Verif.Proofs.FloatChar
import Verif.Proofs.CG
import Verif.Proofs.CGSmall

/-! # Rounding in the Kronecker coefficients -/

namespace Snob

open IP
open scoped Nat

/-! ### bounds for characters -/

section
variable {n : Nat} {p q r : List Nat}

theorem abs_rho_le (hp : IsPartition n p) (σ : Equiv.Perm (Fin n)) (w : Wd n p) : |rho hp σ w w| ≤ 1 := by
  have h2 := congrFun (congrFun (rho_orthogonal hp σ) w) w
  rw [Matrix.mul_apply, Matrix.one_apply_eq] at h2
  simp only [Matrix.transpose_apply] at h2
  have h3 := Finset.single_le_sum (f := fun x => rho hp σ w x * rho hp σ w x) (fun i _ => mul_self_nonneg _) (Finset.mem_univ w)
  simp only [h2] at h3
  exact abs_le_one_iff_mul_self_le_one.2 h3

theorem abs_chi_le (hp : IsPartition n p) (σ : Equiv.Perm (Fin n)) : |chi hp σ| ≤ (words n p).length := by
  rw [← card_Wd hp]
  unfold chi Matrix.trace
  refine (Finset.abs_sum_le_sum_abs _ _).trans ?_
  refine (Finset.sum_le_sum fun w _ => abs_rho_le hp σ w).trans ?_
  simp

theorem sum_chi_sq (hp : IsPartition n p) : ∑ σ, chi hp σ * chi hp σ = (n ! : ℝ) := by
  rw [chi_orthogonality, if_pos rfl]

theorem sum_abs_chi (hp : IsPartition n p) : ∑ σ, |chi hp σ| ≤ (n ! : ℝ) := by
  have h : ∀ σ ∈ (Finset.univ : Finset (Equiv.Perm (Fin n))), |chi hp σ| ≤ (chi hp σ * chi hp σ + 1) / 2 := fun σ _ => by
    have := abs_mul_abs_self (chi hp σ)
    nlinarith [mul_self_nonneg (|chi hp σ| - 1)]
  refine (Finset.sum_le_sum h).trans ?_
  rw [← Finset.sum_div, Finset.sum_add_distrib, sum_chi_sq, Finset.sum_const, Finset.card_univ, Fintype.card_perm, Fintype.card_fin]
  simp

theorem sum_abs_chi2 (hp : IsPartition n p) (hq : IsPartition n q) : ∑ σ, |chi hp σ| * |chi hq σ| ≤ (n ! : ℝ) := by
  have h : ∀ σ ∈ (Finset.univ : Finset (Equiv.Perm (Fin n))), |chi hp σ| * |chi hq σ| ≤ (chi hp σ * chi hp σ + chi hq σ * chi hq σ) / 2 := fun σ _ => by
    have h1 := abs_mul_abs_self (chi hp σ)
    have h2 := abs_mul_abs_self (chi hq σ)
    nlinarith [mul_self_nonneg (|chi hp σ| - |chi hq σ|)]
  refine (Finset.sum_le_sum h).trans ?_
  rw [← Finset.sum_div, Finset.sum_add_distrib, sum_chi_sq, sum_chi_sq]
  linarith

theorem dim_sq_le (hp : IsPartition n p) : (words n p).length * (words n p).length ≤ n ! := by
  have h := Finset.single_le_sum (f := fun σ => chi hp σ * chi hp σ) (fun i _ => mul_self_nonneg _) (Finset.mem_univ 1)
  rw [sum_chi_sq, chi_id] at h
  exact_mod_cast h

/-- the sum of the products with an error in each factor -/
theorem sum_widened (hp : IsPartition n p) (hq : IsPartition n q) (hr : IsPartition n r) {δ D : ℝ} (hδ : 0 ≤ δ)
    (hD : ((words n p).length : ℝ) ≤ D) :
    ∑ σ, ((|chi hp σ| + δ) * (|chi hq σ| + δ) * (|chi hr σ| + δ) - |chi hp σ| * |chi hq σ| * |chi hr σ|) ≤ ((1 + δ) ^ 3 - 1) * (n ! : ℝ) ∧
    ∑ σ, (|chi hp σ| + δ) * (|chi hq σ| + δ) * (|chi hr σ| + δ) ≤ (D + ((1 + δ) ^ 3 - 1)) * (n ! : ℝ) := by
  have h1 : ∑ σ, ((|chi hp σ| + δ) * (|chi hq σ| + δ) * (|chi hr σ| + δ) - |chi hp σ| * |chi hq σ| * |chi hr σ|) ≤ ((1 + δ) ^ 3 - 1) * (n ! : ℝ) := by
    have e : ∀ σ ∈ (Finset.univ : Finset (Equiv.Perm (Fin n))),
        (|chi hp σ| + δ) * (|chi hq σ| + δ) * (|chi hr σ| + δ) - |chi hp σ| * |chi hq σ| * |chi hr σ| =
        δ * (|chi hp σ| * |chi hq σ|) + δ * (|chi hp σ| * |chi hr σ|) + δ * (|chi hq σ| * |chi hr σ|) +
          δ ^ 2 * |chi hp σ| + δ ^ 2 * |chi hq σ| + δ ^ 2 * |chi hr σ| + δ ^ 3 := fun σ _ => by ring
    rw [Finset.sum_congr rfl e]
    simp only [Finset.sum_add_distrib, ← Finset.mul_sum, Finset.sum_const, Finset.card_univ, Fintype.card_perm, Fintype.card_fin, nsmul_eq_mul]
    have a1 := mul_le_mul_of_nonneg_left (sum_abs_chi2 hp hq) hδ
    have a2 := mul_le_mul_of_nonneg_left (sum_abs_chi2 hp hr) hδ
    have a3 := mul_le_mul_of_nonneg_left (sum_abs_chi2 hq hr) hδ
    have hδ2 : 0 ≤ δ ^ 2 := by positivity
    have b1 := mul_le_mul_of_nonneg_left (sum_abs_chi hp) hδ2
    have b2 := mul_le_mul_of_nonneg_left (sum_abs_chi hq) hδ2
    have b3 := mul_le_mul_of_nonneg_left (sum_abs_chi hr) hδ2
    nlinarith
  refine ⟨h1, ?_⟩
  have h2 : ∑ σ, |chi hp σ| * |chi hq σ| * |chi hr σ| ≤ D * (n ! : ℝ) := by
    have e : ∀ σ ∈ (Finset.univ : Finset (Equiv.Perm (Fin n))), |chi hp σ| * |chi hq σ| * |chi hr σ| ≤ D * (|chi hq σ| * |chi hr σ|) := fun σ _ => by
      rw [mul_assoc]
      exact mul_le_mul_of_nonneg_right ((abs_chi_le hp σ).trans hD) (by positivity)
    refine (Finset.sum_le_sum e).trans ?_
    rw [← Finset.mul_sum]
    exact mul_le_mul_of_nonneg_left (sum_abs_chi2 hq hr) ((Nat.cast_nonneg _).trans hD)
  rw [Finset.sum_sub_distrib] at h1
  linarith

/-- a sum over the classes as a sum over the group -/
theorem classSum_of (hn : 1 ≤ n) (hp : IsPartition n p) (hq : IsPartition n q) (hr : IsPartition n r) (G : ℝ → ℝ → ℝ → ℝ) :
    ((partitions n).map fun mu => G (chiVal n p mu) (chiVal n q mu) (chiVal n r mu) * (ccard n mu : ℝ)).sum =
      ∑ σ, G (chi hp σ) (chi hq σ) (chi hr σ) := by
  rw [sum_pt hn, sum_by_class]
  refine Finset.sum_congr rfl fun mu _ => ?_
  rw [Finset.sum_congr rfl (g := fun _ => G (chiAt hp mu.1) (chiAt hq mu.1) (chiAt hr mu.1)), Finset.sum_const, nsmul_eq_mul,
    chiVal_at hp, chiVal_at hq, chiVal_at hr, mul_comm]
  · rfl
  · intro σ hσ
    have hσ' := (hasCycleType_iff mu.2 σ).2 (Finset.mem_filter.1 hσ).2
    rw [chi_class hp mu.2 hσ' (hasCycleType_block mu.2), chi_class hq mu.2 hσ' (hasCycleType_block mu.2),
      chi_class hr mu.2 hσ' (hasCycleType_block mu.2)]
    rfl

end

/-! ### the loop -/

section
variable {F : Rounding} {u : ℝ}

theorem term_err (hs : RelErr u F.s) (hu : 0 ≤ u) {x y z m : ℝ} (hm : 0 ≤ m) :
    |F.s (F.s (F.s (x * y) * z) * F.s m) - x * y * z * m| ≤ ((1 + u) ^ 4 - 1) * (|x * y * z| * m) := by
  have h1 : |F.s (x * y) * z - x * y * z| ≤ u * |x * y * z| := by
    rw [← sub_mul, abs_mul, abs_mul (x * y)]
    have := mul_le_mul_of_nonneg_right (hs (x * y)) (abs_nonneg z)
    linarith
  have h2 := hs.le hu h1 le_rfl
  have h3 := hs m
  rw [abs_of_nonneg hm] at h3
  set P := F.s (F.s (x * y) * z)
  set w := |x * y * z|
  have hw : 0 ≤ w := abs_nonneg _
  have h4 : |F.s m| ≤ (1 + u) * m := by
    have := abs_add_le m (F.s m - m)
    rw [add_sub_cancel, abs_of_nonneg hm] at this
    linarith
  have h5 : |P * F.s m - x * y * z * m| ≤ ((1 + u) ^ 3 - 1) * (w * m) := by
    have e : P * F.s m - x * y * z * m = (P - x * y * z) * F.s m + x * y * z * (F.s m - m) := by ring
    rw [e]
    have a := abs_add_le ((P - x * y * z) * F.s m) (x * y * z * (F.s m - m))
    rw [abs_mul, abs_mul (x * y * z)] at a
    have b := mul_le_mul h2 h4 (abs_nonneg _) (by positivity)
    have c := mul_le_mul_of_nonneg_left h3 hw
    have e2 : ((1 + u) ^ 3 - 1) * (w * m) = (u + u * (1 + u)) * w * ((1 + u) * m) + w * (u * m) := by ring
    rw [e2]
    linarith
  have h6 : |x * y * z * m| ≤ w * m := by rw [abs_mul, abs_of_nonneg hm]
  have := hs.le hu h5 h6
  refine this.trans (le_of_eq ?_)
  ring

theorem sumLoop_foldl {n : Nat} (hn : 1 ≤ n) (g1 g2 g3 : List Nat → ℝ) (L : List (List Nat)) (hL : ∀ mu ∈ L, IsPartition n mu) (t : ℝ) :
    F.sumLoop n L (L.map g1) (L.map g2) (L.map g3) t =
      some (L.foldl (fun t mu => F.s (t + F.s (F.s (F.s (g1 mu * g2 mu) * g3 mu) * F.s (ccard n mu)))) t) := by
  induction L generalizing t with
  | nil => rfl
  | cons mu L ih =>
    have hmu := hL mu (by simp)
    simp only [List.map_cons, Rounding.sumLoop, classSize_card hn hmu, Option.bind_eq_bind, Option.bind_some]
    rw [ih (fun nu h => hL nu (by simp [h]))]
    rfl

theorem foldl_err (hs : RelErr u F.s) (hu : 0 ≤ u) (T : List Nat → ℝ) (E W : List Nat → ℝ) (L : List (List Nat))
    (hT : ∀ mu ∈ L, |T mu - E mu| ≤ ((1 + u) ^ 4 - 1) * W mu ∧ |E mu| ≤ W mu) (j : Nat) (t S0 W0 : ℝ)
    (h0 : |t - S0| ≤ ((1 + u) ^ (j + 4) - 1) * W0) (h1 : |S0| ≤ W0) :
    |L.foldl (fun t mu => F.s (t + T mu)) t - (S0 + (L.map E).sum)| ≤ ((1 + u) ^ (j + L.length + 4) - 1) * (W0 + (L.map W).sum) ∧
      |S0 + (L.map E).sum| ≤ W0 + (L.map W).sum := by
  induction L generalizing j t S0 W0 with
  | nil => simp only [List.foldl_nil, List.map_nil, List.sum_nil, add_zero, List.length_nil]; exact ⟨h0, h1⟩
  | cons mu L ih =>
    obtain ⟨a, b⟩ := hT mu (by simp)
    have hW0 : 0 ≤ W0 := (abs_nonneg _).trans h1
    have hW : 0 ≤ W mu := (abs_nonneg _).trans b
    have hy : |S0 + E mu| ≤ W0 + W mu := (abs_add_le _ _).trans (add_le_add h1 b)
    have hx : |t + T mu - (S0 + E mu)| ≤ ((1 + u) ^ (j + 4) - 1) * (W0 + W mu) := by
      have e : t + T mu - (S0 + E mu) = (t - S0) + (T mu - E mu) := by ring
      rw [e]
      have c := abs_add_le (t - S0) (T mu - E mu)
      have d : (1 + u) ^ 4 ≤ (1 + u) ^ (j + 4) := pow_le_pow_right₀ (by linarith) (by omega)
      have := mul_le_mul_of_nonneg_right d hW
      nlinarith
    have hz := hs.le hu hx hy
    have e1 : ((1 + u) ^ (j + 4) - 1) + u * (1 + ((1 + u) ^ (j + 4) - 1)) = (1 + u) ^ (j + 1 + 4) - 1 := by
      rw [show j + 1 + 4 = (j + 4) + 1 by omega, pow_succ]; ring
    rw [e1] at hz
    have := ih (fun nu h => hT nu (by simp [h])) (j + 1) _ _ _ hz hy
    rw [List.foldl_cons, List.map_cons, List.map_cons, List.sum_cons, List.sum_cons, List.length_cons, ← add_assoc S0, ← add_assoc W0,
      show j + (L.length + 1) + 4 = j + 1 + L.length + 4 by omega]
    exact this

theorem div_err (hs : RelErr u F.s) (hu : 0 ≤ u) (hu1 : u < 1) {t S W m g : ℝ} (hm : 0 < m) (h : |t - S| ≤ (g - 1) * W) (hS : |S| ≤ W)
    (hg : 1 ≤ g) : |F.s (t / F.s m) - S / m| ≤ (g * (1 + u) / (1 - u) - 1) * (W / m) := by
  have hW : 0 ≤ W := (abs_nonneg _).trans hS
  have h1 := hs m
  rw [abs_of_pos hm] at h1
  obtain ⟨h2, h3⟩ := abs_le.1 h1
  have hu' : 0 < 1 - u := by linarith
  have hpos : (1 - u) * m ≤ F.s m := by linarith
  have hpos' : 0 < (1 - u) * m := mul_pos hu' hm
  have hM : 0 < F.s m := lt_of_lt_of_le hpos' hpos
  have key : |t / F.s m - S / m| ≤ (g / (1 - u) - 1) * (W / m) := by
    have e : t / F.s m - S / m = ((t - S) + S * ((m - F.s m) / m)) / F.s m := by
      field_simp
      ring
    rw [e, abs_div, abs_of_pos hM]
    have a : |(t - S) + S * ((m - F.s m) / m)| ≤ (g - 1 + u) * W := by
      refine (abs_add_le _ _).trans ?_
      rw [abs_mul, abs_div, abs_of_pos hm, abs_sub_comm m]
      have : |F.s m - m| / m ≤ u := by rw [div_le_iff₀ hm]; exact h1
      have := mul_le_mul hS this (by positivity) hW
      linarith
    have b : (g - 1 + u) * W / F.s m ≤ (g - 1 + u) * W / ((1 - u) * m) :=
      div_le_div_of_nonneg_left (mul_nonneg (by linarith) hW) hpos' hpos
    refine (div_le_div_of_nonneg_right a hM.le).trans (b.trans (le_of_eq ?_))
    field_simp
    ring
  have hy : |S / m| ≤ W / m := by
    rw [abs_div, abs_of_pos hm]
    exact div_le_div_of_nonneg_right hS hm.le
  refine (hs.le hu key hy).trans (le_of_eq ?_)
  ring

end

/-! ### the coefficient -/

/-- how far the `float` of `coeff` can be from the coefficient -/
noncomputable def kronErr (u v : ℝ) (n N D : Nat) : ℝ :=
  ((1 + u) ^ (N + 5) / (1 - u) - 1) * (D + ((1 + charErr u v n D) ^ 3 - 1)) + ((1 + charErr u v n D) ^ 3 - 1)

theorem stepErr_nonneg {u v : ℝ} (hu : 0 ≤ u) (h0 : 0 ≤ v) : 0 ≤ stepErr u v := by
  unfold stepErr; have := cellErr_nonneg hu h0; positivity

theorem charErr_mono {u v : ℝ} (hu : 0 ≤ u) (h0 : 0 ≤ v) {n m d e : Nat} (hn : n ≤ m) (hd : d ≤ e) : charErr u v n d ≤ charErr u v m e := by
  have hse := stepErr_nonneg hu h0
  unfold charErr
  have h1 : (1 + u) ^ d ≤ (1 + u) ^ e := pow_le_pow_right₀ (by linarith) hd
  have h2 : (1 + stepErr u v) ^ n ≤ (1 + stepErr u v) ^ m := pow_le_pow_right₀ (by linarith) hn
  have h3 : 1 ≤ (1 + u) ^ d := one_le_pow₀ (by linarith)
  have h4 : 1 ≤ (1 + stepErr u v) ^ n := one_le_pow₀ (by linarith)
  have h5 : (1 + u) ^ d * (1 + stepErr u v) ^ n ≤ (1 + u) ^ e * (1 + stepErr u v) ^ m := mul_le_mul h1 h2 (by linarith) (by linarith)
  have h6 : (d : ℝ) ≤ e := by exact_mod_cast hd
  refine mul_le_mul h6 (by linarith) ?_ (by positivity)
  nlinarith

theorem charErr_nonneg {u v : ℝ} (hu : 0 ≤ u) (h0 : 0 ≤ v) (n d : Nat) : 0 ≤ charErr u v n d := by
  have := charErr_mono hu h0 (Nat.zero_le n) (Nat.zero_le d)
  unfold charErr at this ⊢
  simpa using this

theorem kronErr_mono {u v : ℝ} (hu : 0 ≤ u) (hu1 : u < 1) (h0 : 0 ≤ v) {n m N M d e : Nat} (hn : n ≤ m) (hN : N ≤ M) (hd : d ≤ e) :
    kronErr u v n N d ≤ kronErr u v m M e := by
  have h1 := charErr_mono hu h0 hn hd
  have h2 := charErr_nonneg hu h0 n d
  have hu' : 0 < 1 - u := by linarith
  unfold kronErr
  have h3 : (1 + charErr u v n d) ^ 3 ≤ (1 + charErr u v m e) ^ 3 := pow_le_pow_left₀ (by linarith) (by linarith) 3
  have h4 : (1 : ℝ) ≤ (1 + charErr u v n d) ^ 3 := one_le_pow₀ (by linarith)
  have h5 : (1 + u) ^ (N + 5) / (1 - u) ≤ (1 + u) ^ (M + 5) / (1 - u) :=
    div_le_div_of_nonneg_right (pow_le_pow_right₀ (by linarith) (by omega)) hu'.le
  have h6 : (d : ℝ) ≤ e := by exact_mod_cast hd
  have h7 : 1 ≤ (1 + u) ^ (N + 5) / (1 - u) := by
    rw [le_div_iff₀ hu']
    have : (1 : ℝ) ≤ (1 + u) ^ (N + 5) := one_le_pow₀ (by linarith)
    linarith
  have h8 : (0 : ℝ) ≤ d := Nat.cast_nonneg d
  have := mul_le_mul (by linarith : (1 + u) ^ (N + 5) / (1 - u) - 1 ≤ (1 + u) ^ (M + 5) / (1 - u) - 1)
    (by linarith : (d : ℝ) + ((1 + charErr u v n d) ^ 3 - 1) ≤ e + ((1 + charErr u v m e) ^ 3 - 1)) (by linarith) (by linarith)
  linarith

section
variable {n : Nat} {F : Rounding}

theorem near_chars (hn : 1 ≤ n) {p : List Nat} (hp : IsPartition n p) (hodd : Odd' F.d) {u v : ℝ} (hs : RelErr u F.s) (hd : RelErr v F.d)
    (hu : 0 ≤ u) (h0 : 0 ≤ v) (hv : v ≤ 1 / 2) {D : Nat} (hD : (words n p).length ≤ D) :
    ∃ g : List Nat → ℝ, F.chars n p = some ((partitions n).map g) ∧
      ∀ mu ∈ partitions n, |g mu - chiVal n p mu| ≤ charErr u v n D := by
  obtain ⟨R, hR, -, h⟩ := exists_repr hn hp
  choose! g hg using fun mu (hmu : IsPartition n mu) => h.near_character hodd hs hd hu h0 hv hmu
  refine ⟨g, ?_, fun mu hmu => ?_⟩
  · unfold Rounding.chars
    rw [F.mkIrrep_map, hR]
    exact mapM_map _ _ _ fun mu hmu => (hg mu ((mem_partitions n hn _).1 hmu)).1
  · rw [chiVal_at hp]
    refine ((hg mu ((mem_partitions n hn _).1 hmu)).2).trans (charErr_mono hu h0 le_rfl ?_)
    rw [h.d_eq]; exact hD

theorem near_coeff (hn : 1 ≤ n) {a b c : List Nat} (ha : IsPartition n a) (hb : IsPartition n b) (hc : IsPartition n c) (hodd : Odd' F.d)
    {u v : ℝ} (hs : RelErr u F.s) (hd : RelErr v F.d) (hu : 0 ≤ u) (hu1 : u < 1) (h0 : 0 ≤ v) (hv : v ≤ 1 / 2) {D : Nat}
    (hDa : (words n a).length ≤ D) (hDb : (words n b).length ≤ D) (hDc : (words n c).length ≤ D) :
    ∃ t, F.coeffFloat a b c = some t ∧ |t - kronN n a b c| ≤ kronErr u v n (partitions n).length D := by
  obtain ⟨x, ex, hx⟩ := near_chars hn ha hodd hs hd hu h0 hv hDa
  obtain ⟨y, ey, hy⟩ := near_chars hn hb hodd hs hd hu h0 hv hDb
  obtain ⟨z, ez, hz⟩ := near_chars hn hc hodd hs hd hu h0 hv hDc
  have hsum : IP.getn a = n := by rw [getn_eq, ha.sum]
  have hL : ∀ mu ∈ partitions n, IsPartition n mu := fun mu h => (mem_partitions n hn _).1 h
  set δ := charErr u v n D
  have hδ : 0 ≤ δ := charErr_nonneg hu h0 n D
  let T : List Nat → ℝ := fun mu => F.s (F.s (F.s (x mu * y mu) * z mu) * F.s (ccard n mu))
  let E : List Nat → ℝ := fun mu => x mu * y mu * z mu * ccard n mu
  let W : List Nat → ℝ := fun mu => (|chiVal n a mu| + δ) * (|chiVal n b mu| + δ) * (|chiVal n c mu| + δ) * ccard n mu
  have wide : ∀ {X Y : ℝ}, |X - Y| ≤ δ → |X| ≤ |Y| + δ := fun {X Y} h => by
    have := abs_add_le Y (X - Y)
    rw [add_sub_cancel] at this
    linarith
  have hT : ∀ mu ∈ partitions n, |T mu - E mu| ≤ ((1 + u) ^ 4 - 1) * W mu ∧ |E mu| ≤ W mu := by
    intro mu hmu
    have hm : (0 : ℝ) ≤ ccard n mu := Nat.cast_nonneg _
    have h1 : |x mu * y mu * z mu| ≤ (|chiVal n a mu| + δ) * (|chiVal n b mu| + δ) * (|chiVal n c mu| + δ) := by
      rw [abs_mul, abs_mul]
      exact mul_le_mul (mul_le_mul (wide (hx mu hmu)) (wide (hy mu hmu)) (abs_nonneg _) (by positivity)) (wide (hz mu hmu)) (abs_nonneg _)
        (by positivity)
    have h2 := mul_le_mul_of_nonneg_right h1 hm
    constructor
    · refine (term_err hs hu hm).trans (mul_le_mul_of_nonneg_left h2 ?_)
      have : (1 : ℝ) ≤ (1 + u) ^ 4 := one_le_pow₀ (by linarith)
      linarith
    · show |x mu * y mu * z mu * ccard n mu| ≤ _
      rw [abs_mul, abs_of_nonneg hm]
      exact h2
  obtain ⟨f1, f2⟩ := foldl_err hs hu T E W (partitions n) hT 0 0 0 0 (by simp) (by simp)
  simp only [zero_add] at f1 f2
  have hf : (0 : ℝ) < (n ! : ℝ) := by exact_mod_cast Nat.factorial_pos n
  have g1 := div_err hs hu hu1 hf f1 f2 (one_le_pow₀ (by linarith))
  refine ⟨F.s ((partitions n).foldl (fun t mu => F.s (t + T mu)) 0 / F.s n !), ?_, ?_⟩
  · unfold Rounding.coeffFloat
    simp only [hsum, ex, ey, ez, Option.bind_eq_bind, Option.bind_some]
    rw [sumLoop_foldl hn x y z _ hL]
    rfl
  · have eW : ((partitions n).map W).sum = ∑ σ, (|chi ha σ| + δ) * (|chi hb σ| + δ) * (|chi hc σ| + δ) :=
      classSum_of hn ha hb hc fun a b c => (|a| + δ) * (|b| + δ) * (|c| + δ)
    obtain ⟨w1, w2⟩ := sum_widened ha hb hc hδ (by exact_mod_cast hDa : ((words n a).length : ℝ) ≤ D)
    -- the sum of the rounded characters and the coefficient
    have hE : |((partitions n).map E).sum / (n ! : ℝ) - kronN n a b c| ≤ (1 + δ) ^ 3 - 1 := by
      rw [← classSum_eq hn ha hb hc, ← sub_div, abs_div, abs_of_pos hf, div_le_iff₀ hf]
      refine le_trans ?_ w1
      rw [← classSum_of hn ha hb hc fun a b c => (|a| + δ) * (|b| + δ) * (|c| + δ) - |a| * |b| * |c|]
      have : ∀ L : List (List Nat), (∀ mu ∈ L, mu ∈ partitions n) → |(L.map E).sum -
          (L.map fun mu => chiVal n a mu * chiVal n b mu * chiVal n c mu * (ccard n mu : ℝ)).sum| ≤
          (L.map fun mu => ((|chiVal n a mu| + δ) * (|chiVal n b mu| + δ) * (|chiVal n c mu| + δ) -
            |chiVal n a mu| * |chiVal n b mu| * |chiVal n c mu|) * (ccard n mu : ℝ)).sum := by
        intro L
        induction L with
        | nil => intro _; simp
        | cons mu L ih =>
          intro hmem
          have i1 := ih fun nu h => hmem nu (by simp [h])
          have hmu := hmem mu (by simp)
          simp only [List.map_cons, List.sum_cons]
          have hm : (0 : ℝ) ≤ ccard n mu := Nat.cast_nonneg _
          have i2 : |E mu - chiVal n a mu * chiVal n b mu * chiVal n c mu * (ccard n mu : ℝ)| ≤
              ((|chiVal n a mu| + δ) * (|chiVal n b mu| + δ) * (|chiVal n c mu| + δ) -
                |chiVal n a mu| * |chiVal n b mu| * |chiVal n c mu|) * (ccard n mu : ℝ) := by
            show |x mu * y mu * z mu * (ccard n mu : ℝ) - _| ≤ _
            rw [← sub_mul, abs_mul, abs_of_nonneg hm]
            refine mul_le_mul_of_nonneg_right ?_ hm
            have jx := hx mu hmu
            have jy := hy mu hmu
            have jz := hz mu hmu
            set X := chiVal n a mu
            set Y := chiVal n b mu
            set Z := chiVal n c mu
            have e : x mu * y mu * z mu - X * Y * Z = (x mu - X) * (y mu * z mu) + X * ((y mu - Y) * z mu) + X * Y * (z mu - Z) := by ring
            rw [e]
            have k1 := abs_add_le ((x mu - X) * (y mu * z mu) + X * ((y mu - Y) * z mu)) (X * Y * (z mu - Z))
            have k2 := abs_add_le ((x mu - X) * (y mu * z mu)) (X * ((y mu - Y) * z mu))
            simp only [abs_mul] at k1 k2
            have l1 : |x mu - X| * (|y mu| * |z mu|) ≤ δ * ((|Y| + δ) * (|Z| + δ)) :=
              mul_le_mul jx (mul_le_mul (wide jy) (wide jz) (abs_nonneg _) (by positivity)) (by positivity) hδ
            have l2 : |X| * (|y mu - Y| * |z mu|) ≤ |X| * (δ * (|Z| + δ)) :=
              mul_le_mul_of_nonneg_left (mul_le_mul jy (wide jz) (abs_nonneg _) hδ) (abs_nonneg _)
            have l3 : |X| * |Y| * |z mu - Z| ≤ |X| * |Y| * δ := mul_le_mul_of_nonneg_left jz (by positivity)
            have e2 : (|X| + δ) * (|Y| + δ) * (|Z| + δ) - |X| * |Y| * |Z| =
                δ * ((|Y| + δ) * (|Z| + δ)) + |X| * (δ * (|Z| + δ)) + |X| * |Y| * δ := by ring
            rw [e2]
            linarith
          have i3 := abs_add_le ((L.map E).sum - (L.map fun mu => chiVal n a mu * chiVal n b mu * chiVal n c mu * (ccard n mu : ℝ)).sum)
            (E mu - chiVal n a mu * chiVal n b mu * chiVal n c mu * (ccard n mu : ℝ))
          rw [show E mu + (L.map E).sum - (chiVal n a mu * chiVal n b mu * chiVal n c mu * (ccard n mu : ℝ) +
            (L.map fun mu => chiVal n a mu * chiVal n b mu * chiVal n c mu * (ccard n mu : ℝ)).sum) =
            ((L.map E).sum - (L.map fun mu => chiVal n a mu * chiVal n b mu * chiVal n c mu * (ccard n mu : ℝ)).sum) +
            (E mu - chiVal n a mu * chiVal n b mu * chiVal n c mu * (ccard n mu : ℝ)) by ring]
          linarith
      exact this _ fun _ h => h
    have hu' : 0 < 1 - u := by linarith
    have hG : 0 ≤ (1 + u) ^ ((partitions n).length + 4) * (1 + u) / (1 - u) - 1 := by
      have h1 : (1 : ℝ) ≤ (1 + u) ^ ((partitions n).length + 4) := one_le_pow₀ (by linarith)
      rw [sub_nonneg, le_div_iff₀ hu']
      nlinarith
    have hW : ((partitions n).map W).sum / n ! ≤ D + ((1 + δ) ^ 3 - 1) := by
      rw [div_le_iff₀ hf, eW]; exact w2
    have g2 := g1.trans (mul_le_mul_of_nonneg_left hW hG)
    have g3 := abs_add_le (F.s ((partitions n).foldl (fun t mu => F.s (t + T mu)) 0 / F.s n !) - ((partitions n).map E).sum / (n ! : ℝ))
      (((partitions n).map E).sum / (n ! : ℝ) - kronN n a b c)
    rw [sub_add_sub_cancel] at g3
    unfold kronErr
    rw [show (partitions n).length + 5 = (partitions n).length + 4 + 1 by omega, pow_succ]
    exact g3.trans (add_le_add g2 hE)

/-- truncation of a number near a natural number -/
theorem toInt_near {t : ℝ} {k : Nat} (h : |t - k| < 1) :
    CGState.toInt t = k ∨ (1 ≤ k ∧ CGState.toInt t = (k : Int) - 1) := by
  obtain ⟨h1, h2⟩ := abs_lt.1 h
  unfold CGState.toInt
  split_ifs with h0
  · rcases lt_or_ge t k with hlt | hge
    · right
      have hk : 1 ≤ k := by
        rcases Nat.eq_zero_or_pos k with rfl | h
        · simp at hlt; linarith
        · exact h
      refine ⟨hk, ?_⟩
      rw [Int.floor_eq_iff]
      push_cast
      constructor <;> linarith
    · left
      rw [Int.floor_eq_iff]
      push_cast
      constructor <;> linarith
  · left
    have hk : k = 0 := by
      by_contra hne
      have : (1 : ℝ) ≤ k := by exact_mod_cast Nat.one_le_iff_ne_zero.2 hne
      linarith
    subst hk
    rw [Int.ceil_eq_iff]
    push_cast at *
    constructor <;> linarith

end

end Snob
