import Verif.Proofs.FloatEnergyDown
import Verif.Props.FloatIFFT
import Verif.Spec.FourierDist

/-! # Property C114: the relative error of the transforms in floating point, in the norm of Plancherel's formula -/

namespace Snob.Props

open Snob Snob.Perm Snob.IP
open scoped Nat

theorem step_le {u η x : ℝ} (hu : 0 ≤ u) (h0 : 0 ≤ η) (c : Nat) (hη : η ≤ c * u) (s l k : Nat) (hx : x ≤ s) :
    1 + x * ((1 + η) ^ l * (1 + u) ^ k - 1) ≤ (1 + u) ^ (s * (c * l + k)) := by
  have h1 : 1 + η ≤ (1 + u) ^ c := (by linarith : 1 + η ≤ 1 + c * u).trans (one_add_mul_le_pow (by linarith) c)
  have h2 : (1 + η) ^ l * (1 + u) ^ k ≤ (1 + u) ^ (c * l + k) := by
    rw [pow_add, pow_mul]
    exact mul_le_mul_of_nonneg_right (pow_le_pow_left₀ (by linarith) h1 _) (by positivity)
  have h3 : (1 : ℝ) ≤ (1 + η) ^ l * (1 + u) ^ k :=
    one_le_mul_of_one_le_of_one_le (one_le_pow₀ (by linarith)) (one_le_pow₀ (by linarith))
  generalize (1 + η) ^ l * (1 + u) ^ k = a at *
  rw [Nat.mul_comm, pow_mul]
  generalize (1 + u) ^ (c * l + k) = b at *
  have h4 := one_add_mul_le_pow (a := b - 1) (by linarith) s
  rw [add_sub_cancel] at h4
  have h5 : x * (a - 1) ≤ s * (b - 1) := mul_le_mul hx (by linarith) (by linarith) (Nat.cast_nonneg _)
  linarith

theorem sqrt_le_of_sq {s l n : Nat} (hl : l < n) (h : n ≤ s * s) : √((l : ℝ) + 1) ≤ s := by
  refine Real.sqrt_le_iff.2 ⟨Nat.cast_nonneg _, ?_⟩
  have : l + 1 ≤ s * s := by omega
  rw [sq]
  exact_mod_cast this

theorem prod_pow_le {u : ℝ} {m n s : Nat} (g : Nat → ℝ) (K : Nat → Nat) (hg : ∀ l, m ≤ l → l < n → 0 ≤ g l ∧ g l ≤ (1 + u) ^ (s * K l)) :
    ∏ l ∈ Finset.Ico m n, g l ≤ (1 + u) ^ (s * ∑ l ∈ Finset.Ico m n, K l) := by
  rw [Finset.mul_sum, ← Finset.prod_pow_eq_pow_sum]
  refine Finset.prod_le_prod (fun l hl => ?_) fun l hl => ?_
  · exact (hg l (Finset.mem_Ico.1 hl).1 (Finset.mem_Ico.1 hl).2).1
  · exact (hg l (Finset.mem_Ico.1 hl).1 (Finset.mem_Ico.1 hl).2).2

theorem upFac_le {u η : ℝ} (hu : 0 ≤ u) (h0 : 0 ≤ η) (c : Nat) (hη : η ≤ c * u) {m n s : Nat} (hs : n ≤ s * s) :
    upFac u η m n ≤ (1 + u) ^ (s * ∑ l ∈ Finset.Ico m n, ((c + 1) * l + 2)) := by
  refine prod_pow_le _ _ fun l _ hl => ⟨by linarith [fac_step_nonneg hu h0 l (l + 2)], ?_⟩
  rw [show (c + 1) * l + 2 = c * l + (l + 2) by ring]
  exact step_le hu h0 c hη s l (l + 2) (sqrt_le_of_sq hl hs)

theorem downFac_le {u η : ℝ} (hu : 0 ≤ u) (h0 : 0 ≤ η) (c : Nat) (hη : η ≤ c * u) {m n s : Nat} (hs : n ≤ s * s) :
    downFac u η m n ≤ (1 + u) ^ (s * ∑ l ∈ Finset.Ico m n, ((c + 1) * l + 6)) := by
  refine prod_pow_le _ _ fun l _ hl => ⟨by linarith [fac_step_nonneg hu h0 l (l + 6)], ?_⟩
  rw [show (c + 1) * l + 6 = c * l + (l + 6) by ring]
  exact step_le hu h0 c hη s l (l + 6) (sqrt_le_of_sq hl hs)

/-- the norm of the difference of two transforms -/
theorem FOk.dist {m n : Nat} (hm : 0 < m) (hn : m ≤ n) {f g : Nat → ℝ} {ws vs : List VPart}
    (h : FOk m n (fun p hp u w => tF m f n p hp 0 u w) ws) (h' : FOk m n (fun p hp u w => tF m g n p hp 0 u w) vs) :
    fourierDist ws vs = √((n ! / m ! : ℕ) * ∑ c ∈ Finset.range (n ! / m !), (g c - f c) * (g c - f c)) := by
  let ds := List.zipWith (fun W V : VPart => (⟨W.d, W.m, W.irrep, fun i j => V.data i j - W.data i j⟩ : VPart)) ws vs
  have hds : FOk m n (fun p hp u w => tF m (fun e => g e - f e) n p hp 0 u w) ds := by
    refine ⟨by simp only [ds, List.length_zipWith]; rw [h.len, h'.len, Nat.min_self], fun i p hp hi => ?_⟩
    obtain ⟨W, a1, a2, a3, a4⟩ := h.part i p hp hi
    obtain ⟨V, b1, b2, b3, b4⟩ := h'.part i p hp hi
    refine ⟨⟨W.d, W.m, W.irrep, fun i j => V.data i j - W.data i j⟩, by simp only [ds, List.getElem?_zipWith, a1, b1], a2, a3, fun u w hw => ?_⟩
    simp only
    rw [a4 u w hw, b4 u w hw, tF_sub]
  rw [← hds.plancherel hm hn hds]
  unfold fourierDist fourierDot
  congr 2
  refine List.ext_getElem? fun i => ?_
  simp only [ds, List.getElem?_zipWith]
  rcases ws[i]? with _ | W
  · rfl
  · rcases vs[i]? with _ | V
    · rfl
    · simp only [Option.some.injEq]
      unfold partDist partDot
      simp only [sq]

theorem FOk.len_eq {m n : Nat} (hm : 0 < m) (hn : m ≤ n) {f : Nat → ℝ} {ws : List VPart}
    (h : FOk m n (fun p hp u w => tF m f n p hp 0 u w) ws) :
    fourierLen ws = √((n ! / m ! : ℕ) * ∑ c ∈ Finset.range (n ! / m !), f c * f c) := by
  unfold fourierLen
  rw [h.plancherel hm hn h]

section
variable (n m : Nat) (hm : 1 ≤ m) (hn : m < n ∨ m = 1 ∧ n = 1) (s : Nat) (hsq : n ≤ s * s)
include hm hn hsq

theorem stable_near (ap fap : ViewAct) (η : ℝ) (c : Nat) (hap : ∀ k, m < k → k ≤ n → ActOk ap m k)
    (hfap : ∀ k, m < k → k ≤ n → FActOk fap η m k) (hη : 0 ≤ η) (hc : η ≤ c * us) (ord : Nat → SumTree)
    (hord : ∀ k, m < k → k ≤ n → (ord k).Covers k) (f : Nat → ℝ) :
    ∃ Ls ws ws' f' g, fftLevels n m = some Ls ∧ HasShape (cosetCols m) (cosetShapes m n) ws ∧
      IsTransform (snsmSize n m) (fun c => snsmElement n m c) f (cosetCols m) ws ∧
      Rounding.ieee.fftWith fap ord Ls (snsmSize n m) f = some ws' ∧
      HasShape (cosetCols m) (cosetShapes m n) ws' ∧
      IsTransform (snsmSize n m) (fun c => snsmElement n m c) f' (cosetCols m) ws' ∧
      √(∑ e ∈ Finset.range (snsmSize n m), (f' e - f e) ^ 2) ≤ ((1 + us) ^ (s * ∑ l ∈ Finset.Ico m n, ((c + 1) * l + 2)) - 1) *
        √(∑ e ∈ Finset.range (snsmSize n m), f e ^ 2) ∧
      fourierDist ws ws' ≤ ((1 + us) ^ (s * ∑ l ∈ Finset.Ico m n, ((c + 1) * l + 2)) - 1) * fourierLen ws ∧
      Rounding.ieee.ifftWith fap Ls ws' = some (snsmSize n m, g) ∧
      √(∑ e ∈ Finset.range (snsmSize n m), (g e - f e) ^ 2) ≤
        ((1 + us) ^ (s * (∑ l ∈ Finset.Ico m n, ((c + 1) * l + 2) + ∑ l ∈ Finset.Ico m n, ((c + 1) * l + 6))) - 1) *
          √(∑ e ∈ Finset.range (snsmSize n m), f e ^ 2) := by
  have hu0 : (0 : ℝ) ≤ us := by norm_num [us]
  obtain ⟨Ls, ws, h1, -, h3, h4, h5⟩ := fft_spec (ap := ap) f hm hn hap
  obtain ⟨ws', h6, h7, -⟩ := fft_near (F := Rounding.ieee) ieee_s hu0 f (by omega) (by omega) hap hfap hη hord h1 h3
  obtain ⟨f', ws2, k1, k2, k3⟩ := fft_energy (F := Rounding.ieee) ieee_s hu0 f hm (by omega) hap hfap hη hord h1
  obtain rfl : ws2 = ws' := Option.some.inj (k1.symm.trans h6)
  have hlab : LabelOk m n ws2 := by
    intro i p W hi hW
    have hlt : i < ws.length := by rw [h7.1]; exact (List.getElem?_eq_some_iff.1 hW).1
    rw [← (h7.2 i _ W (List.getElem?_eq_getElem hlt) hW).1]
    exact h5 i p _ hi (List.getElem?_eq_getElem hlt)
  obtain ⟨g, j1, j2⟩ := ifft_energy (F := Rounding.ieee) ieee_s hu0 (by norm_num [us]) f' hm (by omega) hap hfap hη k2 (fun _ => hlab) h1
  have hup := upFac_le hu0 hη c hc (m := m) hsq
  have hdown := downFac_le hu0 hη c hc (m := m) hsq
  have e1 : nrm (n ! / m !) (fun e => f' e - f e) ≤ ((1 + us) ^ (s * ∑ l ∈ Finset.Ico m n, ((c + 1) * l + 2)) - 1) * nrm (n ! / m !) f :=
    k3.trans (mul_le_mul_of_nonneg_right (sub_le_sub_right hup 1) (nrm_nonneg _ _))
  have e2 : nrm (n ! / m !) (fun e => g e - f e) ≤
      ((1 + us) ^ (s * (∑ l ∈ Finset.Ico m n, ((c + 1) * l + 2) + ∑ l ∈ Finset.Ico m n, ((c + 1) * l + 6))) - 1) * nrm (n ! / m !) f := by
    refine (nrm_compose (by linarith [one_le_downFac hu0 hη m n]) k3 j2).trans (mul_le_mul_of_nonneg_right (sub_le_sub_right ?_ 1) (nrm_nonneg _ _))
    rw [add_sub_cancel, add_sub_cancel, Nat.mul_add, pow_add]
    exact mul_le_mul hup hdown (by linarith [one_le_downFac hu0 hη m n]) (by positivity)
  refine ⟨Ls, ws, ws2, f', g, h1, h4.hasShape hm (by omega) h5, h4.isTransform hm (by omega) h5, h6, k2.hasShape hm (by omega) hlab,
    k2.isTransform hm (by omega) hlab, ?_, ?_, j1, ?_⟩
  · simp only [sq]; exact e1
  · rw [FOk.dist hm (by omega) h4 k2, FOk.len_eq hm (by omega) h4, Real.sqrt_mul (Nat.cast_nonneg _), Real.sqrt_mul (Nat.cast_nonneg _), mul_left_comm]
    exact mul_le_mul_of_nonneg_left e1 (Real.sqrt_nonneg _)
  · simp only [sq]; exact e2

theorem inv_stable (ap fap : ViewAct) (η : ℝ) (c : Nat) (hap : ∀ k, m < k → k ≤ n → ActOk ap m k)
    (hfap : ∀ k, m < k → k ≤ n → FActOk fap η m k) (hη : 0 ≤ η) (hc : η ≤ c * us) (ws : List VPart)
    (hs : HasShape (cosetCols m) (cosetShapes m n) ws) :
    ∃ Ls f g, fftLevels n m = some Ls ∧ IsTransform (snsmSize n m) (fun c => snsmElement n m c) f (cosetCols m) ws ∧
      Rounding.ieee.ifftWith fap Ls ws = some (snsmSize n m, g) ∧
      √(∑ e ∈ Finset.range (snsmSize n m), (g e - f e) ^ 2) ≤ ((1 + us) ^ (s * ∑ l ∈ Finset.Ico m n, ((c + 1) * l + 6)) - 1) *
        √(∑ e ∈ Finset.range (snsmSize n m), f e ^ 2) := by
  have hu0 : (0 : ℝ) ≤ us := by norm_num [us]
  obtain ⟨Ls, f, h1, -, h3, h4⟩ := ifft_spec (ap := ap) hm hn hap hs
  have hlab : LabelOk m n ws := fun i p W a b => (hs.2 i p W a b).1
  obtain ⟨g, j1, j2⟩ := ifft_energy (F := Rounding.ieee) ieee_s hu0 (by norm_num [us]) f hm (by omega) hap hfap hη h4 (fun _ => hlab) h1
  refine ⟨Ls, f, g, h1, h4.isTransform hm (by omega) hlab, j1, ?_⟩
  simp only [sq]
  exact j2.trans (mul_le_mul_of_nonneg_right (sub_le_sub_right (downFac_le hu0 hη c hc hsq) 1) (nrm_nonneg _ _))

end

/-- a bound linear in the number of roundings, if this is at most `2^23` -/
theorem le_linear {K : Nat} (h : K ≤ 2 ^ 23) {x y : ℝ} (hy : 0 ≤ y) (hx : x ≤ ((1 + 2⁻¹ ^ 24) ^ K - 1) * y) : x ≤ K / 2 ^ 23 * y := by
  have hu : us = 2⁻¹ ^ 24 := by norm_num [us]
  rw [← hu] at hx
  exact hx.trans (mul_le_mul_of_nonneg_right (linear_ieee h) hy)

section
variable (n m : Nat) (hm : 1 ≤ m) (hn : m < n ∨ m = 1 ∧ n = 1) (s : Nat) (hsq : n ≤ s * s) (ord : Nat → SumTree)
  (hord : ∀ k, m < k → k ≤ n → (ord k).Covers k) (f : Nat → ℝ)
include hm hn hsq hord

theorem stable_reference :
    ∃ Ls ws ws' f' g, fftLevels n m = some Ls ∧ HasShape (cosetCols m) (cosetShapes m n) ws ∧
      IsTransform (snsmSize n m) (fun c => snsmElement n m c) f (cosetCols m) ws ∧
      Rounding.ieee.fftWith Rounding.ieee.matAct ord Ls (snsmSize n m) f = some ws' ∧
      HasShape (cosetCols m) (cosetShapes m n) ws' ∧
      IsTransform (snsmSize n m) (fun c => snsmElement n m c) f' (cosetCols m) ws' ∧
      √(∑ e ∈ Finset.range (snsmSize n m), (f' e - f e) ^ 2) ≤ ((1 + 2⁻¹ ^ 24) ^ (s * ((n - m) * (3 * n + 3 * m + 1) / 2)) - 1) *
        √(∑ e ∈ Finset.range (snsmSize n m), f e ^ 2) ∧
      fourierDist ws ws' ≤ ((1 + 2⁻¹ ^ 24) ^ (s * ((n - m) * (3 * n + 3 * m + 1) / 2)) - 1) * fourierLen ws ∧
      Rounding.ieee.ifftWith Rounding.ieee.matAct Ls ws' = some (snsmSize n m, g) ∧
      √(∑ e ∈ Finset.range (snsmSize n m), (g e - f e) ^ 2) ≤ ((1 + 2⁻¹ ^ 24) ^ (s * ((n - m) * (3 * n + 3 * m + 5))) - 1) *
          √(∑ e ∈ Finset.range (snsmSize n m), f e ^ 2) := by
  have hu : us = 2⁻¹ ^ 24 := by norm_num [us]
  have h2 := sum_Ico_two (m := m) (n := n) (by omega)
  have := stable_near n m hm hn s hsq matAct Rounding.ieee.matAct (stepErr us ud) 2 (fun k _ _ => matAct_ok m k)
    (fun k _ _ => fmatAct_ok ieee_s ieee_d (rnd_odd 53) (by norm_num [us]) (by norm_num [ud]) (by norm_num [ud]) m k)
    (stepErr_nonneg (by norm_num [us]) (by norm_num [ud])) (by push_cast; exact stepErr_ieee) ord hord f
  simp only [Nat.reduceAdd] at this
  rw [exp_round_two (by omega), show ∑ l ∈ Finset.Ico m n, (3 * l + 2) = (n - m) * (3 * n + 3 * m + 1) / 2 by omega, hu] at this
  exact this

theorem stable_coded (h : n ≤ 4 ∨ n ≤ m + 1) :
    ∃ ws ws' f' g, HasShape (cosetCols m) (cosetShapes m n) ws ∧
      IsTransform (snsmSize n m) (fun c => snsmElement n m c) f (cosetCols m) ws ∧
      Rounding.ieee.fftSnSm ord n m f = some ws' ∧
      HasShape (cosetCols m) (cosetShapes m n) ws' ∧
      IsTransform (snsmSize n m) (fun c => snsmElement n m c) f' (cosetCols m) ws' ∧
      √(∑ e ∈ Finset.range (snsmSize n m), (f' e - f e) ^ 2) ≤ ((1 + 2⁻¹ ^ 24) ^ (s * ((n - m) * (3 * n + 3 * m - 1))) - 1) *
        √(∑ e ∈ Finset.range (snsmSize n m), f e ^ 2) ∧
      fourierDist ws ws' ≤ ((1 + 2⁻¹ ^ 24) ^ (s * ((n - m) * (3 * n + 3 * m - 1))) - 1) * fourierLen ws ∧
      Rounding.ieee.ifftSnSm n m ws' = some (snsmSize n m, g) ∧
      √(∑ e ∈ Finset.range (snsmSize n m), (g e - f e) ^ 2) ≤ ((1 + 2⁻¹ ^ 24) ^ (s * ((n - m) * (6 * n + 6 * m + 2))) - 1) *
          √(∑ e ∈ Finset.range (snsmSize n m), f e ^ 2) := by
  have hu : us = 2⁻¹ ^ 24 := by norm_num [us]
  have h0 : (0 : ℝ) ≤ 3 / 2 * viewErr us ud := mul_nonneg (by norm_num) (viewErr_nonneg (by norm_num [us]) (by norm_num [ud]))
  have := stable_near n m hm hn s hsq viewAct Rounding.ieee.viewAct (3 / 2 * viewErr us ud) 5
    (fun k _ _ => viewAct_ok (by omega) (by omega))
    (fun k _ _ => fviewAct_ok ieee_s ieee_d (by norm_num [us]) (by norm_num [ud]) (by norm_num [ud]) (m := m) (l := k) (by omega) (by omega))
    h0 viewErr_ieee ord hord f
  simp only [Nat.reduceAdd] at this
  rw [exp_round_five (by omega) hm, sum_Ico_five (by omega), hu] at this
  obtain ⟨Ls, ws, ws', f', g, h1, h2, h3, h4, h5, h6, h7, h8, h9, h10⟩ := this
  refine ⟨ws, ws', f', g, h2, h3, ?_, h5, h6, h7, h8, ?_, h10⟩
  · unfold Rounding.fftSnSm; rw [h1]; exact h4
  · unfold Rounding.ifftSnSm; rw [h1]; exact h9

end

section
variable (n : Nat) (hn : 1 ≤ n) (s : Nat) (hsq : n ≤ s * s) (ord : Nat → SumTree) (hord : ∀ k, 2 ≤ k → k ≤ n → (ord k).Covers k) (f : Nat → ℝ)
include hn hsq hord

/-- **C114.** With the action of the irreps used for matrices in place of the one for tensor views (C32), for every `n`, every `f` and
every order of the additions in `reduce`: the forward transform in `float` is exactly the Fourier transform of a function `f'` whose
distance from `f` is at most `((1+u)^(sK)-1)` times the length of `f`, where `K=(n-1)(3n+4)/2`, `u=2^-24` and `s` is any integer with
`s²≥n`. So its relative error in the norm of Plancherel's formula has the same bound, and for `sK≤2^23` it is at most `2sKu`. -/
theorem C114_fft_reference :
    ∃ Ls ws ws' f', fftLevels n 1 = some Ls ∧ HasShape allCols (partitions n) ws ∧
      IsTransform (snSize n) (fun c => element n c) f allCols ws ∧
      Rounding.ieee.fftWith Rounding.ieee.matAct ord Ls (snSize n) f = some ws' ∧
      HasShape allCols (partitions n) ws' ∧ IsTransform (snSize n) (fun c => element n c) f' allCols ws' ∧
      √(∑ e ∈ Finset.range (snSize n), (f' e - f e) ^ 2) ≤ ((1 + 2⁻¹ ^ 24) ^ (s * ((n - 1) * (3 * n + 4) / 2)) - 1) *
        √(∑ e ∈ Finset.range (snSize n), f e ^ 2) ∧
      fourierDist ws ws' ≤ ((1 + 2⁻¹ ^ 24) ^ (s * ((n - 1) * (3 * n + 4) / 2)) - 1) * fourierLen ws ∧
      (s * ((n - 1) * (3 * n + 4) / 2) ≤ 2 ^ 23 →
        fourierDist ws ws' ≤ ((s * ((n - 1) * (3 * n + 4) / 2) : Nat) : ℝ) / 2 ^ 23 * fourierLen ws) := by
  have hsz : snsmSize n 1 = snSize n := by simp [snsmSize, snSize]
  obtain ⟨Ls, ws, ws', f', g, h1, h2, h3, h4, h5, h6, h7, h8, -, -⟩ := stable_reference n 1 (le_refl 1) (by omega) s hsq ord (fun k h => hord k h) f
  rw [hasShape_one hn] at h2 h5
  rw [hsz] at h4 h7
  exact ⟨Ls, ws, ws', f', h1, h2, isTransform_one hn h2 h3, h4, h5, isTransform_one hn h5 h6, h7, h8,
    fun h => le_linear h (Real.sqrt_nonneg _) h8⟩

/-- **C114.** With the action of the irreps used for matrices, for every `n`, every `f` and every order of the additions in `reduce`,
the inverse transform in `float` of the forward transform in `float` differs from `f` by at most `((1+u)^(sK)-1)` times the length of
`f`, both measured as the root of the sum of squares, where `K=(n-1)(3n+8)` and `s` is any integer with `s²≥n`. -/
theorem C114_round_trip_reference :
    ∃ Ls ws g, fftLevels n 1 = some Ls ∧ Rounding.ieee.fftWith Rounding.ieee.matAct ord Ls (snSize n) f = some ws ∧
      Rounding.ieee.ifftWith Rounding.ieee.matAct Ls ws = some (snSize n, g) ∧
      √(∑ e ∈ Finset.range (snSize n), (g e - f e) ^ 2) ≤ ((1 + 2⁻¹ ^ 24) ^ (s * ((n - 1) * (3 * n + 8))) - 1) *
        √(∑ e ∈ Finset.range (snSize n), f e ^ 2) ∧
      (s * ((n - 1) * (3 * n + 8)) ≤ 2 ^ 23 → √(∑ e ∈ Finset.range (snSize n), (g e - f e) ^ 2) ≤
        ((s * ((n - 1) * (3 * n + 8)) : Nat) : ℝ) / 2 ^ 23 * √(∑ e ∈ Finset.range (snSize n), f e ^ 2)) := by
  have hsz : snsmSize n 1 = snSize n := by simp [snsmSize, snSize]
  obtain ⟨Ls, ws, ws', f', g, h1, -, -, h4, -, -, -, -, h9, h10⟩ := stable_reference n 1 (le_refl 1) (by omega) s hsq ord (fun k h => hord k h) f
  rw [hsz] at h4 h9 h10
  exact ⟨Ls, ws', g, h1, h4, h9, h10, fun h => le_linear h (Real.sqrt_nonneg _) h10⟩

end

/-- **C114.** With the action of the irreps used for matrices, for every `n` and every vector of the right shape the inverse transform in
`float` differs from the function with this Fourier transform by at most `((1+u)^(sK)-1)` times the length of that function, where
`K=3(n-1)(n+4)/2` and `s` is any integer with `s²≥n`. -/
theorem C114_inverse_reference (n : Nat) (hn : 1 ≤ n) (s : Nat) (hsq : n ≤ s * s) (ws : List VPart) (hs : HasShape allCols (partitions n) ws) :
    ∃ Ls f g, fftLevels n 1 = some Ls ∧ IsTransform (snSize n) (fun c => element n c) f allCols ws ∧
      Rounding.ieee.ifftWith Rounding.ieee.matAct Ls ws = some (snSize n, g) ∧
      √(∑ e ∈ Finset.range (snSize n), (g e - f e) ^ 2) ≤ ((1 + 2⁻¹ ^ 24) ^ (s * ((n - 1) * (3 * n + 12) / 2)) - 1) *
        √(∑ e ∈ Finset.range (snSize n), f e ^ 2) := by
  have hsz : snsmSize n 1 = snSize n := by simp [snsmSize, snSize]
  obtain ⟨Ls, f, g, h1, h2, h3, h4⟩ := inv_stable n 1 (le_refl 1) (by omega) s hsq matAct Rounding.ieee.matAct (stepErr us ud) 2
    (fun k _ _ => matAct_ok 1 k)
    (fun k _ _ => fmatAct_ok ieee_s ieee_d (rnd_odd 53) (by norm_num [us]) (by norm_num [ud]) (by norm_num [ud]) 1 k)
    (stepErr_nonneg (by norm_num [us]) (by norm_num [ud])) (by push_cast; exact stepErr_ieee) ws ((hasShape_one hn _).2 hs)
  have hu : us = 2⁻¹ ^ 24 := by norm_num [us]
  simp only [Nat.reduceAdd] at h4
  rw [exp_down_two hn, hu, hsz] at h4
  rw [hsz] at h3
  exact ⟨Ls, f, g, h1, isTransform_one hn hs h2, h3, h4⟩

/-- **C114.** Full statement: for every `n`, every `f` and every order of the additions the transform and the round trip in `float` as
coded have the relative errors of `C114_fft_reference` and `C114_round_trip_reference`. This is false: for `n≥6` they are undefined
(`C111_fft_undefined`) and for `n=5` there is a function whose transform is off by a third (`C111_fft_wrong`). What holds: for `n≤4`,
with `84/2^23` and `192/2^23`. -/
theorem C114_fft_partial (n : Nat) (hn : 1 ≤ n) (h4 : n ≤ 4) (ord : Nat → SumTree) (hord : ∀ k, 2 ≤ k → k ≤ n → (ord k).Covers k) (f : Nat → ℝ) :
    ∃ ws ws' f' g, HasShape allCols (partitions n) ws ∧ IsTransform (snSize n) (fun c => element n c) f allCols ws ∧
      Rounding.ieee.fft ord n f = some ws' ∧
      HasShape allCols (partitions n) ws' ∧ IsTransform (snSize n) (fun c => element n c) f' allCols ws' ∧
      √(∑ e ∈ Finset.range (snSize n), (f' e - f e) ^ 2) ≤ 84 / 2 ^ 23 * √(∑ e ∈ Finset.range (snSize n), f e ^ 2) ∧
      fourierDist ws ws' ≤ 84 / 2 ^ 23 * fourierLen ws ∧
      Rounding.ieee.ifft n ws' = some (snSize n, g) ∧
      √(∑ e ∈ Finset.range (snSize n), (g e - f e) ^ 2) ≤ 192 / 2 ^ 23 * √(∑ e ∈ Finset.range (snSize n), f e ^ 2) := by
  have hsz : snsmSize n 1 = snSize n := by simp [snsmSize, snSize]
  obtain ⟨ws, ws', f', g, h2, h3, h5, h6, h7, h8, h9, h10, h11⟩ := stable_coded n 1 (le_refl 1) (by omega) 2 (by omega) ord (fun k h => hord k h) f (by omega)
  rw [hasShape_one hn] at h2 h6
  rw [hsz] at h8 h10 h11
  have k1 : 2 * ((n - 1) * (3 * n + 3 * 1 - 1)) ≤ 84 :=
    Nat.mul_le_mul (le_refl 2) (Nat.mul_le_mul (show n - 1 ≤ 3 by omega) (show 3 * n + 3 * 1 - 1 ≤ 14 by omega))
  have k2 : 2 * ((n - 1) * (6 * n + 6 * 1 + 2)) ≤ 192 :=
    Nat.mul_le_mul (le_refl 2) (Nat.mul_le_mul (show n - 1 ≤ 3 by omega) (show 6 * n + 6 * 1 + 2 ≤ 32 by omega))
  have lin : ∀ {K B : Nat} {x y : ℝ}, K ≤ B → B ≤ 2 ^ 23 → 0 ≤ y → x ≤ ((1 + 2⁻¹ ^ 24) ^ K - 1) * y → x ≤ B / 2 ^ 23 * y := by
    intro K B x y hK hB hy hx
    refine (le_linear (hK.trans hB) hy hx).trans (mul_le_mul_of_nonneg_right ?_ hy)
    exact div_le_div_of_nonneg_right (by exact_mod_cast hK) (by norm_num)
  refine ⟨ws, ws', f', g, h2, isTransform_one hn h2 h3, ?_, h6, isTransform_one hn h6 h7, ?_, ?_, h10, ?_⟩
  · unfold Rounding.fftSnSm at h5
    unfold Rounding.fft
    rw [show 1 ! = 1 from rfl, Nat.div_one] at h5
    exact h5
  · exact lin k1 (by norm_num) (Real.sqrt_nonneg _) h8
  · exact lin k1 (by norm_num) (Real.sqrt_nonneg _) h9
  · exact lin k2 (by norm_num) (Real.sqrt_nonneg _) h11

section
variable (n m : Nat) (hm : 1 ≤ m) (hn : m < n) (s : Nat) (hsq : n ≤ s * s) (ord : Nat → SumTree)
  (hord : ∀ k, m < k → k ≤ n → (ord k).Covers k) (f : Nat → ℝ)
include hm hn hsq hord

/-- **C114.** The same on `Sn/Sm`, with the action of the irreps used for matrices: `K=(n-m)(3n+3m+1)/2` for the forward transform and
`K=(n-m)(3n+3m+5)` for the round trip. -/
theorem C114_fft_snsm_reference :
    ∃ Ls ws ws' f' g, fftLevels n m = some Ls ∧ HasShape (cosetCols m) (cosetShapes m n) ws ∧
      IsTransform (snsmSize n m) (fun c => snsmElement n m c) f (cosetCols m) ws ∧
      Rounding.ieee.fftWith Rounding.ieee.matAct ord Ls (snsmSize n m) f = some ws' ∧
      HasShape (cosetCols m) (cosetShapes m n) ws' ∧
      IsTransform (snsmSize n m) (fun c => snsmElement n m c) f' (cosetCols m) ws' ∧
      √(∑ e ∈ Finset.range (snsmSize n m), (f' e - f e) ^ 2) ≤ ((1 + 2⁻¹ ^ 24) ^ (s * ((n - m) * (3 * n + 3 * m + 1) / 2)) - 1) *
        √(∑ e ∈ Finset.range (snsmSize n m), f e ^ 2) ∧
      fourierDist ws ws' ≤ ((1 + 2⁻¹ ^ 24) ^ (s * ((n - m) * (3 * n + 3 * m + 1) / 2)) - 1) * fourierLen ws ∧
      Rounding.ieee.ifftWith Rounding.ieee.matAct Ls ws' = some (snsmSize n m, g) ∧
      √(∑ e ∈ Finset.range (snsmSize n m), (g e - f e) ^ 2) ≤ ((1 + 2⁻¹ ^ 24) ^ (s * ((n - m) * (3 * n + 3 * m + 5))) - 1) *
          √(∑ e ∈ Finset.range (snsmSize n m), f e ^ 2) :=
  stable_reference n m hm (Or.inl hn) s hsq ord hord f

/-- **C114.** Full statement: the relative errors on `Sn/Sm` in `float` as coded are small for all `1≤m<n`. This is false for all `n≥5`
and `m≤n-2` (`C111_fft_snsm_wrong`). What holds: it is true for `n≤4` and for `m=n-1`. -/
theorem C114_fft_snsm_partial (h : n ≤ 4 ∨ n = m + 1) :
    ∃ ws ws' f' g, HasShape (cosetCols m) (cosetShapes m n) ws ∧
      IsTransform (snsmSize n m) (fun c => snsmElement n m c) f (cosetCols m) ws ∧
      Rounding.ieee.fftSnSm ord n m f = some ws' ∧
      HasShape (cosetCols m) (cosetShapes m n) ws' ∧
      IsTransform (snsmSize n m) (fun c => snsmElement n m c) f' (cosetCols m) ws' ∧
      √(∑ e ∈ Finset.range (snsmSize n m), (f' e - f e) ^ 2) ≤ ((1 + 2⁻¹ ^ 24) ^ (s * ((n - m) * (3 * n + 3 * m - 1))) - 1) *
        √(∑ e ∈ Finset.range (snsmSize n m), f e ^ 2) ∧
      fourierDist ws ws' ≤ ((1 + 2⁻¹ ^ 24) ^ (s * ((n - m) * (3 * n + 3 * m - 1))) - 1) * fourierLen ws ∧
      Rounding.ieee.ifftSnSm n m ws' = some (snsmSize n m, g) ∧
      √(∑ e ∈ Finset.range (snsmSize n m), (g e - f e) ^ 2) ≤ ((1 + 2⁻¹ ^ 24) ^ (s * ((n - m) * (6 * n + 6 * m + 2))) - 1) *
          √(∑ e ∈ Finset.range (snsmSize n m), f e ^ 2) :=
  stable_coded n m hm (Or.inl hn) s hsq ord hord f (by omega)

end

/-! ### examples -/

-- `S9`: the transform has relative error at most 3*8*31/2 units of 2^-23
example (f : Nat → ℝ) := (C114_fft_reference 9 (by omega) 3 (by omega) inOrderOf (fun k h _ => inOrderOf_covers k (by omega)) f).imp
  fun _ h => h.imp fun _ h => h.imp fun _ h => h.imp fun _ h => h.2.2.2.2.2.2.2.2 (by norm_num)
-- and the round trip 3*8*35
example (f : Nat → ℝ) := (C114_round_trip_reference 9 (by omega) 3 (by omega) inOrderOf (fun k h _ => inOrderOf_covers k (by omega)) f).imp
  fun _ h => h.imp fun _ h => h.imp fun _ h => h.2.2.2.2 (by norm_num)
example (f : Nat → ℝ) := C114_fft_partial 4 (by omega) (by omega) inOrderOf (fun k h _ => inOrderOf_covers k (by omega)) f
example (f : Nat → ℝ) := C114_fft_snsm_reference 25 20 (by omega) (by omega) 5 (by omega) inOrderOf (fun k h _ => inOrderOf_covers k (by omega)) f
example (f : Nat → ℝ) := C114_fft_snsm_partial 16 15 (by omega) (by omega) 4 (by omega) inOrderOf (fun k h _ => inOrderOf_covers k (by omega)) f (Or.inr rfl)

end Snob.Props
