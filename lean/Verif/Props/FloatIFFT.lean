import Verif.Proofs.FloatIFFT
import Verif.Props.FloatFFT

/-! # Property C112: the inverse transform and the round trip in floating point -/

namespace Snob.Props

open Snob Snob.Perm Snob.IP
open scoped Nat

theorem downErr_le {u η : ℝ} (hu : 0 ≤ u) (h0 : 0 ≤ η) (c : Nat) (hη : η ≤ c * u) (m n : Nat) :
    downErr u η m n ≤ (1 + u) ^ (∑ l ∈ Finset.Ico m n, ((c + 1) * l + 6)) := by
  have h1 : 1 + η ≤ (1 + u) ^ c := (by linarith : 1 + η ≤ 1 + c * u).trans (one_add_mul_le_pow (by linarith) c)
  rw [downErr_eq]
  refine (mul_le_mul_of_nonneg_right (pow_le_pow_left₀ (by linarith) h1 _) (by positivity)).trans (le_of_eq ?_)
  rw [← pow_mul, ← pow_add, Finset.mul_sum, ← Finset.sum_add_distrib]
  congr 1
  exact Finset.sum_congr rfl fun l _ => by ring

theorem sum_Ico_down (c : Nat) {m n : Nat} (h : m ≤ n) :
    2 * ∑ l ∈ Finset.Ico m n, (c * l + 6) + c * (n - m) = (n - m) * (c * n + c * m + 12) := by
  induction n, h using Nat.le_induction with
  | base => simp
  | succ n h ih =>
    rw [Finset.sum_Ico_succ_top h]
    obtain ⟨k, rfl⟩ := Nat.exists_eq_add_of_le h
    rw [Nat.add_sub_cancel_left] at ih
    rw [show m + k + 1 - m = k + 1 by omega]
    nlinarith

theorem exp_down_two {m n : Nat} (h : m ≤ n) : ∑ l ∈ Finset.Ico m n, (3 * l + 6) = (n - m) * (3 * n + 3 * m + 9) / 2 := by
  have := sum_Ico_down 3 h
  have e : (n - m) * (3 * n + 3 * m + 12) = (n - m) * (3 * n + 3 * m + 9) + 3 * (n - m) := by ring
  omega

theorem exp_down_five {m n : Nat} (h : m ≤ n) : ∑ l ∈ Finset.Ico m n, (6 * l + 6) = (n - m) * (3 * n + 3 * m + 3) := by
  have := sum_Ico_down 6 h
  have e : (n - m) * (6 * n + 6 * m + 12) = 2 * ((n - m) * (3 * n + 3 * m + 3)) + 6 * (n - m) := by ring
  omega

theorem exp_round_two {m n : Nat} (h : m ≤ n) :
    ∑ l ∈ Finset.Ico m n, (3 * l + 2) + ∑ l ∈ Finset.Ico m n, (3 * l + 6) = (n - m) * (3 * n + 3 * m + 5) := by
  have h1 := sum_Ico_two h
  have h2 := sum_Ico_down 3 h
  have e : (n - m) * (3 * n + 3 * m + 1) + (n - m) * (3 * n + 3 * m + 12) = 2 * ((n - m) * (3 * n + 3 * m + 5)) + 3 * (n - m) := by ring
  omega

theorem exp_round_five {m n : Nat} (h : m ≤ n) (hm : 1 ≤ m) :
    ∑ l ∈ Finset.Ico m n, (6 * l + 2) + ∑ l ∈ Finset.Ico m n, (6 * l + 6) = (n - m) * (6 * n + 6 * m + 2) := by
  rw [sum_Ico_five h, exp_down_five h, ← mul_add]
  congr 1
  omega

section
variable (n m : Nat) (hm : 1 ≤ m) (hn : m < n ∨ m = 1 ∧ n = 1)
include hm hn

/-- the inverse of a vector of the right shape, for any action with relative error at most `c` units -/
theorem inv_near (ap fap : ViewAct) (η : ℝ) (c : Nat) (hap : ∀ k, m < k → k ≤ n → ActOk ap m k)
    (hfap : ∀ k, m < k → k ≤ n → FActOk fap η m k) (hη : 0 ≤ η) (hc : η ≤ c * us) (ws : List VPart)
    (hs : HasShape (cosetCols m) (cosetShapes m n) ws) (M : ℝ) (hM : ∀ W ∈ ws, ∀ j < W.m, √(∑ i ∈ Finset.range W.d, W.data i j ^ 2) ≤ M)
    (hM0 : 0 ≤ M) :
    ∃ Ls g g', fftLevels n m = some Ls ∧ ifftWith ap Ls ws = some (snsmSize n m, g) ∧
      IsTransform (snsmSize n m) (fun c => snsmElement n m c) g (cosetCols m) ws ∧
      Rounding.ieee.ifftWith fap Ls ws = some (snsmSize n m, g') ∧
      ∀ e < snsmSize n m, |g' e - g e| ≤ ((1 + us) ^ (∑ l ∈ Finset.Ico m n, ((c + 1) * l + 6)) - 1) * M := by
  obtain ⟨Ls, g, h1, -, h3, h4⟩ := ifft_spec (ap := ap) hm hn hap hs
  have hlab : LabelOk m n ws := fun i p W a b => (hs.2 i p W a b).1
  have hnear : NearVec (((1 : ℝ) - 1) * M) ws ws := by
    refine ⟨rfl, fun i W W' a b => ?_⟩
    obtain rfl := Option.some.inj (a.symm.trans b)
    refine ⟨rfl, rfl, rfl, fun j _ => ?_⟩
    simp
  obtain ⟨g', k1, k2⟩ := ifft_near (F := Rounding.ieee) ieee_s (by norm_num [us]) (by norm_num [us]) g hm (by omega) hap hfap hη h4
    (fun _ => hlab) (le_refl 1) (M := M) (fun W hW j hj => by have := hM W hW j hj; simp only [sq] at this; exact this) hnear h1
  refine ⟨Ls, g, g', h1, h3, h4.isTransform hm (by omega) hlab, k1, fun e he => (k2 e he).trans ?_⟩
  rw [one_mul]
  exact mul_le_mul_of_nonneg_right (sub_le_sub_right (downErr_le (by norm_num [us]) hη c hc m n) 1) hM0

/-- the inverse after the forward transform, both with rounding -/
theorem round_near (ap fap : ViewAct) (η : ℝ) (c : Nat) (hap : ∀ k, m < k → k ≤ n → ActOk ap m k)
    (hfap : ∀ k, m < k → k ≤ n → FActOk fap η m k) (hη : 0 ≤ η) (hc : η ≤ c * us) (ord : Nat → SumTree)
    (hord : ∀ k, m < k → k ≤ n → (ord k).Covers k) (f : Nat → ℝ) :
    ∃ Ls ws g, fftLevels n m = some Ls ∧ Rounding.ieee.fftWith fap ord Ls (snsmSize n m) f = some ws ∧
      Rounding.ieee.ifftWith fap Ls ws = some (snsmSize n m, g) ∧
      ∀ e < snsmSize n m, |g e - f e| ≤ ((1 + us) ^ (∑ l ∈ Finset.Ico m n, ((c + 1) * l + 2) + ∑ l ∈ Finset.Ico m n, ((c + 1) * l + 6)) - 1) *
        ∑ e ∈ Finset.range (snsmSize n m), |f e| := by
  obtain ⟨Ls, ws, h1, -, h3, h4, h5⟩ := fft_spec (ap := ap) f hm hn hap
  obtain ⟨ws', h6, h7, h8⟩ := fft_near (F := Rounding.ieee) ieee_s (by norm_num [us]) f (by omega) (by omega) hap hfap hη hord h1 h3
  have hs : (0 : ℝ) ≤ ∑ e ∈ Finset.range (snsmSize n m), |f e| := Finset.sum_nonneg fun _ _ => abs_nonneg _
  have hup : 1 ≤ upErr us η m n := by
    rw [upErr_eq]
    exact one_le_mul_of_one_le_of_one_le (one_le_pow₀ (by linarith)) (one_le_pow₀ (by norm_num [us]))
  obtain ⟨g, k1, k2⟩ := ifft_near (F := Rounding.ieee) ieee_s (by norm_num [us]) (by norm_num [us]) f hm (by omega) hap hfap hη h4
    (fun _ => h5) hup h8 h7 h1
  refine ⟨Ls, ws', g, h1, h6, k1, fun e he => (k2 e he).trans ?_⟩
  refine mul_le_mul_of_nonneg_right (sub_le_sub_right ?_ 1) hs
  rw [pow_add]
  have hu0 : (0 : ℝ) ≤ us := by norm_num [us]
  exact mul_le_mul (upErr_le hu0 hη c hc m n) (downErr_le hu0 hη c hc m n) (by linarith [one_le_downErr hu0 hη m n]) (by positivity)

theorem inv_reference (ws : List VPart) (hs : HasShape (cosetCols m) (cosetShapes m n) ws) (M : ℝ)
    (hM : ∀ W ∈ ws, ∀ j < W.m, √(∑ i ∈ Finset.range W.d, W.data i j ^ 2) ≤ M) (hM0 : 0 ≤ M) :
    ∃ Ls g g', fftLevels n m = some Ls ∧ IsTransform (snsmSize n m) (fun c => snsmElement n m c) g (cosetCols m) ws ∧
      Rounding.ieee.ifftWith Rounding.ieee.matAct Ls ws = some (snsmSize n m, g') ∧
      ∀ e < snsmSize n m, |g' e - g e| ≤ ((1 + 2⁻¹ ^ 24) ^ ((n - m) * (3 * n + 3 * m + 9) / 2) - 1) * M := by
  obtain ⟨Ls, g, g', h1, -, h3, h4, h5⟩ := inv_near n m hm hn matAct Rounding.ieee.matAct (stepErr us ud) 2 (fun k _ _ => matAct_ok m k)
    (fun k _ _ => fmatAct_ok ieee_s ieee_d (rnd_odd 53) (by norm_num [us]) (by norm_num [ud]) (by norm_num [ud]) m k)
    (stepErr_nonneg (by norm_num [us]) (by norm_num [ud])) (by push_cast; exact stepErr_ieee) ws hs M hM hM0
  have hu : us = 2⁻¹ ^ 24 := by norm_num [us]
  refine ⟨Ls, g, g', h1, h3, h4, fun e he => ?_⟩
  rw [← exp_down_two (by omega), ← hu]
  exact h5 e he

theorem round_reference (ord : Nat → SumTree) (hord : ∀ k, m < k → k ≤ n → (ord k).Covers k) (f : Nat → ℝ) :
    ∃ Ls ws g, fftLevels n m = some Ls ∧ Rounding.ieee.fftWith Rounding.ieee.matAct ord Ls (snsmSize n m) f = some ws ∧
      Rounding.ieee.ifftWith Rounding.ieee.matAct Ls ws = some (snsmSize n m, g) ∧
      (∀ e < snsmSize n m, |g e - f e| ≤ ((1 + 2⁻¹ ^ 24) ^ ((n - m) * (3 * n + 3 * m + 5)) - 1) * ∑ e ∈ Finset.range (snsmSize n m), |f e|) ∧
      (n ≤ 1000 → ∀ e < snsmSize n m, |g e - f e| ≤ ((n - m : Nat) * (3 * n + 3 * m + 5) : ℝ) / 2 ^ 23 * ∑ e ∈ Finset.range (snsmSize n m), |f e|) := by
  obtain ⟨Ls, ws, g, h1, h2, h3, h4⟩ := round_near n m hm hn matAct Rounding.ieee.matAct (stepErr us ud) 2 (fun k _ _ => matAct_ok m k)
    (fun k _ _ => fmatAct_ok ieee_s ieee_d (rnd_odd 53) (by norm_num [us]) (by norm_num [ud]) (by norm_num [ud]) m k)
    (stepErr_nonneg (by norm_num [us]) (by norm_num [ud])) (by push_cast; exact stepErr_ieee) ord hord f
  have hu : us = 2⁻¹ ^ 24 := by norm_num [us]
  have h5 : ∀ e < snsmSize n m, |g e - f e| ≤ ((1 + us) ^ ((n - m) * (3 * n + 3 * m + 5)) - 1) * ∑ e ∈ Finset.range (snsmSize n m), |f e| := by
    intro e he
    rw [← exp_round_two (by omega)]
    exact h4 e he
  refine ⟨Ls, ws, g, h1, h2, h3, fun e he => ?_, fun hle e he => (h5 e he).trans ?_⟩
  · rw [← hu]; exact h5 e he
  · have hs : (0 : ℝ) ≤ ∑ e ∈ Finset.range (snsmSize n m), |f e| := Finset.sum_nonneg fun _ _ => abs_nonneg _
    refine mul_le_mul_of_nonneg_right ?_ hs
    have hb : (n - m) * (3 * n + 3 * m + 5) ≤ 2 ^ 23 := by
      obtain ⟨k, rfl⟩ := Nat.exists_eq_add_of_le (show m ≤ n by omega)
      rw [Nat.add_sub_cancel_left]
      nlinarith [Nat.mul_le_mul hle hle, Nat.zero_le (m * m), Nat.zero_le (m * k)]
    refine (linear_ieee hb).trans (le_of_eq ?_)
    push_cast
    ring

theorem round_coded (h : n ≤ 4 ∨ n ≤ m + 1) (ord : Nat → SumTree) (hord : ∀ k, m < k → k ≤ n → (ord k).Covers k) (f : Nat → ℝ) :
    ∃ ws g, Rounding.ieee.fftSnSm ord n m f = some ws ∧ Rounding.ieee.ifftSnSm n m ws = some (snsmSize n m, g) ∧
      ∀ e < snsmSize n m, |g e - f e| ≤ ((1 + 2⁻¹ ^ 24) ^ ((n - m) * (6 * n + 6 * m + 2)) - 1) * ∑ e ∈ Finset.range (snsmSize n m), |f e| := by
  have h0 : (0 : ℝ) ≤ 3 / 2 * viewErr us ud := mul_nonneg (by norm_num) (viewErr_nonneg (by norm_num [us]) (by norm_num [ud]))
  obtain ⟨Ls, ws, g, h1, h2, h3, h4⟩ := round_near n m hm hn viewAct Rounding.ieee.viewAct (3 / 2 * viewErr us ud) 5
    (fun k _ _ => viewAct_ok (by omega) (by omega))
    (fun k _ _ => fviewAct_ok ieee_s ieee_d (by norm_num [us]) (by norm_num [ud]) (by norm_num [ud]) (m := m) (l := k) (by omega) (by omega))
    h0 viewErr_ieee ord hord f
  have hu : us = 2⁻¹ ^ 24 := by norm_num [us]
  refine ⟨ws, g, ?_, ?_, fun e he => ?_⟩
  · unfold Rounding.fftSnSm; rw [h1]; exact h2
  · unfold Rounding.ifftSnSm; rw [h1]; exact h3
  · rw [← exp_round_five (by omega) hm, ← hu]
    exact h4 e he

theorem inv_coded (h : n ≤ 4 ∨ n ≤ m + 1) (ws : List VPart) (hs : HasShape (cosetCols m) (cosetShapes m n) ws) (M : ℝ)
    (hM : ∀ W ∈ ws, ∀ j < W.m, √(∑ i ∈ Finset.range W.d, W.data i j ^ 2) ≤ M) (hM0 : 0 ≤ M) :
    ∃ g g', IsTransform (snsmSize n m) (fun c => snsmElement n m c) g (cosetCols m) ws ∧
      Rounding.ieee.ifftSnSm n m ws = some (snsmSize n m, g') ∧
      ∀ e < snsmSize n m, |g' e - g e| ≤ ((1 + 2⁻¹ ^ 24) ^ ((n - m) * (3 * n + 3 * m + 3)) - 1) * M := by
  have h0 : (0 : ℝ) ≤ 3 / 2 * viewErr us ud := mul_nonneg (by norm_num) (viewErr_nonneg (by norm_num [us]) (by norm_num [ud]))
  obtain ⟨Ls, g, g', h1, -, h3, h4, h5⟩ := inv_near n m hm hn viewAct Rounding.ieee.viewAct (3 / 2 * viewErr us ud) 5
    (fun k _ _ => viewAct_ok (by omega) (by omega))
    (fun k _ _ => fviewAct_ok ieee_s ieee_d (by norm_num [us]) (by norm_num [ud]) (by norm_num [ud]) (m := m) (l := k) (by omega) (by omega))
    h0 viewErr_ieee ws hs M hM hM0
  have hu : us = 2⁻¹ ^ 24 := by norm_num [us]
  refine ⟨g, g', h3, ?_, fun e he => ?_⟩
  · unfold Rounding.ifftSnSm; rw [h1]; exact h4
  · rw [← exp_down_five (by omega), ← hu]
    exact h5 e he

end

section
variable (n : Nat) (hn : 1 ≤ n)
include hn

/-- **C112.** With the action of the irreps used for matrices in place of the one for tensor views (C32), for every `n` and every vector
of the right shape whose columns have Euclidean length at most `M`, the inverse transform in `float` is defined and each of its values
differs by at most `((1+u)^K-1)M` from the value of the function whose Fourier transform the vector is, with `K=3(n-1)(n+4)/2` and
`u=2^-24`. -/
theorem C112_inverse_reference (ws : List VPart) (hs : HasShape allCols (partitions n) ws) (M : ℝ) (hM0 : 0 ≤ M)
    (hM : ∀ W ∈ ws, ∀ j < W.m, √(∑ i ∈ Finset.range W.d, W.data i j ^ 2) ≤ M) :
    ∃ Ls g g', fftLevels n 1 = some Ls ∧ IsTransform (snSize n) (fun c => element n c) g allCols ws ∧
      Rounding.ieee.ifftWith Rounding.ieee.matAct Ls ws = some (snSize n, g') ∧
      ∀ e < snSize n, |g' e - g e| ≤ ((1 + 2⁻¹ ^ 24) ^ ((n - 1) * (3 * n + 12) / 2) - 1) * M := by
  have hsz : snsmSize n 1 = snSize n := by simp [snsmSize, snSize]
  obtain ⟨Ls, g, g', h1, h2, h3, h4⟩ := inv_reference n 1 (le_refl 1) (by omega) ws ((hasShape_one hn _).2 hs) M hM hM0
  rw [hsz] at h3 h4
  exact ⟨Ls, g, g', h1, isTransform_one hn hs h2, h3, h4⟩

/-- **C112.** With the action of the irreps used for matrices, for every `n`, every `f` and every order of the additions in `reduce`,
the inverse transform in `float` of the forward transform in `float` is defined, and each of its values differs from the value of `f` by
at most `(1+u)^K-1` times the sum of the absolute values of `f`, with `K=(n-1)(3n+8)`; for `n≤1000` this is at most `2Ku` times that
sum. -/
theorem C112_round_trip_reference (ord : Nat → SumTree) (hord : ∀ k, 2 ≤ k → k ≤ n → (ord k).Covers k) (f : Nat → ℝ) :
    ∃ Ls ws g, fftLevels n 1 = some Ls ∧ Rounding.ieee.fftWith Rounding.ieee.matAct ord Ls (snSize n) f = some ws ∧
      Rounding.ieee.ifftWith Rounding.ieee.matAct Ls ws = some (snSize n, g) ∧
      (∀ e < snSize n, |g e - f e| ≤ ((1 + 2⁻¹ ^ 24) ^ ((n - 1) * (3 * n + 8)) - 1) * ∑ e ∈ Finset.range (snSize n), |f e|) ∧
      (n ≤ 1000 → ∀ e < snSize n, |g e - f e| ≤ ((n - 1 : Nat) * (3 * n + 8) : ℝ) / 2 ^ 23 * ∑ e ∈ Finset.range (snSize n), |f e|) := by
  have hsz : snsmSize n 1 = snSize n := by simp [snsmSize, snSize]
  obtain ⟨Ls, ws, g, h1, h2, h3, h4, h5⟩ := round_reference n 1 (le_refl 1) (by omega) ord (fun k h => hord k h) f
  rw [hsz] at h2 h3 h4 h5
  refine ⟨Ls, ws, g, h1, h2, h3, h4, fun hle e he => ?_⟩
  have := h5 hle e he
  rw [show (3 * (n : ℝ) + 3 * ((1 : Nat) : ℝ) + 5) = 3 * n + 8 by push_cast; ring] at this
  exact this

/-- **C112.** Full statement: for every `n` and every vector of the right shape, `ClausenFFT(n).inv` in `float` is near the inverse in
the sense of `C112_inverse_reference`. This is false: for `n≥6` it is undefined (`C112_inverse_undefined`), since it uses the action on
tensor views. What holds: it is true for `n≤4`, with `K=3(n-1)(n+2)`. -/
theorem C112_inverse_partial (h4 : n ≤ 4) (ws : List VPart) (hs : HasShape allCols (partitions n) ws) (M : ℝ) (hM0 : 0 ≤ M)
    (hM : ∀ W ∈ ws, ∀ j < W.m, √(∑ i ∈ Finset.range W.d, W.data i j ^ 2) ≤ M) :
    ∃ g g', IsTransform (snSize n) (fun c => element n c) g allCols ws ∧ Rounding.ieee.ifft n ws = some (snSize n, g') ∧
      ∀ e < snSize n, |g' e - g e| ≤ ((1 + 2⁻¹ ^ 24) ^ ((n - 1) * (3 * n + 6)) - 1) * M := by
  have hsz : snsmSize n 1 = snSize n := by simp [snsmSize, snSize]
  obtain ⟨g, g', h1, h2, h3⟩ := inv_coded n 1 (le_refl 1) (by omega) (by omega) ws ((hasShape_one hn _).2 hs) M hM hM0
  rw [hsz] at h2 h3
  exact ⟨g, g', isTransform_one hn hs h1, h2, h3⟩

/-- **C112.** Full statement: for every `n` and every `f`, the inverse after the forward transform, both in `float` as coded, is near
`f`. This is false: for `n≥6` both are undefined (`C111_fft_undefined`, `C112_inverse_undefined`). What holds: for `n≤4` every value is
within `(1+u)^96-1`, that is `96/2^23`, times the sum of the absolute values of `f`. -/
theorem C112_round_trip_partial (h4 : n ≤ 4) (ord : Nat → SumTree) (hord : ∀ k, 2 ≤ k → k ≤ n → (ord k).Covers k) (f : Nat → ℝ) :
    ∃ ws g, Rounding.ieee.fft ord n f = some ws ∧ Rounding.ieee.ifft n ws = some (snSize n, g) ∧
      (∀ e < snSize n, |g e - f e| ≤ ((1 + 2⁻¹ ^ 24) ^ ((n - 1) * (6 * n + 8)) - 1) * ∑ e ∈ Finset.range (snSize n), |f e|) ∧
      ∀ e < snSize n, |g e - f e| ≤ 96 / 2 ^ 23 * ∑ e ∈ Finset.range (snSize n), |f e| := by
  have hsz : snsmSize n 1 = snSize n := by simp [snsmSize, snSize]
  obtain ⟨ws, g, h1, h2, h3⟩ := round_coded n 1 (le_refl 1) (by omega) (by omega) ord (fun k h => hord k h) f
  rw [hsz] at h2 h3
  refine ⟨ws, g, ?_, h2, h3, fun e he => (h3 e he).trans ?_⟩
  · unfold Rounding.fftSnSm at h1
    unfold Rounding.fft
    rw [show 1 ! = 1 from rfl, Nat.div_one] at h1
    exact h1
  · have hu : us = 2⁻¹ ^ 24 := by norm_num [us]
    have hs : (0 : ℝ) ≤ ∑ e ∈ Finset.range (snSize n), |f e| := Finset.sum_nonneg fun _ _ => abs_nonneg _
    refine mul_le_mul_of_nonneg_right ?_ hs
    have hle : (n - 1) * (6 * n + 6 * 1 + 2) ≤ 96 := Nat.mul_le_mul (show n - 1 ≤ 3 by omega) (show 6 * n + 6 * 1 + 2 ≤ 32 by omega)
    rw [← hu]
    refine (linear_ieee (by omega)).trans ?_
    exact div_le_div_of_nonneg_right (by exact_mod_cast hle) (by norm_num)

end

/-- **C112.** For `n≥6` the inverse transform in `float` writes outside the rotation tables for every vector of the right shape. -/
theorem C112_inverse_undefined (F : Rounding) (n : Nat) (hn : 6 ≤ n) (ws : List VPart) (hs : HasShape allCols (partitions n) ws) :
    F.ifft n ws = none := by
  unfold Rounding.ifft
  cases h : fftLevels n 1 with
  | none => rfl
  | some Ls =>
    rw [Option.bind_eq_bind, Option.bind_some]
    refine fifftWith_321 (by omega) (by omega) hn h ?_
    rintro rfl
    have hmem := (mem_partitions 6 (by omega) [3, 2, 1]).2 isPartition_321
    obtain ⟨i, hi⟩ := List.mem_iff_getElem?.1 hmem
    have hlt : i < ws.length := by rw [hs.1]; exact (List.getElem?_eq_some_iff.1 hi).1
    exact ⟨ws[i], List.getElem_mem hlt, (hs.2 i _ _ hi (List.getElem?_eq_getElem hlt)).1⟩

section
variable (n m : Nat) (hm : 1 ≤ m) (hn : m < n)
include hm hn

/-- **C112.** The inverse on `Sn/Sm`, with the action of the irreps used for matrices: `K=(n-m)(3n+3m+9)/2`. -/
theorem C112_inv_snsm_reference (ws : List VPart) (hs : HasShape (cosetCols m) (cosetShapes m n) ws) (M : ℝ) (hM0 : 0 ≤ M)
    (hM : ∀ W ∈ ws, ∀ j < W.m, √(∑ i ∈ Finset.range W.d, W.data i j ^ 2) ≤ M) :
    ∃ Ls g g', fftLevels n m = some Ls ∧ IsTransform (snsmSize n m) (fun c => snsmElement n m c) g (cosetCols m) ws ∧
      Rounding.ieee.ifftWith Rounding.ieee.matAct Ls ws = some (snsmSize n m, g') ∧
      ∀ e < snsmSize n m, |g' e - g e| ≤ ((1 + 2⁻¹ ^ 24) ^ ((n - m) * (3 * n + 3 * m + 9) / 2) - 1) * M :=
  inv_reference n m hm (Or.inl hn) ws hs M hM hM0

/-- **C112.** The round trip on `Sn/Sm`, with the action of the irreps used for matrices: `K=(n-m)(3n+3m+5)`. -/
theorem C112_round_trip_snsm_reference (ord : Nat → SumTree) (hord : ∀ k, m < k → k ≤ n → (ord k).Covers k) (f : Nat → ℝ) :
    ∃ Ls ws g, fftLevels n m = some Ls ∧ Rounding.ieee.fftWith Rounding.ieee.matAct ord Ls (snsmSize n m) f = some ws ∧
      Rounding.ieee.ifftWith Rounding.ieee.matAct Ls ws = some (snsmSize n m, g) ∧
      (∀ e < snsmSize n m, |g e - f e| ≤ ((1 + 2⁻¹ ^ 24) ^ ((n - m) * (3 * n + 3 * m + 5)) - 1) * ∑ e ∈ Finset.range (snsmSize n m), |f e|) ∧
      (n ≤ 1000 → ∀ e < snsmSize n m, |g e - f e| ≤ ((n - m : Nat) * (3 * n + 3 * m + 5) : ℝ) / 2 ^ 23 * ∑ e ∈ Finset.range (snsmSize n m), |f e|) :=
  round_reference n m hm (Or.inl hn) ord hord f

/-- **C112.** Full statement: the inverse on `Sn/Sm` in `float` as coded is near the inverse, for all `1≤m<n`. This is false, as without
rounding (`C112_inverse_undefined` is the case `m=1`). What holds: it is true for `n≤4` and for `m=n-1`. -/
theorem C112_inv_snsm_partial (h : n ≤ 4 ∨ n = m + 1) (ws : List VPart) (hs : HasShape (cosetCols m) (cosetShapes m n) ws) (M : ℝ) (hM0 : 0 ≤ M)
    (hM : ∀ W ∈ ws, ∀ j < W.m, √(∑ i ∈ Finset.range W.d, W.data i j ^ 2) ≤ M) :
    ∃ g g', IsTransform (snsmSize n m) (fun c => snsmElement n m c) g (cosetCols m) ws ∧
      Rounding.ieee.ifftSnSm n m ws = some (snsmSize n m, g') ∧
      ∀ e < snsmSize n m, |g' e - g e| ≤ ((1 + 2⁻¹ ^ 24) ^ ((n - m) * (3 * n + 3 * m + 3)) - 1) * M :=
  inv_coded n m hm (Or.inl hn) (by omega) ws hs M hM hM0

/-- **C112.** Full statement: the round trip on `Sn/Sm` in `float` as coded is near the identity, for all `1≤m<n`. This is false, as
without rounding. What holds: it is true for `n≤4` and for `m=n-1`. -/
theorem C112_round_trip_snsm_partial (h : n ≤ 4 ∨ n = m + 1) (ord : Nat → SumTree) (hord : ∀ k, m < k → k ≤ n → (ord k).Covers k)
    (f : Nat → ℝ) :
    ∃ ws g, Rounding.ieee.fftSnSm ord n m f = some ws ∧ Rounding.ieee.ifftSnSm n m ws = some (snsmSize n m, g) ∧
      ∀ e < snsmSize n m, |g e - f e| ≤ ((1 + 2⁻¹ ^ 24) ^ ((n - m) * (6 * n + 6 * m + 2)) - 1) * ∑ e ∈ Finset.range (snsmSize n m), |f e| :=
  round_coded n m hm (Or.inl hn) (by omega) ord hord f

end

/-! ### examples -/

-- `S8`: a function with `|f|` of sum one comes back up to 224/2^23
example (f : Nat → ℝ) := (C112_round_trip_reference 8 (by omega) inOrderOf (fun k h _ => inOrderOf_covers k (by omega)) f).imp
  fun _ h => h.imp fun _ h => h.imp fun _ h => h.2.2.2.2 (by omega)
example (f : Nat → ℝ) := C112_round_trip_partial 4 (by omega) (by omega) inOrderOf (fun k h _ => inOrderOf_covers k (by omega)) f
-- vectors of the right shape exist for every `n`, and some bound for the length of their columns
example : ∃ (ws : List VPart) (M : ℝ), HasShape allCols (partitions 7) ws ∧ 0 ≤ M ∧
    ∀ W ∈ ws, ∀ j < W.m, √(∑ i ∈ Finset.range W.d, W.data i j ^ 2) ≤ M := by
  obtain ⟨Ls, ws, -, -, h, -⟩ := C37_fft_reference 7 (by omega) (fun _ => 1)
  have h0 : ∀ W : VPart, (0 : ℝ) ≤ ∑ j ∈ Finset.range W.m, √(∑ i ∈ Finset.range W.d, W.data i j ^ 2) := fun W =>
    Finset.sum_nonneg fun _ _ => Real.sqrt_nonneg _
  refine ⟨ws, (ws.map fun W => ∑ j ∈ Finset.range W.m, √(∑ i ∈ Finset.range W.d, W.data i j ^ 2)).sum, h, ?_, fun W hW j hj => ?_⟩
  · refine List.sum_nonneg fun x hx => ?_
    obtain ⟨W, -, rfl⟩ := List.mem_map.1 hx
    exact h0 W
  · refine (Finset.single_le_sum (f := fun j => √(∑ i ∈ Finset.range W.d, W.data i j ^ 2)) (fun _ _ => Real.sqrt_nonneg _)
      (Finset.mem_range.2 hj)).trans ?_
    refine List.single_le_sum (fun x hx => ?_) _ (List.mem_map_of_mem (f := fun W : VPart => ∑ j ∈ Finset.range W.m, √(∑ i ∈ Finset.range W.d, W.data i j ^ 2)) hW)
    obtain ⟨W, -, rfl⟩ := List.mem_map.1 hx
    exact h0 W
example (f : Nat → ℝ) := C112_round_trip_snsm_partial 30 29 (by omega) (by omega) (Or.inr rfl) inOrderOf (fun k h _ => inOrderOf_covers k (by omega)) f

end Snob.Props
