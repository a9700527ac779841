import Verif.Proofs.FloatFFT
import Verif.Proofs.FloatFFTBad
import Verif.Proofs.FloatFFTLost
import Verif.Proofs.FloatIeee
import Verif.Props.FFT

/-! # Property C111: the fast Fourier transform in floating point -/

namespace Snob.Props

open Snob Snob.Perm Snob.IP
open scoped Nat

theorem upErr_le {u η : ℝ} (hu : 0 ≤ u) (h0 : 0 ≤ η) (c : Nat) (hη : η ≤ c * u) (m n : Nat) :
    upErr u η m n ≤ (1 + u) ^ (∑ l ∈ Finset.Ico m n, ((c + 1) * l + 2)) := by
  have h1 : 1 + η ≤ (1 + u) ^ c := (by linarith : 1 + η ≤ 1 + c * u).trans (one_add_mul_le_pow (by linarith) c)
  rw [upErr_eq]
  refine (mul_le_mul_of_nonneg_right (pow_le_pow_left₀ (by linarith) h1 _) (by positivity)).trans (le_of_eq ?_)
  rw [← pow_mul, ← pow_add, Finset.mul_sum, ← Finset.sum_add_distrib]
  congr 1
  exact Finset.sum_congr rfl fun l _ => by ring

theorem sum_Ico_two {m n : Nat} (h : m ≤ n) : 2 * ∑ l ∈ Finset.Ico m n, (3 * l + 2) = (n - m) * (3 * n + 3 * m + 1) := by
  induction n, h using Nat.le_induction with
  | base => simp
  | succ n h ih =>
    rw [Finset.sum_Ico_succ_top h, mul_add, ih]
    obtain ⟨k, rfl⟩ := Nat.exists_eq_add_of_le h
    rw [Nat.add_sub_cancel_left, show m + k + 1 - m = k + 1 by omega]
    ring

theorem sum_Ico_five {m n : Nat} (h : m ≤ n) : ∑ l ∈ Finset.Ico m n, (6 * l + 2) = (n - m) * (3 * n + 3 * m - 1) := by
  induction n, h using Nat.le_induction with
  | base => simp
  | succ n h ih =>
    rw [Finset.sum_Ico_succ_top h, ih]
    obtain ⟨k, rfl⟩ := Nat.exists_eq_add_of_le h
    rw [Nat.add_sub_cancel_left, show m + k + 1 - m = k + 1 by omega]
    rcases Nat.eq_zero_or_pos (m + k) with h0 | h0
    · obtain ⟨rfl, rfl⟩ : m = 0 ∧ k = 0 := by omega
      rfl
    · obtain ⟨a, ha⟩ : ∃ a, 3 * (m + k) + 3 * m = a + 1 := ⟨3 * (m + k) + 3 * m - 1, by omega⟩
      rw [show 3 * (m + k) + 3 * m - 1 = a by omega, show 3 * (m + k + 1) + 3 * m - 1 = a + 3 by omega]
      have : 3 * k + 6 * m = a + 1 := by omega
      nlinarith

theorem nearVec_mono {ε ε' : ℝ} (h : ε ≤ ε') {ws ws' : List VPart} (hn : NearVec ε ws ws') : NearVec ε' ws ws' :=
  ⟨hn.1, fun i W W' a b => by
    obtain ⟨h1, h2, h3, h4⟩ := hn.2 i W W' a b
    exact ⟨h1, h2, h3, fun j hj => (h4 j hj).trans h⟩⟩

theorem linear_ieee {K : Nat} (h : K ≤ 2 ^ 23) : (1 + us) ^ K - 1 ≤ K / 2 ^ 23 := by
  have hK : (K : ℝ) ≤ 8388608 := by
    have : K ≤ 8388608 := h
    exact_mod_cast this
  have := pow_le_linear (x := us) (by norm_num [us]) (m := K) (by unfold us; linarith)
  unfold us at this ⊢
  norm_num at this ⊢
  linarith

theorem viewErr_ieee : 3 / 2 * viewErr us ud ≤ (5 : Nat) * us := by
  unfold viewErr us ud; norm_num

section
variable (n m : Nat) (hm : 1 ≤ m) (ord : Nat → SumTree) (hord : ∀ k, m < k → k ≤ n → (ord k).Covers k) (f : Nat → ℝ)
include hm hord

theorem near_reference (hn : m < n ∨ m = 1 ∧ n = 1) :
    ∃ Ls ws ws', fftLevels n m = some Ls ∧ HasShape (cosetCols m) (cosetShapes m n) ws ∧
      IsTransform (snsmSize n m) (fun c => snsmElement n m c) f (cosetCols m) ws ∧
      Rounding.ieee.fftWith Rounding.ieee.matAct ord Ls (snsmSize n m) f = some ws' ∧
      NearVec (((1 + 2⁻¹ ^ 24) ^ ((n - m) * (3 * n + 3 * m + 1) / 2) - 1) * ∑ c ∈ Finset.range (snsmSize n m), |f c|) ws ws' ∧
      (n ≤ 2000 → NearVec (((n - m : Nat) * (3 * n + 3 * m + 1) : ℝ) / 2 ^ 24 * ∑ c ∈ Finset.range (snsmSize n m), |f c|) ws ws') := by
  obtain ⟨Ls, ws, h1, -, h3, h4, h5, -⟩ := forward_of_act matAct n m hm hn (fun k _ _ => matAct_ok m k) f
  obtain ⟨ws', h6, h7, -⟩ := fft_near ieee_s (by norm_num [us]) f (by omega) (by omega) (fun k _ _ => matAct_ok m k)
    (fun k _ _ => fmatAct_ok ieee_s ieee_d (rnd_odd 53) (by norm_num [us]) (by norm_num [ud]) (by norm_num [ud]) m k)
    (stepErr_nonneg (by norm_num [us]) (by norm_num [ud])) hord h1 h3
  have hu : us = 2⁻¹ ^ 24 := by norm_num [us]
  have hs : (0 : ℝ) ≤ ∑ c ∈ Finset.range (snsmSize n m), |f c| := Finset.sum_nonneg fun _ _ => abs_nonneg _
  have h2 := sum_Ico_two (m := m) (n := n) (by omega)
  have h8 : NearVec (((1 + 2⁻¹ ^ 24) ^ ((n - m) * (3 * n + 3 * m + 1) / 2) - 1) * ∑ c ∈ Finset.range (snsmSize n m), |f c|) ws ws' := by
    refine nearVec_mono (mul_le_mul_of_nonneg_right (sub_le_sub_right ?_ 1) hs) h7
    rw [← hu, show (n - m) * (3 * n + 3 * m + 1) / 2 = ∑ l ∈ Finset.Ico m n, ((2 + 1) * l + 2) by
      simp only [Nat.reduceAdd]; omega]
    exact upErr_le (by norm_num [us]) (stepErr_nonneg (by norm_num [us]) (by norm_num [ud])) 2 (by push_cast; exact stepErr_ieee) m n
  refine ⟨Ls, ws, ws', h1, h4, h5, h6, h8, fun hle => nearVec_mono (mul_le_mul_of_nonneg_right ?_ hs) h8⟩
  have hb : (n - m) * (3 * n + 3 * m + 1) ≤ 2 ^ 24 := by
    obtain ⟨k, rfl⟩ := Nat.exists_eq_add_of_le (show m ≤ n by omega)
    rw [Nat.add_sub_cancel_left]
    nlinarith [Nat.mul_le_mul hle hle, Nat.zero_le (m * m), Nat.zero_le (m * k)]
  rw [← h2, Nat.mul_div_cancel_left _ (by norm_num), ← hu]
  refine (linear_ieee ?_).trans (le_of_eq ?_)
  · omega
  · have : (((n - m : Nat) * (3 * n + 3 * m + 1) : Nat) : ℝ) = ((2 * ∑ l ∈ Finset.Ico m n, (3 * l + 2) : Nat) : ℝ) := by rw [h2]
    push_cast at this ⊢
    rw [this]
    ring

theorem near_coded (hn : m < n ∨ m = 1 ∧ n = 1) (h : n ≤ 4 ∨ n ≤ m + 1) :
    ∃ Ls ws ws', fftLevels n m = some Ls ∧ HasShape (cosetCols m) (cosetShapes m n) ws ∧
      IsTransform (snsmSize n m) (fun c => snsmElement n m c) f (cosetCols m) ws ∧
      Rounding.ieee.fftWith Rounding.ieee.viewAct ord Ls (snsmSize n m) f = some ws' ∧
      NearVec (((1 + 2⁻¹ ^ 24) ^ ((n - m) * (3 * n + 3 * m - 1)) - 1) * ∑ c ∈ Finset.range (snsmSize n m), |f c|) ws ws' := by
  obtain ⟨Ls, ws, h1, -, h3, h4, h5, -⟩ := forward_of_act viewAct n m hm hn (fun k _ _ => viewAct_ok (by omega) (by omega)) f
  have h0 : (0 : ℝ) ≤ 3 / 2 * viewErr us ud := mul_nonneg (by norm_num) (viewErr_nonneg (by norm_num [us]) (by norm_num [ud]))
  obtain ⟨ws', h6, h7, -⟩ := fft_near ieee_s (by norm_num [us]) f (by omega) (by omega) (fun k _ _ => viewAct_ok (by omega) (by omega))
    (fun k _ _ => fviewAct_ok ieee_s ieee_d (by norm_num [us]) (by norm_num [ud]) (by norm_num [ud]) (m := m) (l := k) (by omega) (by omega))
    h0 hord h1 h3
  have hu : us = 2⁻¹ ^ 24 := by norm_num [us]
  have hs : (0 : ℝ) ≤ ∑ c ∈ Finset.range (snsmSize n m), |f c| := Finset.sum_nonneg fun _ _ => abs_nonneg _
  refine ⟨Ls, ws, ws', h1, h4, h5, h6, nearVec_mono (mul_le_mul_of_nonneg_right (sub_le_sub_right ?_ 1) hs) h7⟩
  rw [← hu, ← sum_Ico_five (by omega)]
  exact upErr_le (by norm_num [us]) h0 5 viewErr_ieee m n

end

section
variable (n : Nat) (hn : 1 ≤ n) (ord : Nat → SumTree) (f : Nat → ℝ)
include hn

/-- **C111.** With the action of the irreps used for matrices in place of the one for tensor views (C32), for every `n`, every `f` and
every order of the additions in `reduce`, the forward transform in `float` is defined. With `K=(n-1)(3n+4)/2` and `u=2^-24`, every
column of every part differs from the column of the Fourier transform of `f` by at most `(1+u)^K-1` times the sum of the absolute values
of `f` in Euclidean norm; for `n≤2000` this is at most `2Ku` times that sum. -/
theorem C111_fft_reference (hord : ∀ k, 2 ≤ k → k ≤ n → (ord k).Covers k) :
    ∃ Ls ws ws', fftLevels n 1 = some Ls ∧ HasShape allCols (partitions n) ws ∧
      IsTransform (snSize n) (fun c => element n c) f allCols ws ∧
      Rounding.ieee.fftWith Rounding.ieee.matAct ord Ls (snSize n) f = some ws' ∧
      NearVec (((1 + 2⁻¹ ^ 24) ^ ((n - 1) * (3 * n + 4) / 2) - 1) * ∑ c ∈ Finset.range (snSize n), |f c|) ws ws' ∧
      (n ≤ 2000 → NearVec (((n - 1 : Nat) * (3 * n + 4) : ℝ) / 2 ^ 24 * ∑ c ∈ Finset.range (snSize n), |f c|) ws ws') := by
  obtain ⟨Ls, ws, ws', h1, h2, h3, h4, h5, h6⟩ := near_reference n 1 (le_refl 1) ord (fun k h => hord k h) f (by omega)
  have hsz : snsmSize n 1 = snSize n := by simp [snsmSize, snSize]
  rw [hasShape_one hn] at h2
  rw [hsz] at h4 h5 h6
  refine ⟨Ls, ws, ws', h1, h2, isTransform_one hn h2 h3, h4, h5, fun hle => ?_⟩
  have := h6 hle
  rw [show (3 * (n : ℝ) + 3 * ((1 : Nat) : ℝ) + 1) = 3 * n + 4 by push_cast; ring] at this
  exact this

/-- **C111.** Full statement: for every `n` and every `f`, `ClausenFFT(n)(f)` in `float` is near the Fourier transform of `f` in the
sense of `C111_fft_reference`. This is false: for `n≥6` the transform is undefined (`C111_fft_undefined`), and for `n=5` it
is off by a third (`C111_fft_wrong`), since it uses the action on
tensor views. What holds: for `n≤4` every column is within `(1+u)^42-1`, that is `42/2^23`, times the sum of the absolute values of
`f`. -/
theorem C111_fft_partial (h4 : n ≤ 4) (hord : ∀ k, 2 ≤ k → k ≤ n → (ord k).Covers k) :
    ∃ ws ws', HasShape allCols (partitions n) ws ∧ IsTransform (snSize n) (fun c => element n c) f allCols ws ∧
      Rounding.ieee.fft ord n f = some ws' ∧
      NearVec (((1 + 2⁻¹ ^ 24) ^ ((n - 1) * (3 * n + 2)) - 1) * ∑ c ∈ Finset.range (snSize n), |f c|) ws ws' ∧
      NearVec (42 / 2 ^ 23 * ∑ c ∈ Finset.range (snSize n), |f c|) ws ws' := by
  obtain ⟨Ls, ws, ws', h1, h2, h3, h5, h6⟩ := near_coded n 1 (le_refl 1) ord (fun k h => hord k h) f (by omega) (by omega)
  have hsz : snsmSize n 1 = snSize n := by simp [snsmSize, snSize]
  rw [hasShape_one hn] at h2
  rw [hsz] at h5 h6
  have hu : us = 2⁻¹ ^ 24 := by norm_num [us]
  have hs : (0 : ℝ) ≤ ∑ c ∈ Finset.range (snSize n), |f c| := Finset.sum_nonneg fun _ _ => abs_nonneg _
  refine ⟨ws, ws', h2, isTransform_one hn h2 h3, ?_, h6, nearVec_mono (mul_le_mul_of_nonneg_right ?_ hs) h6⟩
  · unfold Rounding.fft
    rw [h1]
    exact h5
  · have hle : (n - 1) * (3 * n + 3 * 1 - 1) ≤ 42 := Nat.mul_le_mul (show n - 1 ≤ 3 by omega) (show 3 * n + 3 * 1 - 1 ≤ 14 by omega)
    rw [← hu]
    refine (linear_ieee (by omega)).trans ?_
    exact div_le_div_of_nonneg_right (by exact_mod_cast hle) (by norm_num)

end

/-- **C111.** For `n≥6` the forward transform in `float` writes outside the rotation tables for every function. -/
theorem C111_fft_undefined (F : Rounding) (ord : Nat → SumTree) (n : Nat) (hn : 6 ≤ n) (f : Nat → ℝ) : F.fft ord n f = none := by
  unfold Rounding.fft
  cases h : fftLevels n 1 with
  | none => rfl
  | some Ls => exact ffftWith_321 (by omega) (by omega) hn h _ f

section
variable (n m : Nat) (hm : 1 ≤ m) (hn : m < n) (ord : Nat → SumTree) (hord : ∀ k, m < k → k ≤ n → (ord k).Covers k) (f : Nat → ℝ)
include hm hn hord

/-- **C111.** The same on `Sn/Sm`, with `K=(n-m)(3n+3m+1)/2`: every column is within `(1+u)^K-1` times the sum of the absolute values
of `f` of the column of the transform, with the action of the irreps used for matrices. -/
theorem C111_fft_snsm_reference :
    ∃ Ls ws ws', fftLevels n m = some Ls ∧ HasShape (cosetCols m) (cosetShapes m n) ws ∧
      IsTransform (snsmSize n m) (fun c => snsmElement n m c) f (cosetCols m) ws ∧
      Rounding.ieee.fftWith Rounding.ieee.matAct ord Ls (snsmSize n m) f = some ws' ∧
      NearVec (((1 + 2⁻¹ ^ 24) ^ ((n - m) * (3 * n + 3 * m + 1) / 2) - 1) * ∑ c ∈ Finset.range (snsmSize n m), |f c|) ws ws' ∧
      (n ≤ 2000 → NearVec (((n - m : Nat) * (3 * n + 3 * m + 1) : ℝ) / 2 ^ 24 * ∑ c ∈ Finset.range (snsmSize n m), |f c|) ws ws') :=
  near_reference n m hm ord hord f (Or.inl hn)

/-- **C111.** Full statement: the transform on `Sn/Sm` in `float` as coded is near the transform, for all `1≤m<n`. This is false for all
`n≥5` and `m≤n-2` (`C111_fft_snsm_wrong`). What holds: it is true for `n≤4` and for `m=n-1`. -/
theorem C111_fft_snsm_partial (h : n ≤ 4 ∨ n = m + 1) :
    ∃ ws ws', HasShape (cosetCols m) (cosetShapes m n) ws ∧
      IsTransform (snsmSize n m) (fun c => snsmElement n m c) f (cosetCols m) ws ∧
      Rounding.ieee.fftSnSm ord n m f = some ws' ∧
      NearVec (((1 + 2⁻¹ ^ 24) ^ ((n - m) * (3 * n + 3 * m - 1)) - 1) * ∑ c ∈ Finset.range (snsmSize n m), |f c|) ws ws' := by
  obtain ⟨Ls, ws, ws', h1, h2, h3, h5, h6⟩ := near_coded n m hm ord hord f (Or.inl hn) (by omega)
  refine ⟨ws, ws', h2, h3, ?_, h6⟩
  unfold Rounding.fftSnSm
  rw [h1]
  exact h5

end

/-- **C111.** For `n≥5` and `1≤m≤n-2` there is a coset such that for the function with value one there and zero elsewhere, and every
order of the additions, the result in `float`, if there is any, has a column at a distance of at least `1/(n-2)` from the column of
the transform: this is not an effect of rounding. -/
theorem C111_fft_snsm_wrong (n m : Nat) (hm : 1 ≤ m) (hmn : m + 2 ≤ n) (hn : 5 ≤ n) :
    ∃ c < snsmSize n m, ∀ ord : Nat → SumTree, (∀ k, m < k → k ≤ n → (ord k).Covers k) → ∀ (ws ws' : List VPart) (ε : ℝ),
      HasShape (cosetCols m) (cosetShapes m n) ws →
      IsTransform (snsmSize n m) (fun c => snsmElement n m c) (fun e => if e = c then 1 else 0) (cosetCols m) ws →
      Rounding.ieee.fftSnSm ord n m (fun e => if e = c then 1 else 0) = some ws' → NearVec ε ws ws' → 1 / ((n : ℝ) - 2) ≤ ε := by
  obtain ⟨l, rfl⟩ : ∃ l, n = l + 1 := ⟨n - 1, by omega⟩
  have hq : 0 < l ! / m ! := Nat.div_pos (Nat.factorial_le (by omega)) (Nat.factorial_pos m)
  have hsz : snsmSize (l + 1) m = (l + 1) * (l ! / m !) := by
    unfold snsmSize
    rw [Nat.factorial_succ, Nat.mul_div_assoc _ (Nat.factorial_dvd_factorial (by omega))]
  have hc : (l - 1) * (l ! / m !) < snsmSize (l + 1) m := by
    rw [hsz]; exact Nat.mul_lt_mul_of_pos_right (by omega) hq
  refine ⟨(l - 1) * (l ! / m !), hc, ?_⟩
  intro ord hord ws ws' ε hs ht hws hnear
  unfold Rounding.fftSnSm at hws
  rw [Option.bind_eq_bind, Option.bind_eq_some_iff] at hws
  obtain ⟨Ls, hLs, hws⟩ := hws
  have h4 : 4 ≤ l + 1 := by omega
  have hp := isPartition_two h4
  have hmem : [l + 1 - 2, 2] ∈ cosetShapes m (l + 1) := (mem_PL (by omega) _).2 ⟨hp, by simp; omega⟩
  obtain ⟨i, hi⟩ := List.mem_iff_getElem?.1 hmem
  have hlt : i < ws.length := by rw [hs.1]; exact (List.getElem?_eq_some_iff.1 hi).1
  have hlt' : i < ws'.length := by rw [← hnear.1]; exact hlt
  obtain ⟨hmk, hd, hWm⟩ := hs.2 i _ _ hi (List.getElem?_eq_getElem hlt)
  obtain ⟨n1, n2, n3, n4⟩ := hnear.2 i _ _ (List.getElem?_eq_getElem hlt) (List.getElem?_eq_getElem hlt')
  obtain ⟨R, hR, hlam, hrep⟩ := exists_repr (by omega) hp
  generalize hW : ws[i] = W at *
  have hWmem : W ∈ ws := by rw [← hW]; exact List.getElem_mem hlt
  generalize hW' : ws'[i] = W' at *
  have hWmem' : W' ∈ ws' := by rw [← hW']; exact List.getElem_mem hlt'
  obtain rfl : R = W.irrep := Option.some.inj (hR.symm.trans hmk)
  have hdpos : 0 < W.irrep.d := by rw [hrep.d_eq]; exact List.length_pos_iff.2 (words_ne_nil hp)
  -- the column of the first tableau
  have htop : hrep.eqv ⟨0, hdpos⟩ = topW h4 := by
    apply Subtype.ext
    have h1 := rowIx_topW h4
    have h2 : (words (l + 1) [l + 1 - 2, 2]).idxOf (topWord (l + 1)) = 0 := h1
    have h3 := List.getElem_idxOf (List.idxOf_lt_length_of_mem (topWord_mem h4))
    simp only [h2] at h3
    exact h3
  have hcol : ∃ k : Nat, (cosetCols m W.irrep)[k]? = some 0 := by
    refine List.mem_iff_getElem?.1 ?_
    show 0 ∈ startCols m W.irrep.tableaux
    classical
    have hjw : 0 < (words (l + 1) [l + 1 - 2, 2]).length := by rw [← hrep.d_eq]; exact hdpos
    unfold startCols
    rw [List.mem_filter, List.mem_range, hrep.tab, List.length_map, decide_eq_true_iff]
    refine ⟨hjw, toTab (words (l + 1) [l + 1 - 2, 2])[0], by rw [List.getElem?_map, List.getElem?_eq_getElem hjw]; rfl, ?_⟩
    refine (startsWith_iff hp (by omega) ⟨_, List.getElem_mem hjw⟩).2 ?_
    have h1 : (words (l + 1) [l + 1 - 2, 2])[0] = (topW h4).1 := congrArg Subtype.val htop
    simp only [h1]
    exact topW_good h4 (by omega)
  obtain ⟨k, hk⟩ := hcol
  have hkm : k < W.m := by rw [hWm]; exact (List.getElem?_eq_some_iff.1 hk).1
  have h0 : Rounding.ieee.s 0 = 0 := by
    have := ieee_s 0
    unfold RelErr at this
    rw [abs_zero, mul_zero, sub_zero] at this
    exact abs_eq_zero.1 (le_antisymm this (abs_nonneg _))
  have hzero := frow_lost (m := m) h0 hord (by omega) (by omega) hp (tau := 2) (by omega) (by omega)
    (fun R hR => by rw [hR.packed_words (by omega) (by omega)]; exact not_packed_two hn) hLs _
    (f := fun e => if e = (l - 1) * (l ! / m !) then 1 else 0) (fun e he => by
      rw [if_neg]
      rintro rfl
      refine he ?_
      rw [Nat.add_sub_cancel, Nat.mul_div_cancel _ hq]; omega) hws W' hWmem' (by rw [← n1]; exact hlam) k (by rw [← n3]; exact hkm)
  have h1 := ht.entry (g := fun c => elem (l + 1) (c * m !)) (fun c hc => snsmElement_eq (l + 1) m (by omega) c hc) hWmem hrep (i := 0)
    (by rw [hd]; exact hdpos) hdpos hk hdpos
  have h5 : W.data 0 k = -1 / ((l : ℝ) - 1) := by
    rw [h1, Finset.sum_eq_single ((l - 1) * (l ! / m !))]
    · have h2 := elem_succ (m := m) (l := l) (t := l - 1) (e := 0) (by omega) hq
      rw [Nat.add_zero ((l - 1) * (l ! / m !)), Nat.zero_mul, elem_zero, extend_one, one_mul] at h2
      rw [if_pos rfl, one_mul, h2, inv_inv, htop, corner_ne_zero h4 (l - 1) (by omega) (by omega), if_neg (by omega)]
    · intro b _ hb; rw [if_neg hb, zero_mul]
    · intro hb; exact absurd (Finset.mem_range.2 hc) hb
  have h6 : (W'.data 0 k - W.data 0 k) ^ 2 ≤ ∑ i ∈ Finset.range W.d, (W'.data i k - W.data i k) ^ 2 :=
    Finset.single_le_sum (f := fun i => (W'.data i k - W.data i k) ^ 2) (fun _ _ => sq_nonneg _) (Finset.mem_range.2 (by rw [hd]; exact hdpos))
  have hl3 : (3 : ℝ) ≤ l := by exact_mod_cast (by omega : 3 ≤ l)
  have h7 := (Real.sqrt_le_sqrt h6).trans (n4 k hkm)
  rw [hzero, h5, show (0 - -1 / ((l : ℝ) - 1)) = 1 / ((l : ℝ) - 1) by ring, Real.sqrt_sq (by apply one_div_nonneg.2; linarith)] at h7
  rw [show (((l + 1 : Nat) : ℝ) - 2) = (l : ℝ) - 1 by push_cast; ring]
  exact h7

/-- **C111.** For `n≥5` there is a group element such that for the function with value one there and zero elsewhere, the result in
`float`, if there is any, has a column at a distance of at least `1/(n-2)` from the column of the transform. -/
theorem C111_fft_wrong (n : Nat) (hn : 5 ≤ n) :
    ∃ c < snSize n, ∀ ord : Nat → SumTree, (∀ k, 2 ≤ k → k ≤ n → (ord k).Covers k) → ∀ (ws ws' : List VPart) (ε : ℝ),
      HasShape allCols (partitions n) ws →
      IsTransform (snSize n) (fun c => element n c) (fun e => if e = c then 1 else 0) allCols ws →
      Rounding.ieee.fft ord n (fun e => if e = c then 1 else 0) = some ws' → NearVec ε ws ws' → 1 / ((n : ℝ) - 2) ≤ ε := by
  have hsz : snsmSize n 1 = snSize n := by simp [snsmSize, snSize]
  obtain ⟨c, hc, h⟩ := C111_fft_snsm_wrong n 1 (by omega) (by omega) hn
  refine ⟨c, by rw [← hsz]; exact hc, fun ord hord ws ws' ε hs ht hws hnear => ?_⟩
  have hs' := (hasShape_one (by omega) ws).2 hs
  refine h ord hord ws ws' ε hs' ?_ ?_ hnear
  · rw [← hsz] at ht
    exact isTransform_of_one (by omega) hs ht
  · unfold Rounding.fft at hws
    unfold Rounding.fftSnSm
    rw [Option.bind_eq_bind, Option.bind_eq_some_iff] at hws ⊢
    obtain ⟨Ls, hLs, hws⟩ := hws
    exact ⟨Ls, hLs, by simpa [snSize] using hws⟩

/-! ### examples -/

/-- adding in order -/
def inOrderOf (k : Nat) : SumTree := SumTree.inOrder (k - 1)

theorem inOrderOf_covers (k : Nat) (hk : 1 ≤ k) : (inOrderOf k).Covers k := by
  obtain ⟨j, rfl⟩ : ∃ j, k = j + 1 := ⟨k - 1, by omega⟩
  exact SumTree.inOrder_covers j

-- a function on `S9` with values of size one: every column to four digits
example (f : Nat → ℝ) := (C111_fft_reference 9 (by omega) inOrderOf f fun k h _ => inOrderOf_covers k (by omega)).imp
  fun _ h => h.imp fun _ h => h.imp fun _ h => h.2.2.2.2.2 (by omega)
example (f : Nat → ℝ) := C111_fft_partial 4 (by omega) inOrderOf f (by omega) fun k h _ => inOrderOf_covers k (by omega)
example (f : Nat → ℝ) := C111_fft_snsm_partial 10 9 (by omega) (by omega) inOrderOf (fun k h _ => inOrderOf_covers k (by omega)) f (Or.inr rfl)
example : Rounding.ieee.fft inOrderOf 6 (fun _ => 0) = none := C111_fft_undefined _ _ 6 (by omega) _
-- at `n=5` the error is a third
example := C111_fft_wrong 5 (by omega)
-- the four numbers in two pairs
example : (SumTree.node (.node (.leaf 2) (.leaf 0)) (.node (.leaf 1) (.leaf 3))).Covers 4 := by
  unfold SumTree.Covers; decide

end Snob.Props
