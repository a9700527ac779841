import Verif.Model.FloatFn
import Verif.Proofs.Function
import Verif.Proofs.FFTSurj
import Verif.Proofs.FloatIeee

/-! # Sums of products in floating point, and convolution -/

namespace Snob

/-- products are rounded, and added up one after the other with rounding -/
noncomputable def fsum (r : ℝ → ℝ) (x : Nat → ℝ) : Nat → ℝ
  | 0 => 0
  | k + 1 => r (fsum r x k + r (x k))

theorem fsum_err {r : ℝ → ℝ} {u : ℝ} (hr : RelErr u r) (hi : ∀ x, r (r x) = r x) (hu : 0 ≤ u) (x : Nat → ℝ) (k : Nat) :
    |fsum r x k - ∑ j ∈ Finset.range k, x j| ≤ ((1 + u) ^ k - 1) * ∑ j ∈ Finset.range k, |x j| := by
  induction k with
  | zero => simp [fsum]
  | succ k ih =>
    rcases Nat.eq_zero_or_pos k with rfl | hk
    · simp only [fsum, zero_add, hi, Finset.sum_range_one, pow_one, add_sub_cancel_left]
      exact hr (x 0)
    · rw [fsum]
      have hE : u ≤ (1 + u) ^ k - 1 := by
        have := pow_le_pow_right₀ (by linarith : (1 : ℝ) ≤ 1 + u) hk
        rw [pow_one] at this
        linarith
      have h1 : |fsum r x k + r (x k) - ∑ j ∈ Finset.range (k + 1), x j| ≤
          ((1 + u) ^ k - 1) * ∑ j ∈ Finset.range (k + 1), |x j| := by
        rw [Finset.sum_range_succ, Finset.sum_range_succ, mul_add,
          show fsum r x k + r (x k) - (∑ j ∈ Finset.range k, x j + x k) =
            (fsum r x k - ∑ j ∈ Finset.range k, x j) + (r (x k) - x k) by ring]
        refine (abs_add_le _ _).trans (add_le_add ih ((hr (x k)).trans ?_))
        exact mul_le_mul_of_nonneg_right hE (abs_nonneg _)
      have h2 := hr.le hu h1 (Finset.abs_sum_le_sum_abs _ _)
      refine h2.trans (le_of_eq ?_)
      ring

/-- an integer sum is exact as long as the absolute values add up to at most `2^p` -/
theorem fsum_int {p : Nat} (hp : 1 ≤ p) (c : ℤ) (x : Nat → ℝ) (z : Nat → ℤ) (hz : ∀ j, x j = z j * 2 ^ c) (k : Nat)
    (h : ∑ j ∈ Finset.range k, |x j| ≤ 2 ^ ((p : ℤ) + c)) : fsum (rnd p) x k = ∑ j ∈ Finset.range k, x j := by
  have h2c : (0 : ℝ) < 2 ^ c := by positivity
  have hfl : ∀ w : ℤ, |(w : ℝ) * 2 ^ c| ≤ 2 ^ ((p : ℤ) + c) → rnd p ((w : ℝ) * 2 ^ c) = (w : ℝ) * 2 ^ c := fun w hw => by
    refine rnd_exact hp ((isFloat_scale c).1 ?_)
    rw [mul_div_cancel_right₀ _ h2c.ne']
    refine isFloat_int hp ?_
    rw [abs_mul, abs_of_pos h2c, zpow_add₀ (by norm_num), mul_le_mul_iff_left₀ h2c] at hw
    have : ((|w| : ℤ) : ℝ) ≤ ((2 ^ p : ℤ) : ℝ) := by
      rw [Int.cast_abs]; push_cast; exact_mod_cast hw
    exact_mod_cast this
  induction k with
  | zero => rfl
  | succ k ih =>
    have hle : ∑ j ∈ Finset.range k, |x j| ≤ 2 ^ ((p : ℤ) + c) := by
      rw [Finset.sum_range_succ] at h
      have := abs_nonneg (x k)
      linarith
    have hk : |x k| ≤ 2 ^ ((p : ℤ) + c) := by
      rw [Finset.sum_range_succ] at h
      have := Finset.sum_nonneg fun j (_ : j ∈ Finset.range k) => abs_nonneg (x j)
      linarith
    rw [fsum, ih hle, hz k, hfl _ (by rw [← hz]; exact hk), ← hz k, ← Finset.sum_range_succ]
    have hs : ∑ j ∈ Finset.range (k + 1), x j = ((∑ j ∈ Finset.range (k + 1), z j : ℤ) : ℝ) * 2 ^ c := by
      push_cast
      rw [Finset.sum_mul]
      exact Finset.sum_congr rfl fun j _ => hz j
    rw [hs]
    refine hfl _ ?_
    rw [← hs]
    exact (Finset.abs_sum_le_sum_abs _ _).trans h

/-- a sum with one term is exact -/
theorem fsum_single {r : ℝ → ℝ} (h0 : r 0 = 0) {x : Nat → ℝ} {i k : Nat} (hx : ∀ j, j ≠ i → x j = 0) (hi : r (x i) = x i) :
    fsum r x k = if i < k then x i else 0 := by
  induction k with
  | zero => rfl
  | succ k ih =>
    rw [fsum, ih]
    rcases lt_trichotomy i k with h | h | h
    · rw [if_pos h, if_pos (by omega), hx k (by omega), h0, add_zero, hi]
    · subst h
      rw [if_neg (by omega), if_pos (by omega), zero_add, hi, hi]
    · rw [if_neg (by omega), if_neg (by omega), hx k (by omega), h0, add_zero, h0]

section
variable {E G : Type} [Group G] {I : GroupI E} {e : Fin I.size ≃ G} {rep : G → E} (F : Rounding)

/-- the terms of the sum for `x` in the order of the loop -/
noncomputable def convTerm (e : Fin I.size ≃ G) (f g : G → ℝ) (x : G) (j : Nat) : ℝ :=
  if h : j < I.size then f (x * (e ⟨j, h⟩)⁻¹) * g (e ⟨j, h⟩) else 0

theorem fconvolve_eq (h : Implements I e rep) (f g : G → ℝ) :
    F.convolve I (cellsOf e f) (cellsOf e g) = some (cellsOf e fun x => fsum F.s (convTerm e f g x) I.size) := by
  unfold Rounding.convolve
  rw [if_pos (by simp)]
  simp only [length_cellsOf]
  have hin : ∀ x : G, forUp 0 (I.size : Int) (0 : ℝ) (fun j t => do
        let x' ← I.element j
        let y ← I.inverse x'
        let z ← I.mul (rep x) y
        let a ← I.value (cellsOf e f) z
        let b ← rdC (cellsOf e g) j
        some (F.s (t + F.s (a * b)))) = some (fsum F.s (convTerm e f g x) I.size) := by
    intro x
    obtain ⟨s, hs, hd⟩ := forUp_inv (S := ℝ) (lo := 0) (hi := (I.size : Int)) (s := (0 : ℝ))
      (body := fun j t => do
        let x' ← I.element j
        let y ← I.inverse x'
        let z ← I.mul (rep x) y
        let a ← I.value (cellsOf e f) z
        let b ← rdC (cellsOf e g) j
        some (F.s (t + F.s (a * b))))
      (fun i s => s = fsum F.s (convTerm e f g x) i.toNat)
      (by omega) rfl (by
        intro i s hi1 hi2 hs
        obtain ⟨j, rfl⟩ : ∃ j : Nat, i = (j : Int) := ⟨i.toNat, by omega⟩
        have hj : j < I.size := by omega
        have h1 := h.element ⟨j, hj⟩
        have h2 := rdC_cellsOf (e := e) g ⟨j, hj⟩
        refine ⟨F.s (s + F.s (f (x * (e ⟨j, hj⟩)⁻¹) * g (e ⟨j, hj⟩))), ?_, ?_⟩
        · simp only [Option.bind_eq_bind]
          rw [h1, Option.bind_some, h.inverse, Option.bind_some, h.mul, Option.bind_some, h.value_eq, Option.bind_some, h2,
            Option.bind_some]
        · rw [hs, show ((j : Int) + 1).toNat = j + 1 by omega, fsum, Int.toNat_natCast]
          unfold convTerm
          rw [dif_pos hj])
    rw [hs, hd, Int.toNat_natCast]
  have := fill_loop (N := I.size) (fun i => do
      let sigma ← I.element i
      forUp 0 (I.size : Int) (0 : ℝ) (fun j t => do
        let x' ← I.element j
        let y ← I.inverse x'
        let z ← I.mul sigma y
        let a ← I.value (cellsOf e f) z
        let b ← rdC (cellsOf e g) j
        some (F.s (t + F.s (a * b)))))
    (fun i => if hi : i < I.size then fsum F.s (convTerm e f g (e ⟨i, hi⟩)) I.size else 0) (by
      intro i hi
      have h1 := h.element ⟨i, hi⟩
      simp only [Option.bind_eq_bind] at h1 ⊢
      rw [h1, Option.bind_some, dif_pos hi]
      exact hin (e ⟨i, hi⟩))
  simp only [Option.bind_eq_bind, Option.bind_assoc] at this ⊢
  rw [this, cellsOf]
  congr 2
  funext i
  rw [dif_pos i.2]

theorem convTerm_lt (f g : G → ℝ) (x : G) {j : Nat} (h : j < I.size) :
    convTerm e f g x j = f (x * (e ⟨j, h⟩)⁻¹) * g (e ⟨j, h⟩) := by
  unfold convTerm
  rw [dif_pos h]

theorem mem_cellsOf {α : Type} (f : G → α) (x : G) : some (f x) ∈ cellsOf e f := by
  unfold cellsOf
  rw [List.mem_ofFn]
  exact ⟨e.symm x, by rw [Equiv.apply_symm_apply]⟩

theorem convTerm_zpow {a b : ℤ} {f g : G → ℝ} (hf : ∀ x, ∃ k : ℤ, f x = k * 2 ^ a) (hg : ∀ x, ∃ k : ℤ, g x = k * 2 ^ b) (x : G)
    (j : Nat) : ∃ z : ℤ, convTerm e f g x j = z * 2 ^ (a + b) := by
  unfold convTerm
  split
  · rename_i hj
    obtain ⟨k, hk⟩ := hf (x * (e ⟨j, hj⟩)⁻¹)
    obtain ⟨l, hl⟩ := hg (e ⟨j, hj⟩)
    refine ⟨k * l, ?_⟩
    rw [hk, hl, zpow_add₀ (by norm_num)]
    push_cast
    ring
  · exact ⟨0, by simp⟩

theorem fsum_convTerm_single {r : ℝ → ℝ} (h0 : r 0 = 0) (a b : G → ℝ) (x z : G) (h1 : ∀ y, y ≠ z → a (x * y⁻¹) * b y = 0)
    (h2 : r (a (x * z⁻¹) * b z) = a (x * z⁻¹) * b z) : fsum r (convTerm e a b x) I.size = a (x * z⁻¹) * b z := by
  have hlt := (e.symm z).2
  have h3 : convTerm e a b x (e.symm z : Nat) = a (x * z⁻¹) * b z := by
    rw [convTerm_lt _ _ _ hlt, Fin.eta, Equiv.apply_symm_apply]
  rw [fsum_single h0 (i := (e.symm z : Nat)) _ (by rw [h3, h2]), if_pos hlt, h3]
  intro j hj
  unfold convTerm
  split
  · rename_i hj'
    refine h1 _ fun he => hj ?_
    rw [← he, Equiv.symm_apply_apply]
  · rfl

theorem sum_convTerm [Fintype G] (f g : G → ℝ) (x : G) (φ : ℝ → ℝ) :
    ∑ j ∈ Finset.range I.size, φ (convTerm e f g x j) = ∑ y, φ (f (x * y⁻¹) * g y) := by
  rw [Finset.sum_range, ← Equiv.sum_comp e fun y => φ (f (x * y⁻¹) * g y)]
  refine Finset.sum_congr rfl fun j _ => ?_
  unfold convTerm
  rw [dif_pos j.2]

end

end Snob
