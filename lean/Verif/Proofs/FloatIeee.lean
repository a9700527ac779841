import Verif.Proofs.FloatCG
import Mathlib.Algebra.Order.Ring.Pow
import Mathlib.Tactic.IntervalCases

/-! # The bounds for IEEE arithmetic -/

namespace Snob

open IP
open scoped Nat

/-- `2^(-24)` -/
noncomputable abbrev us : ℝ := 1 / 16777216

/-- `2^(-53)` -/
noncomputable abbrev ud : ℝ := 1 / 9007199254740992

theorem ieee_s : RelErr us Rounding.ieee.s := by
  have := rnd_relErr 24
  have e : (2 : ℝ) ^ (-((24 : Nat) : ℤ)) = us := by norm_num [us]
  rw [e] at this
  exact this

theorem ieee_d : RelErr ud Rounding.ieee.d := by
  have := rnd_relErr 53
  have e : (2 : ℝ) ^ (-((53 : Nat) : ℤ)) = ud := by norm_num [ud]
  rw [e] at this
  exact this

theorem pow_mul_le {x : ℝ} (hx : 0 ≤ x) {m : Nat} (h : m * x ≤ 1 / 2) : (1 + x) ^ m * (1 - m * x) ≤ 1 := by
  rcases Nat.eq_zero_or_pos m with rfl | hm
  · simp
  have hm' : (1 : ℝ) ≤ m := by exact_mod_cast hm
  have hx1 : x ≤ 1 / 2 := le_trans (by nlinarith) h
  have h1 := one_add_mul_le_pow (a := -x) (by linarith) m
  have h2 : (1 + x) ^ m * (1 + -x) ^ m ≤ 1 := by
    rw [← mul_pow]
    exact pow_le_one₀ (by nlinarith) (by nlinarith)
  refine le_trans (mul_le_mul_of_nonneg_left ?_ (by positivity)) h2
  linarith

theorem pow_le_linear {x : ℝ} (hx : 0 ≤ x) {m : Nat} (h : m * x ≤ 1 / 2) : (1 + x) ^ m ≤ 1 + 2 * (m * x) := by
  have h4 := pow_mul_le hx h
  have h3 : 0 ≤ (1 + x) ^ m := by positivity
  have h5 : 1 ≤ (1 + 2 * (m * x)) * (1 - m * x) := by
    have : 0 ≤ m * x := by positivity
    nlinarith
  nlinarith

theorem stepErr_ieee : stepErr us ud ≤ 2 * us := by
  unfold stepErr cellErr us ud; norm_num

theorem actErr_ieee {n : Nat} (h : n * (n - 1) ≤ 2 ^ 23) : (1 + stepErr us ud) ^ (n * (n - 1) / 2) - 1 ≤ n * (n - 1 : Nat) / 2 ^ 23 := by
  have h0 := stepErr_nonneg (u := us) (v := ud) (by norm_num) (by norm_num)
  have hm : ((n * (n - 1) / 2 : Nat) : ℝ) ≤ (n * (n - 1) : Nat) / 2 := Nat.cast_div_le
  have hn : ((n * (n - 1) : Nat) : ℝ) ≤ 2 ^ 23 := by exact_mod_cast h
  have h1 : (1 + stepErr us ud) ^ (n * (n - 1) / 2) ≤ (1 + 2 * us) ^ (n * (n - 1) / 2) :=
    pow_le_pow_left₀ (by linarith) (by have := stepErr_ieee; linarith) _
  have h2 := pow_le_linear (x := 2 * us) (by norm_num) (m := n * (n - 1) / 2) (by
    unfold us; linarith)
  unfold us at h1 h2
  rw [← Nat.cast_mul]
  linarith

theorem charErr_pow (n d : Nat) : charErr us ud n d ≤ d * ((1 + us) ^ (d + 2 * n) - 1) := by
  have h0 := stepErr_nonneg (u := us) (v := ud) (by norm_num) (by norm_num)
  unfold charErr
  have h1 : (1 + stepErr us ud) ^ n ≤ (1 + us) ^ (2 * n) := by
    rw [pow_mul]
    refine pow_le_pow_left₀ (by linarith) ?_ _
    have := stepErr_ieee
    have : 0 ≤ us := by norm_num
    nlinarith
  refine mul_le_mul_of_nonneg_left ?_ (Nat.cast_nonneg d)
  rw [pow_add]
  exact sub_le_sub_right (mul_le_mul_of_nonneg_left h1 (by positivity)) 1

theorem charErr_ieee {n d : Nat} (h : d + 2 * n ≤ 2 ^ 23) : charErr us ud n d ≤ d * (d + 2 * n : Nat) / 2 ^ 23 := by
  have hn : ((d + 2 * n : Nat) : ℝ) ≤ 2 ^ 23 := by exact_mod_cast h
  have h2 := pow_le_linear (x := us) (by norm_num) (m := d + 2 * n) (by unfold us; linarith)
  refine (charErr_pow n d).trans ?_
  rw [mul_div_assoc]
  refine mul_le_mul_of_nonneg_left ?_ (Nat.cast_nonneg d)
  unfold us at h2 ⊢
  linarith

theorem kronErr_ten {n D : Nat} (hn : 1 ≤ n) (h10 : n ≤ 10) (hD : D * D ≤ n !) : kronErr us ud n (partitions n).length D < 1 := by
  have hN : (partitions n).length ≤ 42 := by
    interval_cases n <;> decide +kernel
  have hd : D ≤ 1904 := by
    by_contra hlt
    push Not at hlt
    have h1 : 1905 * 1905 ≤ D * D := Nat.mul_le_mul hlt hlt
    have h2 : n ! ≤ 10 ! := Nat.factorial_le h10
    have h3 : 10 ! = 3628800 := rfl
    omega
  refine lt_of_le_of_lt (kronErr_mono (by norm_num) (by norm_num) (by norm_num) h10 hN hd) ?_
  have hc : charErr us ud 10 1904 ≤ 219 / 1000 := by
    refine (charErr_pow 10 1904).trans ?_
    have h := pow_mul_le (x := us) (by norm_num) (m := 1904 + 2 * 10) (by norm_num [us])
    generalize (1 + us) ^ (1904 + 2 * 10) = y at h ⊢
    norm_num [us] at h ⊢
    linarith
  have hc0 := charErr_nonneg (u := us) (v := ud) (by norm_num) (by norm_num) 10 1904
  have h3 : (1 + charErr us ud 10 1904) ^ 3 ≤ (1 + 219 / 1000) ^ 3 := pow_le_pow_left₀ (by linarith) (by linarith) 3
  have hp : (1 + us) ^ (42 + 5) / (1 - us) - 1 ≤ 1 / 100000 := by unfold us; norm_num
  have hp0 : 0 ≤ (1 + us) ^ (42 + 5) / (1 - us) - 1 := by unfold us; norm_num
  unfold kronErr
  have := mul_le_mul hp (by linarith : ((1904 : Nat) : ℝ) + ((1 + charErr us ud 10 1904) ^ 3 - 1) ≤ (1904 : Nat) + ((1 + 219 / 1000) ^ 3 - 1))
    (by have : (1 : ℝ) ≤ (1 + charErr us ud 10 1904) ^ 3 := one_le_pow₀ (by linarith)
        have : (0 : ℝ) ≤ ((1904 : Nat) : ℝ) := Nat.cast_nonneg _
        linarith) (by norm_num)
  norm_num at this h3 ⊢
  linarith

theorem kronErr_nine {n D : Nat} (hn : 1 ≤ n) (h9 : n ≤ 9) (hD : D * D ≤ n !) : kronErr us ud n (partitions n).length D ≤ 1 / 5 := by
  have hN : (partitions n).length ≤ 30 := by
    interval_cases n <;> decide +kernel
  have hd : D ≤ 602 := by
    by_contra hlt
    push Not at hlt
    have h1 : 603 * 603 ≤ D * D := Nat.mul_le_mul hlt hlt
    have h2 : n ! ≤ 9 ! := Nat.factorial_le h9
    have h3 : 9 ! = 362880 := rfl
    omega
  refine (kronErr_mono (by norm_num) (by norm_num) (by norm_num) h9 hN hd).trans ?_
  have hc : charErr us ud 9 602 ≤ 9 / 200 := by
    refine (charErr_ieee (by norm_num)).trans ?_
    norm_num
  have hc0 := charErr_nonneg (u := us) (v := ud) (by norm_num) (by norm_num) 9 602
  have h3 : (1 + charErr us ud 9 602) ^ 3 ≤ (1 + 9 / 200) ^ 3 := pow_le_pow_left₀ (by linarith) (by linarith) 3
  have hp : (1 + us) ^ (30 + 5) / (1 - us) - 1 ≤ 1 / 100000 := by unfold us; norm_num
  have hp0 : 0 ≤ (1 + us) ^ (30 + 5) / (1 - us) - 1 := by unfold us; norm_num
  unfold kronErr
  have := mul_le_mul hp (by linarith : ((602 : Nat) : ℝ) + ((1 + charErr us ud 9 602) ^ 3 - 1) ≤ (602 : Nat) + ((1 + 9 / 200) ^ 3 - 1))
    (by have : (1 : ℝ) ≤ (1 + charErr us ud 9 602) ^ 3 := one_le_pow₀ (by linarith)
        have : (0 : ℝ) ≤ ((602 : Nat) : ℝ) := Nat.cast_nonneg _
        linarith) (by norm_num)
  norm_num at this h3 ⊢
  linarith

end Snob
