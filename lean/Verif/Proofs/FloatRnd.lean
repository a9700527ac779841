import Verif.Model.Float
import Verif.Spec.Float
import Mathlib.Algebra.Order.Field.Power
import Mathlib.Tactic.Linarith
import Mathlib.Tactic.Positivity
import Mathlib.Tactic.Ring
import Mathlib.Tactic.FieldSimp
import Mathlib.Tactic.NormNum

/-! # Rounding to nearest, ties to even -/

namespace Snob

theorem halfEven_err (y : ℝ) : |(halfEven y : ℝ) - y| ≤ 1 / 2 := by
  have h := Int.floor_add_fract y
  have h0 := Int.fract_nonneg y
  have h1 := Int.fract_lt_one y
  unfold halfEven
  split_ifs <;> push_cast <;> rw [abs_le] <;> constructor <;> linarith

/-- the nearest integer -/
theorem halfEven_nearest (y : ℝ) (k : ℤ) : |(halfEven y : ℝ) - y| ≤ |(k : ℝ) - y| := by
  have h := halfEven_err y
  by_cases hk : k = halfEven y
  · rw [hk]
  · have h1 : (1 : ℝ) ≤ |(k : ℝ) - halfEven y| := by
      have : 1 ≤ |k - halfEven y| := Int.one_le_abs (sub_ne_zero.2 hk)
      exact_mod_cast this
    have h2 := abs_sub_le (k : ℝ) y (halfEven y)
    rw [abs_sub_comm y] at h2
    linarith

/-- a tie -/
theorem halfEven_tie (y : ℝ) (k : ℤ) (hk : k ≠ halfEven y) (h : |(halfEven y : ℝ) - y| = |(k : ℝ) - y|) : Even (halfEven y) := by
  have h0 := halfEven_err y
  have h1 : (1 : ℝ) ≤ |(k : ℝ) - halfEven y| := by
    have : 1 ≤ |k - halfEven y| := Int.one_le_abs (sub_ne_zero.2 hk)
    exact_mod_cast this
  have h2 := abs_sub_le (k : ℝ) y (halfEven y)
  rw [abs_sub_comm y] at h2
  have h3 : |(halfEven y : ℝ) - y| = 1 / 2 := by linarith
  have hf := Int.floor_add_fract y
  have hf0 := Int.fract_nonneg y
  have hf1 := Int.fract_lt_one y
  unfold halfEven at h3 ⊢
  split_ifs at h3 ⊢ with a b c
  · rw [abs_of_nonpos (by linarith)] at h3; linarith
  · push_cast at h3
    rw [abs_of_nonneg (by linarith)] at h3; linarith
  · exact c
  · exact Int.not_even_iff_odd.1 c |>.add_one

theorem halfEven_neg (y : ℝ) : halfEven (-y) = - halfEven y := by
  by_cases hz : Int.fract y = 0
  · have hy : y = (⌊y⌋ : ℝ) := by have := Int.floor_add_fract y; linarith
    have e : ∀ k : ℤ, halfEven (k : ℝ) = k := fun k => by unfold halfEven; simp
    rw [hy, e, ← Int.cast_neg, e]
  · have hf : Int.fract (-y) = 1 - Int.fract y := Int.fract_neg hz
    have hfl : ⌊-y⌋ = -⌊y⌋ - 1 := by
      rw [Int.floor_neg, (Int.ceil_eq_floor_add_one_iff_notMem y).2]
      · ring
      · rintro ⟨k, rfl⟩; simp at hz
    unfold halfEven
    rw [hf, hfl]
    rcases lt_trichotomy (Int.fract y) (1 / 2) with h | h | h
    · rw [if_neg (by linarith), if_pos (by linarith), if_pos h]; ring
    · have q1 : ¬ (1 - 1 / 2 : ℝ) < 1 / 2 := by norm_num
      have q2 : ¬ (1 / 2 : ℝ) < 1 - 1 / 2 := by norm_num
      rw [h, if_neg q1, if_neg q2, if_neg (lt_irrefl _), if_neg (lt_irrefl _)]
      have : Even (-⌊y⌋ - 1) ↔ ¬ Even ⌊y⌋ := by
        rw [Int.even_sub_one, even_neg]
      by_cases c : Even ⌊y⌋
      · rw [if_neg (fun h => this.1 h c), if_pos c]; ring
      · rw [if_pos (this.2 c), if_neg c]; ring
    · rw [if_pos (by linarith), if_neg (by linarith), if_pos h]; ring

theorem halfEven_zero : halfEven 0 = 0 := by unfold halfEven; simp

theorem rnd_zero (p : Nat) : rnd p 0 = 0 := by
  unfold rnd; simp [halfEven_zero]

theorem rnd_odd (p : Nat) : Odd' (rnd p) := by
  intro x
  unfold rnd
  simp only [abs_neg, neg_div, halfEven_neg, Int.cast_neg, neg_mul]

/-- the scaled number -/
theorem rnd_scale {p : Nat} {x : ℝ} (hx : x ≠ 0) :
    (2 : ℝ) ^ ((p : ℤ) - 1) ≤ |x / 2 ^ (Int.log 2 |x| - ((p : ℤ) - 1))| ∧
      |x / 2 ^ (Int.log 2 |x| - ((p : ℤ) - 1))| < (2 : ℝ) ^ (p : ℤ) := by
  have hx' : 0 < |x| := abs_pos.2 hx
  have h1 := Int.zpow_log_le_self (b := 2) (by norm_num) hx'
  have h2 := Int.lt_zpow_succ_log_self (b := 2) (by norm_num) |x|
  push_cast at h1 h2
  set L := Int.log 2 |x|
  have hpos : (0 : ℝ) < 2 ^ (L - ((p : ℤ) - 1)) := by positivity
  rw [abs_div, abs_of_pos hpos, le_div_iff₀ hpos, div_lt_iff₀ hpos, ← zpow_add₀ (by norm_num), ← zpow_add₀ (by norm_num)]
  constructor
  · rwa [show (p : ℤ) - 1 + (L - (p - 1)) = L by ring]
  · rwa [show (p : ℤ) + (L - (p - 1)) = L + 1 by ring]

theorem rnd_relErr (p : Nat) : RelErr ((2 : ℝ) ^ (-(p : ℤ))) (rnd p) := by
  intro x
  by_cases hx : x = 0
  · subst hx; rw [rnd_zero]; simp
  obtain ⟨h1, -⟩ := rnd_scale (p := p) hx
  unfold rnd
  simp only
  set e := Int.log 2 |x| - ((p : ℤ) - 1)
  have hpos : (0 : ℝ) < 2 ^ e := by positivity
  have h3 := halfEven_err (x / 2 ^ e)
  have e1 : (halfEven (x / 2 ^ e) : ℝ) * 2 ^ e - x = (halfEven (x / 2 ^ e) - x / 2 ^ e) * 2 ^ e := by field_simp
  rw [e1, abs_mul, abs_of_pos hpos]
  rw [abs_div, abs_of_pos hpos, le_div_iff₀ hpos] at h1
  have h4 : (2 : ℝ) ^ (-(p : ℤ)) * ((2 : ℝ) ^ ((p : ℤ) - 1) * 2 ^ e) = 1 / 2 * 2 ^ e := by
    rw [← mul_assoc, ← zpow_add₀ (by norm_num), show -(p : ℤ) + (p - 1) = -1 by ring]
    norm_num
  have h5 : (0 : ℝ) < (2 : ℝ) ^ (-(p : ℤ)) := by positivity
  have h6 := mul_le_mul_of_nonneg_left h1 h5.le
  rw [h4] at h6
  have h7 := mul_le_mul_of_nonneg_right h3 hpos.le
  linarith

theorem isFloat_scale {p : Nat} {x : ℝ} (e : ℤ) : IsFloat p (x / 2 ^ e) ↔ IsFloat p x := by
  constructor
  · rintro ⟨m, f, h1, h2⟩
    refine ⟨m, f + e, h1, ?_⟩
    rw [zpow_add₀ (by norm_num), ← mul_assoc, ← h2]
    field_simp
  · rintro ⟨m, f, h1, h2⟩
    refine ⟨m, f - e, h1, ?_⟩
    rw [h2, zpow_sub₀ (by norm_num), mul_div_assoc]

theorem isFloat_int {p : Nat} (hp : 1 ≤ p) {k : ℤ} (h : |k| ≤ 2 ^ p) : IsFloat p (k : ℝ) := by
  rcases lt_or_eq_of_le h with h | h
  · exact ⟨k, 0, h, by simp⟩
  · have h2 : (1 : ℤ) < 2 ^ p := one_lt_pow₀ (by norm_num) (by omega)
    rcases abs_choice k with hk | hk
    · refine ⟨1, p, by simpa using h2, ?_⟩
      rw [← hk, h]; push_cast; simp
    · refine ⟨-1, p, by simpa using h2, ?_⟩
      have : k = -2 ^ p := by rw [← h, hk]; ring
      rw [this]; push_cast; simp

theorem rnd_as_scaled (p : Nat) (x : ℝ) :
    rnd p x / 2 ^ (Int.log 2 |x| - ((p : ℤ) - 1)) = halfEven (x / 2 ^ (Int.log 2 |x| - ((p : ℤ) - 1))) := by
  unfold rnd
  simp only
  field_simp

theorem halfEven_bound {p : Nat} {y : ℝ} (h : |y| < 2 ^ (p : ℤ)) : |halfEven y| ≤ 2 ^ p := by
  have h1 := halfEven_nearest y (2 ^ p)
  have h2 := halfEven_nearest y (-2 ^ p)
  have h' := h
  rw [zpow_natCast] at h'
  push_cast at h1 h2
  obtain ⟨h3, h4⟩ := abs_lt.1 h'
  rw [abs_of_nonneg (a := (2 : ℝ) ^ p - y) (by linarith)] at h1
  rw [abs_of_nonpos (a := -(2 : ℝ) ^ p - y) (by linarith)] at h2
  have h5 := le_abs_self ((halfEven y : ℝ) - y)
  have h6 := neg_abs_le ((halfEven y : ℝ) - y)
  rw [abs_le]
  constructor
  · have : (-(2 : ℝ) ^ p) ≤ halfEven y := by linarith
    exact_mod_cast this
  · have : (halfEven y : ℝ) ≤ 2 ^ p := by linarith
    exact_mod_cast this

/-- a number of the format near a large number is an integer, or a power of two is nearer -/
theorem isFloat_near {p : Nat} (hp : 1 ≤ p) {X Y : ℝ} (hX : (2 : ℝ) ^ ((p : ℤ) - 1) ≤ |X|) (hY : IsFloat p Y) :
    (∃ k : ℤ, Y = k) ∨ ∃ k : ℤ, |(k : ℝ) - X| < |Y - X| := by
  obtain ⟨m, f, hm, rfl⟩ := hY
  rcases le_or_gt 0 f with hf | hf
  · left
    refine ⟨m * 2 ^ f.toNat, ?_⟩
    push_cast
    rw [← zpow_natCast, Int.toNat_of_nonneg hf]
  · right
    have hm' : |(m : ℝ)| < 2 ^ (p : ℤ) := by
      rw [zpow_natCast]; exact_mod_cast hm
    have hlt : |(m : ℝ) * 2 ^ f| < 2 ^ ((p : ℤ) - 1) := by
      have hpos : (0 : ℝ) < 2 ^ f := by positivity
      have h2 : (2 : ℝ) ^ f ≤ 2 ^ (-1 : ℤ) := zpow_le_zpow_right₀ (by norm_num) (by omega)
      have h3 : (2 : ℝ) ^ ((p : ℤ) - 1) = 2 ^ (p : ℤ) * 2 ^ (-1 : ℤ) := by rw [← zpow_add₀ (by norm_num)]; rfl
      rw [abs_mul, abs_of_pos hpos, h3]
      calc |(m : ℝ)| * 2 ^ f < 2 ^ (p : ℤ) * 2 ^ f := mul_lt_mul_of_pos_right hm' hpos
        _ ≤ _ := mul_le_mul_of_nonneg_left h2 (by positivity)
    have hpe : (2 : ℝ) ^ ((p : ℤ) - 1) = ((2 ^ (p - 1) : ℤ) : ℝ) := by
      push_cast
      rw [← zpow_natCast, Nat.cast_sub hp]; rfl
    rw [hpe] at hX hlt
    obtain ⟨h1, h2⟩ := abs_lt.1 hlt
    rcases le_or_gt 0 X with hs | hs
    · rw [abs_of_nonneg hs] at hX
      refine ⟨2 ^ (p - 1), ?_⟩
      rw [abs_of_nonpos (by linarith), abs_of_nonpos (by linarith)]
      linarith
    · rw [abs_of_neg hs] at hX
      refine ⟨-2 ^ (p - 1), ?_⟩
      push_cast at hX h1 h2 ⊢
      rw [abs_of_nonneg (by linarith), abs_of_nonneg (by linarith)]
      linarith

theorem abs_scale (a b : ℝ) (e : ℤ) : |a / 2 ^ e - b / 2 ^ e| = |a - b| / 2 ^ e := by
  rw [← sub_div, abs_div, abs_of_pos (by positivity : (0 : ℝ) < 2 ^ e)]

theorem rnd_nearest {p : Nat} (hp : 1 ≤ p) : RoundsToNearest p (rnd p) := by
  constructor
  · intro x
    by_cases hx : x = 0
    · subst hx; rw [rnd_zero]; exact ⟨0, 0, by simp, by simp⟩
    · rw [← isFloat_scale (Int.log 2 |x| - ((p : ℤ) - 1)), rnd_as_scaled]
      exact isFloat_int hp (halfEven_bound (rnd_scale hx).2)
  · intro x y hy
    by_cases hx : x = 0
    · subst hx; rw [rnd_zero]; simp
    · have hpos : (0 : ℝ) < 2 ^ (Int.log 2 |x| - ((p : ℤ) - 1)) := by positivity
      rw [← div_le_div_iff_of_pos_right hpos, ← abs_scale, ← abs_scale, rnd_as_scaled]
      rcases isFloat_near hp (rnd_scale hx).1 ((isFloat_scale _).2 hy) with ⟨k, hk⟩ | ⟨k, hk⟩
      · rw [hk]; exact halfEven_nearest _ k
      · exact (halfEven_nearest _ k).trans hk.le

theorem rnd_even {p : Nat} (hp : 2 ≤ p) : TiesToEven p (rnd p) := by
  intro x y hy hne htie
  by_cases hx : x = 0
  · subst hx; rw [rnd_zero]; exact ⟨0, 0, by simp, by simp⟩
  · have hpos : (0 : ℝ) < 2 ^ (Int.log 2 |x| - ((p : ℤ) - 1)) := by positivity
    rw [← div_left_inj' hpos.ne', ← abs_scale, ← abs_scale, rnd_as_scaled] at htie
    rw [← isFloat_scale (Int.log 2 |x| - ((p : ℤ) - 1)), rnd_as_scaled]
    rcases isFloat_near (by omega) (rnd_scale hx).1 ((isFloat_scale _).2 hy) with ⟨k, hk⟩ | ⟨k, hk⟩
    · rw [hk] at htie
      have hk' : k ≠ halfEven (x / 2 ^ (Int.log 2 |x| - ((p : ℤ) - 1))) := by
        intro e
        apply hne
        rw [← div_left_inj' hpos.ne', rnd_as_scaled, hk, e]
      obtain ⟨m, hm⟩ := halfEven_tie _ k hk' htie
      have hb := halfEven_bound (rnd_scale (p := p) hx).2
      rw [hm] at hb ⊢
      have hb' : |m| ≤ 2 ^ (p - 1) := by
        have e2 : (2 : ℤ) ^ p = 2 * 2 ^ (p - 1) := by rw [← pow_succ']; congr 1; omega
        rw [← two_mul, abs_mul, e2, abs_two] at hb
        linarith
      obtain ⟨a, b, h1, h2⟩ := isFloat_int (p := p - 1) (by omega) hb'
      refine ⟨a, b + 1, h1, ?_⟩
      rw [zpow_add₀ (by norm_num), ← mul_assoc, ← h2]
      push_cast; ring
    · exact absurd (halfEven_nearest (x / 2 ^ (Int.log 2 |x| - ((p : ℤ) - 1))) k) (by rw [htie]; exact not_le.2 hk)

/-- rounding within a binade -/
theorem rnd_of_near {p : Nat} {x : ℝ} {e m : ℤ} (h : |x / 2 ^ e - m| < 1 / 2) (h1 : (2 : ℝ) ^ ((p : ℤ) - 1) ≤ |x / 2 ^ e|)
    (h2 : |x / 2 ^ e| < 2 ^ (p : ℤ)) : rnd p x = m * 2 ^ e := by
  have hpos : (0 : ℝ) < 2 ^ e := by positivity
  have hL : Int.log 2 |x| - ((p : ℤ) - 1) = e := by
    rw [abs_div, abs_of_pos hpos, le_div_iff₀ hpos, ← zpow_add₀ (by norm_num)] at h1
    rw [abs_div, abs_of_pos hpos, div_lt_iff₀ hpos, ← zpow_add₀ (by norm_num)] at h2
    have hx : 0 < |x| := lt_of_lt_of_le (by positivity) h1
    have a1 : (p : ℤ) - 1 + e ≤ Int.log 2 |x| := (Int.zpow_le_iff_le_log (b := 2) (by norm_num) hx).1 (by push_cast; exact h1)
    have a2 : Int.log 2 |x| < (p : ℤ) + e := (Int.lt_zpow_iff_log_lt (b := 2) (by norm_num) hx).1 (by push_cast; exact h2)
    omega
  unfold rnd
  simp only [hL]
  congr 2
  by_contra hne
  have b1 := halfEven_nearest (x / 2 ^ e) m
  have b2 : (1 : ℝ) ≤ |(halfEven (x / 2 ^ e) : ℝ) - m| := by
    have : 1 ≤ |halfEven (x / 2 ^ e) - m| := Int.one_le_abs (sub_ne_zero.2 hne)
    exact_mod_cast this
  have b3 := abs_sub_le (halfEven (x / 2 ^ e) : ℝ) (x / 2 ^ e) m
  rw [abs_sub_comm (m : ℝ)] at b1
  linarith

/-- numbers of the format are not changed -/
theorem rnd_exact {p : Nat} (hp : 1 ≤ p) {x : ℝ} (h : IsFloat p x) : rnd p x = x := by
  have := (rnd_nearest hp).nearest x x h
  rw [sub_self, abs_zero] at this
  have := abs_nonpos_iff.1 this
  linarith

end Snob
