import Verif.Proofs.FloatFn
import Verif.Proofs.FloatEval
import Verif.Spec.Perm

/-! # Property C110: convolution in floating point -/

namespace Snob.Props

open Snob Perm
open scoped Nat

section
variable (n : Nat) (hn : 1 ≤ n)
include hn

/-- The values `f(s*t.inv())` and `g(t)` that belong to the value of the convolution at `s`, for the `j`-th element `t`. -/
def ConvValues (n : Nat) (f g : Cells ℝ) (s : Arr) (A B : Nat → ℝ) : Prop :=
  ∀ j < n !, ∃ t u v, element n j = some t ∧ Perm.inverse t = some u ∧ mul s u = some v ∧
    (snGroup n).value f v = some (A j) ∧ (snGroup n).value g t = some (B j)

/-- **C110.** The convolution of two functions in `float` is defined and written everywhere. With `N=n!` and `u=2^-24` its value at
`s` differs from the sum of `f(s*t.inv()) g(t)` over all `t` by at most `(1+u)^N-1` times the sum of the absolute values, which for
`n ≤ 10` is at most `2Nu` times that sum. -/
theorem C110_convolve_error (f g : Cells ℝ) (hf : Written (n !) f) (hg : Written (n !) g) :
    ∃ h, Rounding.ieee.convolve (snGroup n) f g = some h ∧ Written (n !) h ∧ ∀ s, IsPerm n s → ∃ A B y, ConvValues n f g s A B ∧
      (snGroup n).value h s = some y ∧
      |y - ∑ j ∈ Finset.range (n !), A j * B j| ≤ ((1 + 2⁻¹ ^ 24) ^ (n !) - 1) * ∑ j ∈ Finset.range (n !), |A j * B j| ∧
      (n ≤ 10 → |y - ∑ j ∈ Finset.range (n !), A j * B j| ≤ n ! / 2 ^ 23 * ∑ j ∈ Finset.range (n !), |A j * B j|) := by
  have hI := snGroup_implements n hn
  obtain ⟨f, rfl⟩ := (written_iff (I := snGroup n) (e := elemEquiv n) f).1 hf
  obtain ⟨g, rfl⟩ := (written_iff (I := snGroup n) (e := elemEquiv n) g).1 hg
  refine ⟨_, fconvolve_eq _ hI f g, (written_iff (I := snGroup n) (e := elemEquiv n) _).2 ⟨_, rfl⟩, ?_⟩
  rintro s ⟨σ, rfl⟩
  refine ⟨fun j => f (σ * (elem n j)⁻¹), fun j => g (elem n j), _, fun j hj => ⟨_, _, _, element_eq n j hj, inverse_eq _,
    mul_eq _ _, hI.value_eq f _, hI.value_eq g _⟩, hI.value_eq _ _, ?_⟩
  have h1 := fsum_err ieee_s (fun x => rnd_exact (by omega) ((rnd_nearest (p := 24) (by omega)).format x)) (by norm_num [us])
    (convTerm (I := snGroup n) (elemEquiv n) f g σ) (n !)
  have e1 : ∀ j ∈ Finset.range (n !), convTerm (I := snGroup n) (elemEquiv n) f g σ j = f (σ * (elem n j)⁻¹) * g (elem n j) := by
    intro j hj
    exact convTerm_lt (I := snGroup n) (e := elemEquiv n) f g σ (Finset.mem_range.1 hj)
  rw [Finset.sum_congr rfl e1, Finset.sum_congr rfl fun j hj => congrArg abs (e1 j hj)] at h1
  have hu : us = 2⁻¹ ^ 24 := by norm_num [us]
  refine ⟨by rw [← hu]; exact h1, fun h10 => h1.trans ?_⟩
  refine mul_le_mul_of_nonneg_right ?_ (Finset.sum_nonneg fun _ _ => abs_nonneg _)
  have hN : n ! ≤ 10 ! := Nat.factorial_le h10
  have hN' : ((n ! : Nat) : ℝ) ≤ 3628800 := by
    have : n ! ≤ 3628800 := hN
    exact_mod_cast this
  have h2 := pow_le_linear (x := us) (by norm_num [us]) (m := n !) (by rw [hu]; norm_num; linarith)
  rw [hu] at h2 ⊢
  norm_num at h2 ⊢
  linarith

/-- **C110.** If the values of `f` are multiples of `2^a`, those of `g` multiples of `2^b`, and the sums of the absolute values are at
most `2^(24+a+b)`, there is no rounding: the convolution in `float` is the exact one. In particular (`a=b=0`) integer values are
convolved exactly as long as the sums of absolute values do not exceed `2^24`. -/
theorem C110_convolve_exact (a b : ℤ) (f g : Cells ℝ) (hf : Written (n !) f) (hg : Written (n !) g)
    (hfa : ∀ x, some x ∈ f → ∃ k : ℤ, x = k * 2 ^ a) (hgb : ∀ x, some x ∈ g → ∃ k : ℤ, x = k * 2 ^ b)
    (hs : ∀ s A B, IsPerm n s → ConvValues n f g s A B → ∑ j ∈ Finset.range (n !), |A j * B j| ≤ 2 ^ (24 + (a + b))) :
    Rounding.ieee.convolve (snGroup n) f g = (snGroup n).convolve f g ∧ ((snGroup n).convolve f g).isSome := by
  have hI := snGroup_implements n hn
  obtain ⟨f, rfl⟩ := (written_iff (I := snGroup n) (e := elemEquiv n) f).1 hf
  obtain ⟨g, rfl⟩ := (written_iff (I := snGroup n) (e := elemEquiv n) g).1 hg
  rw [fconvolve_eq _ hI, convolve_eq hI]
  refine ⟨?_, rfl⟩
  congr 2
  funext σ
  have h1 := hs (enc σ) (fun j => f (σ * (elem n j)⁻¹)) (fun j => g (elem n j)) ⟨σ, rfl⟩ fun j hj => ⟨_, _, _, element_eq n j hj,
    inverse_eq _, mul_eq _ _, hI.value_eq f _, hI.value_eq g _⟩
  have e1 : ∀ j ∈ Finset.range (n !), convTerm (I := snGroup n) (elemEquiv n) f g σ j = f (σ * (elem n j)⁻¹) * g (elem n j) := by
    intro j hj
    exact convTerm_lt (I := snGroup n) (e := elemEquiv n) f g σ (Finset.mem_range.1 hj)
  have hz := convTerm_zpow (I := snGroup n) (e := elemEquiv n) (fun x => hfa _ (mem_cellsOf f x)) (fun x => hgb _ (mem_cellsOf g x)) σ
  choose z hz using hz
  have h2 := fsum_int (p := 24) (by omega) (a + b) _ z hz (n !)
    (by rw [Finset.sum_congr rfl fun j hj => congrArg abs (e1 j hj)]; exact h1)
  have h3 := sum_convTerm (I := snGroup n) (e := elemEquiv n) f g σ id
  simp only [id] at h3
  rw [← h3]
  exact h2

/-- **C110.** Convolution in `float` with the function that is one at `t` and zero elsewhere is exact: from the right it is the right
translate by `t`, from the left the left translate, for all values that are `float`s. -/
theorem C110_convolve_delta (f d : Cells ℝ) (t : Arr) (ht : IsPerm n t) (hf : Written (n !) f) (hd : Written (n !) d)
    (hfl : ∀ x, some x ∈ f → IsFloat 24 x) (hdt : ∀ s, IsPerm n s → (snGroup n).value d s = some (if s = t then 1 else 0)) :
    Rounding.ieee.convolve (snGroup n) f d = (snGroup n).rightTranslate f t ∧
    Rounding.ieee.convolve (snGroup n) d f = (snGroup n).leftTranslate f t ∧ ((snGroup n).rightTranslate f t).isSome ∧
    ((snGroup n).leftTranslate f t).isSome := by
  have hI := snGroup_implements n hn
  obtain ⟨f, rfl⟩ := (written_iff (I := snGroup n) (e := elemEquiv n) f).1 hf
  obtain ⟨d, rfl⟩ := (written_iff (I := snGroup n) (e := elemEquiv n) d).1 hd
  obtain ⟨τ, rfl⟩ := ht
  have hd : ∀ σ, d σ = if σ = τ then 1 else 0 := fun σ => by
    have h1 := hdt (enc σ) ⟨σ, rfl⟩
    rw [hI.value_eq] at h1
    rw [Option.some.inj h1]
    simp only [hI.inj.eq_iff]
  have hmem : ∀ σ, IsFloat 24 (f σ) := fun σ => hfl _ (mem_cellsOf f σ)
  have h0 : Rounding.ieee.s 0 = 0 := rnd_zero 24
  have hr : ∀ σ, Rounding.ieee.s (f σ) = f σ := fun σ => rnd_exact (by omega) (hmem σ)
  refine ⟨?_, ?_, by rw [rightTranslate_eq hI]; rfl, by rw [leftTranslate_eq hI]; rfl⟩
  · rw [fconvolve_eq _ hI, rightTranslate_eq hI]
    congr 2
    funext σ
    refine (fsum_convTerm_single (I := snGroup n) (e := elemEquiv n) h0 f d σ τ (fun y hy => by rw [hd, if_neg hy, mul_zero])
      (by rw [hd, if_pos rfl, mul_one, hr])).trans ?_
    rw [hd, if_pos rfl, mul_one]
  · rw [fconvolve_eq _ hI, leftTranslate_eq hI]
    congr 2
    funext σ
    have e1 : σ * (τ⁻¹ * σ)⁻¹ = τ := by group
    refine (fsum_convTerm_single (I := snGroup n) (e := elemEquiv n) h0 d f σ (τ⁻¹ * σ) (fun y hy => by
      rw [hd, if_neg (fun h => hy ?_), zero_mul]
      rw [← h]; group) (by rw [e1, hd, if_pos rfl, one_mul, hr])).trans ?_
    rw [e1, hd, if_pos rfl, one_mul]

end

/-- The four products and two sums of a convolution on `S2`. -/
theorem convolve_two (F : Rounding) (a b c d : ℝ) : F.convolve (snGroup 2) [some a, some b] [some c, some d] =
    some [some (F.s (F.s (0 + F.s (a * c)) + F.s (b * d))), some (F.s (F.s (0 + F.s (b * c)) + F.s (a * d)))] := by
  have e0 : (snGroup 2).element 0 = some [some 1, some 2] := by decide
  have e1 : (snGroup 2).element 1 = some [some 2, some 1] := by decide
  have i0 : (snGroup 2).inverse [some 1, some 2] = some [some 1, some 2] := by decide
  have i1 : (snGroup 2).inverse [some 2, some 1] = some [some 2, some 1] := by decide
  have m0 : (snGroup 2).mul [some 1, some 2] [some 1, some 2] = some [some 1, some 2] := by decide
  have m1 : (snGroup 2).mul [some 1, some 2] [some 2, some 1] = some [some 2, some 1] := by decide
  have m2 : (snGroup 2).mul [some 2, some 1] [some 1, some 2] = some [some 2, some 1] := by decide
  have m3 : (snGroup 2).mul [some 2, some 1] [some 2, some 1] = some [some 1, some 2] := by decide
  have x0 : (snGroup 2).index [some 1, some 2] = some 0 := by decide
  have x1 : (snGroup 2).index [some 2, some 1] = some 1 := by decide
  have hs : (snGroup 2).size = 2 := by decide
  simp [Rounding.convolve, forUp, iterUp, GroupI.value, e0, e1, i0, i1, m0, m1, m2, m3, x0, x1, rdC, wrC, hs]

/-- **C110 (sharpness).** One more than `2^24` is too much: in `float` the functions `(2^24, 1)` and `(1, 1)` on `S2` have the
convolution `(2^24, 2^24)` instead of `(2^24+1, 2^24+1)`. -/
theorem C110_convolve_sharp :
    (snGroup 2).convolve [some (2 ^ 24), some 1] [some 1, some 1] = some [some (2 ^ 24 + 1), some (2 ^ 24 + 1)] ∧
    Rounding.ieee.convolve (snGroup 2) [some (2 ^ 24), some 1] [some 1, some 1] = some [some (2 ^ 24), some (2 ^ 24)] := by
  have hx : (snGroup 2).convolve [some (2 ^ 24), some 1] [some 1, some 1] =
      Rounding.exact.convolve (snGroup 2) [some (2 ^ 24), some 1] [some 1, some 1] := rfl
  have r1 : rnd 24 1 = 1 := rnd_exact (by omega) ⟨1, 0, by norm_num, by norm_num⟩
  have r2 : rnd 24 (2 ^ 24) = 2 ^ 24 := rnd_exact (by omega) ⟨1, 24, by norm_num, by norm_num⟩
  have r3 : rnd 24 (2 ^ 24 + 1) = 2 ^ 24 := by
    have hd : ((2 : ℝ) ^ 24 + 1) / 2 ^ (1 : ℤ) = ((2 ^ 23 : ℤ) : ℝ) + 1 / 2 := by norm_num
    have hf : Int.fract (((2 ^ 23 : ℤ) : ℝ) + 1 / 2) = 1 / 2 := by rw [Int.fract_intCast_add]; norm_num [Int.fract]
    have hfl : ⌊((2 ^ 23 : ℤ) : ℝ) + 1 / 2⌋ = 2 ^ 23 := by rw [Int.floor_intCast_add]; norm_num
    have hh : halfEven (((2 : ℝ) ^ 24 + 1) / 2 ^ (1 : ℤ)) = 2 ^ 23 := by
      rw [hd]
      unfold halfEven
      rw [hf, hfl, if_neg (lt_irrefl _), if_neg (lt_irrefl _), if_pos (by decide)]
    rw [rnd_at (e := 1) (by rw [hd]; norm_num) (by rw [hd]; norm_num), hh]
    norm_num
  have hs : Rounding.ieee.s = rnd 24 := rfl
  rw [hx, convolve_two, convolve_two]
  simp only [hs, Rounding.exact, id, mul_one, zero_add, r1, r2, r3, add_comm (1 : ℝ) (2 ^ 24), and_self]

/-- The hypotheses of `C110_convolve_exact` are met by half-integers on `S2`; the convolution is that of the integers divided by 4. -/
example : Rounding.ieee.convolve (snGroup 2) [some (3 / 2), some (-1 / 2)] [some (1 / 2), some 5] =
    (snGroup 2).convolve [some (3 / 2), some (-1 / 2)] [some (1 / 2), some 5] := by
  refine (C110_convolve_exact 2 (by omega) (-1) (-1) _ _ ⟨rfl, by simp⟩ ⟨rfl, by simp⟩ ?_ ?_ ?_).1
  · intro x hx
    simp only [List.mem_cons, Option.some.injEq, List.not_mem_nil, or_false] at hx
    rcases hx with rfl | rfl
    · exact ⟨3, by norm_num⟩
    · exact ⟨-1, by norm_num⟩
  · intro x hx
    simp only [List.mem_cons, Option.some.injEq, List.not_mem_nil, or_false] at hx
    rcases hx with rfl | rfl
    · exact ⟨1, by norm_num⟩
    · exact ⟨10, by norm_num⟩
  · intro s A B _ h
    have hb : ∀ (f : Cells ℝ) (M : ℝ), (∀ x, some x ∈ f → |x| ≤ M) → ∀ v y, (snGroup 2).value f v = some y → |y| ≤ M := by
      intro f M hM v y hy
      refine hM y ?_
      unfold GroupI.value rdC at hy
      rw [Option.bind_eq_some_iff] at hy
      obtain ⟨i, -, hi⟩ := hy
      split at hi
      · rw [Option.join_eq_some_iff] at hi
        exact List.mem_of_getElem? hi
      · exact absurd hi (by simp)
    have hA : ∀ j ∈ Finset.range (2 !), |A j * B j| ≤ 10 := by
      intro j hj
      obtain ⟨t, u, v, -, -, -, h1, h2⟩ := h j (Finset.mem_range.1 hj)
      have a1 := hb _ 2 (by
        intro x hx
        simp only [List.mem_cons, Option.some.injEq, List.not_mem_nil, or_false] at hx
        rcases hx with rfl | rfl <;> norm_num [abs_le]) _ _ h1
      have a2 := hb _ 5 (by
        intro x hx
        simp only [List.mem_cons, Option.some.injEq, List.not_mem_nil, or_false] at hx
        rcases hx with rfl | rfl <;> norm_num [abs_le]) _ _ h2
      rw [abs_mul]
      calc |A j| * |B j| ≤ 2 * 5 := mul_le_mul a1 a2 (abs_nonneg _) (by norm_num)
        _ = 10 := by norm_num
    refine (Finset.sum_le_sum hA).trans ?_
    norm_num

/-- Convolution with the indicator of the transposition in `S2` exchanges the two values. -/
example (x y : ℝ) (hx : IsFloat 24 x) (hy : IsFloat 24 y) :
    Rounding.ieee.convolve (snGroup 2) [some x, some y] [some 0, some 1] = some [some y, some x] := by
  have hs : Rounding.ieee.s = rnd 24 := rfl
  rw [convolve_two]
  simp only [hs, mul_zero, mul_one, zero_add, rnd_zero, rnd_exact (by omega : 1 ≤ 24) hx, rnd_exact (by omega : 1 ≤ 24) hy]

end Snob.Props
