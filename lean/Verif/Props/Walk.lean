import Verif.Proofs.Walk
import Verif.Props.Kernels
import Verif.Props.Hook

/-! # Property C129: steps at the transpositions -/

namespace Snob

open IP Perm
open scoped Nat

/-- The function `f` on `Sn` has the value `a` at the unit, `b` at every transposition and zero at all other permutations. -/
structure StepOf (n : Nat) (a b : ℝ) (f : Cells ℝ) : Prop where
  written : Written (snSize n) f
  unit : (snGroup n).value f (enc (1 : Equiv.Perm (Fin n))) = some a
  swap : ∀ i j : Fin n, i ≠ j → (snGroup n).value f (enc (Equiv.swap i j)) = some b
  other : ∀ σ : Equiv.Perm (Fin n), σ ≠ 1 → (∀ i j, σ ≠ Equiv.swap i j) → (snGroup n).value f (enc σ) = some 0

namespace Props

variable {n : Nat} (hn : 1 ≤ n)
include hn

theorem StepOf.eq {a b : ℝ} {f : Cells ℝ} (h : StepOf n a b f) : f = cellsOf (I := snGroup n) (elemEquiv n) (stepFn n a b) := by
  classical
  obtain ⟨v, rfl⟩ := (written_iff (I := snGroup n) (e := elemEquiv n) f).1 h.written
  congr 1
  funext σ
  have hv := (snGroup_implements n hn).value_eq v
  unfold stepFn
  by_cases h1 : σ = 1
  · rw [if_pos h1, h1]
    exact Option.some.inj ((hv 1).symm.trans h.unit)
  · rw [if_neg h1]
    by_cases h2 : σ.IsSwap
    · rw [if_pos h2]
      obtain ⟨i, j, hij, rfl⟩ := h2
      exact Option.some.inj ((hv _).symm.trans (h.swap i j hij))
    · rw [if_neg h2]
      refine Option.some.inj ((hv _).symm.trans (h.other σ h1 fun i j e => ?_))
      by_cases hij : i = j
      · subst hij
        exact h1 (by rw [e, Equiv.swap_self]; rfl)
      · exact h2 ⟨i, j, hij, e⟩

/-- **C129.** Convolving with `f` multiplies the part of the partition `p` of the transform by `a` plus `b` times the sum of the contents of `p`, from
either side. -/
theorem C129_smoothing (a b : ℝ) (f : Cells ℝ) (hf : StepOf n a b f) (g : Cells ℝ) (hg : Written (snSize n) g) (ws : List VPart)
    (h : TransformOf n g ws) : ∃ r, (snGroup n).convolve g f = some r ∧ (snGroup n).convolve f g = some r ∧ Written (snSize n) r ∧
      ∀ vs, TransformOf n r vs → ∀ (i : Nat) (p : List Nat) (W V : VPart), (partitions n)[i]? = some p → ws[i]? = some W → vs[i]? = some V →
        V.d = W.d ∧ V.m = W.m ∧ V.irrep = W.irrep ∧ ∀ x < W.d, ∀ y < W.m, V.data x y = (a + b * contentSum p) * W.data x y := by
  have hI := snGroup_implements n hn
  obtain rfl := StepOf.eq hn hf
  obtain ⟨g, rfl⟩ := (written_iff (I := snGroup n) (e := elemEquiv n) g).1 hg
  refine ⟨_, convolve_eq hI _ _, ?_, (written_iff (I := snGroup n) (e := elemEquiv n) _).2 ⟨_, rfl⟩, ?_⟩
  · rw [convolve_eq hI]
    congr 2
    refine hat_injective fun q => ?_
    rw [hat_convolve, hat_convolve, hat_step]
    simp
  · intro vs h' i p W V hi hW hV
    obtain ⟨e, p', hp, hr, hpi, d1, m1, d2, m2, k1, k2⟩ := h.pair hn h' hW hV
    obtain rfl : p = p' := Option.some.inj (hi.symm.trans hpi)
    refine ⟨by rw [d1, d2], by rw [m1, m2], e, fun x hx y hy => ?_⟩
    have e1 : W.data x y = hat hp g _ _ := k1 ⟨x, by omega⟩ ⟨y, by omega⟩
    have e2 : V.data x y = hat hp (fun x => ∑ y, g (x * y⁻¹) * stepFn n a b y) _ _ := k2 ⟨x, by omega⟩ ⟨y, by omega⟩
    rw [hat_convolve, hat_step, smul_mul_assoc, one_mul, Matrix.smul_apply, smul_eq_mul] at e2
    rw [e1, e2]

/-- **C129.** The kernel `K(s,t)=f(s.inv()*t)` is positive semidefinite exactly if `a` plus `b` times the sum of the contents is not negative, for every
partition. -/
theorem C129_kernel (a b : ℝ) (f : Cells ℝ) (hf : StepOf n a b f) : ∃ K, KernelOf n f K ∧
    ((∀ c : Equiv.Perm (Fin n) → ℝ, 0 ≤ ∑ σ, ∑ τ, c σ * K σ τ * c τ) ↔ ∀ p ∈ partitions n, 0 ≤ a + b * contentSum p) := by
  obtain rfl := StepOf.eq hn hf
  refine ⟨fun σ τ => stepFn n a b (σ⁻¹ * τ), fun σ τ => ?_, ?_⟩
  · rw [inverse_eq, Option.bind_some, mul_eq, Option.bind_some]
    exact (snGroup_implements n hn).value_eq _ _
  · rw [kernel_iff]
    have e : ∀ (q : Pt n) (x : Wd n q.1 → ℝ), ∑ i, ∑ j, x i * hat q.2 (stepFn n a b) i j * x j = (a + b * contentSum q.1) * ∑ i, x i ^ 2 := by
      intro q x
      rw [hat_step, Finset.mul_sum]
      refine Finset.sum_congr rfl fun i _ => ?_
      rw [Finset.sum_eq_single i]
      · simp; ring
      · intro j _ hj
        simp [Ne.symm hj]
      · simp
    constructor
    · intro h p hp
      have hp' := (mem_partitions n hn p).1 hp
      have : Nonempty (Wd n p) := Fintype.card_pos_iff.1 (card_Wd_pos hp')
      have := h ⟨p, hp'⟩ fun _ => 1
      rw [e] at this
      have hpos : (0 : ℝ) < ∑ _i : Wd n p, (1 : ℝ) ^ 2 := by
        simp only [one_pow, Finset.sum_const, Finset.card_univ, nsmul_eq_mul, mul_one]
        exact_mod_cast card_Wd_pos hp'
      exact nonneg_of_mul_nonneg_left this hpos
    · intro h q x
      rw [e]
      exact mul_nonneg (h q.1 ((mem_partitions n hn q.1).2 q.2)) (Finset.sum_nonneg fun _ _ => sq_nonneg _)

theorem walk_values (a b : ℝ) (hab : a + b * (n * (n - 1) / 2 : ℝ) = 1) (k : Nat) : ∃ u : Equiv.Perm (Fin n) → ℝ,
    u = (fun g : Equiv.Perm (Fin n) → ℝ => fun x => ∑ y, g (x * y⁻¹) * stepFn n a b y)^[k] (stepFn n a b) ∧ ∑ σ, u σ = 1 ∧
    ∃ g, convolveTimes n (cellsOf (I := snGroup n) (elemEquiv n) (stepFn n a b)) k (cellsOf (I := snGroup n) (elemEquiv n) (stepFn n a b)) = some g ∧
      ∀ σ, (snGroup n).value g (enc σ) = some (u σ) := by
  have hI := snGroup_implements n hn
  obtain ⟨ws, h⟩ := exists_transform n hn _ ((written_iff (I := snGroup n) (e := elemEquiv n) _).2 ⟨stepFn n a b, rfl⟩)
  obtain ⟨g, u, h1, h2, h3, -⟩ := C127_mixing hn (stepFn n a b) (by rw [sum_step, hab]) _
    ((written_iff (I := snGroup n) (e := elemEquiv n) _).2 ⟨stepFn n a b, rfl⟩) (fun σ => hI.value_eq _ σ) ws h k
  have h4 := convolveTimes_eq hn (stepFn n a b) k
  obtain rfl := Option.some.inj (h1.symm.trans h4)
  exact ⟨_, rfl, by rw [← h3]; exact Finset.sum_congr rfl fun σ _ => Option.some.inj ((hI.value_eq _ σ).symm.trans (h2 σ)), _, h4, fun σ => hI.value_eq _ σ⟩

/-- **C129.** If the values of `f` add up to one, so do those of the function convolved `k` times with itself, and `n!` times the sum of their squared
differences to `1/n!` is the sum over the partitions other than `[n]` of the squares of the dimension and of the power of the factor. -/
theorem C129_distance (a b : ℝ) (hab : a + b * (n * (n - 1) / 2 : ℝ) = 1) (f : Cells ℝ) (hf : StepOf n a b f) (k : Nat) :
    ∃ (g : Cells ℝ) (u : Equiv.Perm (Fin n) → ℝ), convolveTimes n f k f = some g ∧ (∀ σ : Equiv.Perm (Fin n), (snGroup n).value g (enc σ) = some (u σ)) ∧ ∑ σ, u σ = 1 ∧
      (n ! : ℝ) * ∑ σ, (u σ - 1 / n !) ^ 2 =
        ((partitions n).map fun p => if p = [n] then 0 else (hooklength p : ℝ) ^ 2 * (a + b * contentSum p) ^ (2 * (k + 1))).sum := by
  obtain rfl := StepOf.eq hn hf
  obtain ⟨u, hu, hs, g, hg, hv⟩ := walk_values hn a b hab k
  refine ⟨g, u, hg, hv, hs, ?_⟩
  rw [walk_distance hn a b k u hu hs, ← sum_Pt hn]
  refine Finset.sum_congr rfl fun q _ => ?_
  rw [hooklength_eq q.2, ← pow_mul, mul_comm (k + 1)]

/-- **C129.** Transposing two independently chosen cards (`f` is `1/n` at the unit and `2/n^2` at the transpositions): the distance to the uniform
distribution after `k+1` steps, squared, is at most `n!` times the power `2(k+1)` of `1-2/n`. -/
theorem C129_shuffle (h2 : 2 ≤ n) (f : Cells ℝ) (hf : StepOf n (1 / n) (2 / (n : ℝ) ^ 2) f) (k : Nat) :
    ∃ (g : Cells ℝ) (u : Equiv.Perm (Fin n) → ℝ), convolveTimes n f k f = some g ∧ (∀ σ : Equiv.Perm (Fin n), (snGroup n).value g (enc σ) = some (u σ)) ∧ ∑ σ, u σ = 1 ∧
      (∑ σ, |u σ - 1 / (n ! : ℝ)|) ^ 2 ≤ (n ! : ℝ) * (1 - 2 / n) ^ (2 * (k + 1)) := by
  have hn0 : (n : ℝ) ≠ 0 := by exact_mod_cast (by omega : n ≠ 0)
  obtain rfl := StepOf.eq hn hf
  obtain ⟨u, hu, hs, g, hg, hv⟩ := walk_values hn (1 / n) (2 / (n : ℝ) ^ 2) (by field_simp; ring) k
  refine ⟨g, u, hg, hv, hs, le_trans ?_ (shuffle h2 k u hu hs)⟩
  have h1 := sq_sum_le_card_mul_sum_sq (s := Finset.univ) (f := fun σ : Equiv.Perm (Fin n) => |u σ - 1 / (n ! : ℝ)|)
  rw [Finset.card_univ, Fintype.card_perm, Fintype.card_fin] at h1
  simpa only [sq_abs] using h1

/-- There is such a function, for every `n` and all numbers. -/
example (a b : ℝ) : ∃ f, StepOf n a b f := by
  classical
  have hI := snGroup_implements n hn
  refine ⟨cellsOf (I := snGroup n) (elemEquiv n) (stepFn n a b), (written_iff (I := snGroup n) (e := elemEquiv n) _).2 ⟨_, rfl⟩, ?_, ?_, ?_⟩
  · rw [hI.value_eq]; simp [stepFn]
  · intro i j hij
    rw [hI.value_eq]
    have h1 : Equiv.swap i j ≠ 1 := fun h => hij (Equiv.swap_eq_one_iff.1 h)
    have h2 : (Equiv.swap i j).IsSwap := ⟨i, j, hij, rfl⟩
    simp [stepFn, h1, h2]
  · intro σ h1 h2
    rw [hI.value_eq]
    have h3 : ¬ σ.IsSwap := by
      rintro ⟨i, j, _, e⟩
      exact h2 i j e
    simp [stepFn, h1, h3]

omit hn

/-- For `n=4` the factors of the shuffle are 1, 1/2, 1/4, 0, -1/2: its kernel is not positive semidefinite. -/
example (f : Cells ℝ) (hf : StepOf 4 (1 / 4) (1 / 8) f) : ∃ K, KernelOf 4 f K ∧
    ¬ ∀ c : Equiv.Perm (Fin 4) → ℝ, 0 ≤ ∑ σ, ∑ τ, c σ * K σ τ * c τ := by
  obtain ⟨K, h1, h2⟩ := C129_kernel (by omega) _ _ f hf
  refine ⟨K, h1, fun h => ?_⟩
  have := h2.1 h [1, 1, 1, 1] (by decide)
  have e : contentSum [1, 1, 1, 1] = -6 := by decide
  rw [e] at this
  norm_num at this

end Props

end Snob
