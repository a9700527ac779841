import Verif.Proofs.Kernels
import Verif.Proofs.Central
import Verif.Proofs.FloatCG

/-! # Steps at the transpositions: the Fourier transform, the spectral gap, repeated convolution -/

namespace Snob

open IP
open scoped Nat

variable {n : Nat} {p : List Nat}

open Classical in
/-- `a` at the unit, `b` at the transpositions, zero elsewhere -/
noncomputable def stepFn (n : Nat) (a b : ℝ) (σ : Equiv.Perm (Fin n)) : ℝ := if σ = 1 then a else if σ.IsSwap then b else 0

theorem tr_isSwap {i k : Nat} (hi : i < k) (hk : k < n) : (tr n i k).IsSwap := by
  rw [tr_of (by omega) hk]
  exact ⟨_, _, by simp; omega, rfl⟩

theorem tr_inj {i k i' k' : Nat} (hi : i < k) (hk : k < n) (hi' : i' < k') (hk' : k' < n) (h : tr n i k = tr n i' k') :
    i = i' ∧ k = k' := by
  rw [tr_of (by omega) hk, tr_of (by omega) hk'] at h
  have h1 := congrArg (fun σ : Equiv.Perm (Fin n) => σ ⟨i, by omega⟩) h
  have h2 := congrArg (fun σ : Equiv.Perm (Fin n) => σ ⟨k, hk⟩) h
  simp only [Equiv.swap_apply_left, Equiv.swap_apply_right, Equiv.swap_apply_def, Fin.mk.injEq] at h1 h2
  split_ifs at h1 h2 <;> simp only [Fin.mk.injEq] at h1 h2 <;> omega

open Classical in
/-- the sum over the transpositions -/
theorem sum_swaps {M : Type*} [AddCommMonoid M] (g : Equiv.Perm (Fin n) → M) :
    (∑ σ, if σ.IsSwap then g σ else 0) = ∑ k ∈ Finset.range n, ∑ i ∈ Finset.range k, g (tr n i k) := by
  rw [← Finset.sum_filter, Finset.sum_sigma']
  symm
  refine Finset.sum_bij (fun x _ => tr n x.2 x.1) ?_ ?_ ?_ fun _ _ => rfl
  · rintro ⟨k, i⟩ h
    simp only [Finset.mem_sigma, Finset.mem_range] at h
    exact Finset.mem_filter.2 ⟨Finset.mem_univ _, tr_isSwap h.2 h.1⟩
  · rintro ⟨k, i⟩ h ⟨k', i'⟩ h' e
    simp only [Finset.mem_sigma, Finset.mem_range] at h h'
    obtain ⟨rfl, rfl⟩ := tr_inj h.2 h.1 h'.2 h'.1 e
    rfl
  · intro σ hσ
    obtain ⟨x, y, hne, rfl⟩ := (Finset.mem_filter.1 hσ).2
    rcases lt_or_gt_of_ne hne with hlt | hlt
    · exact ⟨⟨y, x⟩, Finset.mem_sigma.2 ⟨Finset.mem_range.2 y.2, Finset.mem_range.2 hlt⟩, tr_of x.2 y.2⟩
    · exact ⟨⟨x, y⟩, Finset.mem_sigma.2 ⟨Finset.mem_range.2 x.2, Finset.mem_range.2 hlt⟩, by
        rw [tr_of y.2 x.2, Equiv.swap_comm]⟩

theorem stepFn_smul {M : Type*} [AddCommMonoid M] [Module ℝ M] (a b : ℝ) (g : Equiv.Perm (Fin n) → M) :
    ∑ σ, stepFn n a b σ • g σ = a • g 1 + b • ∑ k ∈ Finset.range n, ∑ i ∈ Finset.range k, g (tr n i k) := by
  classical
  have h1 : ¬ (1 : Equiv.Perm (Fin n)).IsSwap := by
    rintro ⟨x, y, hne, h⟩
    have := congrArg (fun σ : Equiv.Perm (Fin n) => σ x) h
    simp only [Equiv.Perm.coe_one, id_eq, Equiv.swap_apply_left] at this
    exact hne this
  have e : ∀ σ, stepFn n a b σ • g σ = (if σ = 1 then a • g σ else 0) + b • (if σ.IsSwap then g σ else 0) := by
    intro σ
    unfold stepFn
    by_cases hσ : σ = 1
    · subst hσ
      rw [if_pos rfl, if_pos rfl, if_neg h1, smul_zero, add_zero]
    · rw [if_neg hσ, if_neg hσ, zero_add]
      split_ifs <;> simp
  rw [Finset.sum_congr rfl fun σ _ => e σ, Finset.sum_add_distrib, ← Finset.smul_sum, sum_swaps, Finset.sum_ite_eq']
  simp

/-- the transform of the step -/
theorem hat_step (hp : IsPartition n p) (a b : ℝ) :
    hat hp (stepFn n a b) = (a + b * contentSum p) • (1 : Matrix (Wd n p) (Wd n p) ℝ) := by
  classical
  have e : hat hp (stepFn n a b) = ∑ σ, stepFn n a b σ • rho hp σ⁻¹ := by
    ext x y
    rw [Matrix.sum_apply]
    rfl
  rw [e, stepFn_smul]
  have e2 : ∑ k ∈ Finset.range n, ∑ i ∈ Finset.range k, rho hp (tr n i k)⁻¹ = ∑ k ∈ Finset.range n, jm hp k := by
    refine Finset.sum_congr rfl fun k hk => Finset.sum_congr rfl fun i hi => ?_
    have h1 := Finset.mem_range.1 hk
    have h2 := Finset.mem_range.1 hi
    rw [tr_of (by omega) h1, Equiv.swap_inv]
  have e3 : ∑ k ∈ Finset.range n, jm hp k = (contentSum p : ℝ) • (1 : Matrix (Wd n p) (Wd n p) ℝ) := by
    rw [Finset.sum_congr rfl fun k hk => jm_eq hp k (Finset.mem_range.1 hk)]
    ext x y
    rw [Matrix.sum_apply, Matrix.smul_apply, Matrix.one_apply]
    by_cases hxy : x = y
    · subst hxy
      rw [if_pos rfl, smul_eq_mul, mul_one, ← x.sum_cont hp]
      push_cast
      exact Finset.sum_congr rfl fun k _ => by rw [Matrix.diagonal_apply_eq]
    · rw [if_neg hxy, smul_zero]
      exact Finset.sum_eq_zero fun k _ => by rw [Matrix.diagonal_apply_ne _ hxy]
  rw [e2, e3, _root_.inv_one, map_one, smul_smul, ← add_smul]

theorem sum_step (a b : ℝ) : ∑ σ, stepFn n a b σ = a + b * (n * (n - 1) / 2 : ℝ) := by
  have := stepFn_smul (n := n) a b fun _ => (1 : ℝ)
  simp only [smul_eq_mul, mul_one, Finset.sum_const, Finset.card_range, nsmul_eq_mul] at this
  rw [this, ← Nat.cast_sum, Finset.sum_range_id]
  congr 2
  rcases n with _ | n
  · simp
  · rw [Nat.cast_div (by rw [Nat.add_sub_cancel, mul_comm]; exact (Nat.even_mul_succ_self n).two_dvd) (by norm_num)]
    push_cast
    simp

/-! ### the contents -/

theorem contentSum_eq (p : List Nat) : contentSum p = ∑ i ∈ Finset.range p.length, (((row p i).choose 2 : Int) - i * row p i) := by
  unfold contentSum
  refine Finset.sum_congr rfl fun i _ => ?_
  rw [Finset.sum_sub_distrib, Finset.sum_const, Finset.card_range, nsmul_eq_mul, mul_comm, ← Nat.cast_sum, Finset.sum_range_id,
    Nat.choose_two_right]

theorem choose_two_add (a b : Nat) : a.choose 2 + b.choose 2 ≤ (a + b).choose 2 := by
  induction b with
  | zero => simp
  | succ b ih =>
    rw [← Nat.add_assoc, Nat.choose_succ_succ', Nat.choose_succ_succ' (a + b)]
    simp only [Nat.choose_one_right, Nat.reduceAdd]
    omega

theorem sum_choose_le (l : List Nat) : (l.map fun x => x.choose 2).sum ≤ l.sum.choose 2 := by
  induction l with
  | nil => simp
  | cons x l ih =>
    rw [List.map_cons, List.sum_cons, List.sum_cons]
    have := choose_two_add x l.sum
    omega

/-- the sum of contents of a diagram with more than one row -/
theorem contentSum_le (hp : IsPartition n p) (hne : p ≠ [n]) : 2 * contentSum p ≤ n * (n - 3) := by
  rw [contentSum_eq]
  rcases p with _ | ⟨x, l⟩
  · have h0 : (n : Int) = 0 := by have := hp.sum; simp at this; omega
    simp [h0]
  · have hs : x + l.sum = n := by have := hp.sum; simpa using this
    have hl : 1 ≤ l.sum := by
      rcases l with _ | ⟨y, l⟩
      · exact absurd (by simp at hs; rw [hs]) hne
      · have := hp.pos y (by simp)
        simp only [List.sum_cons]; omega
    rw [List.length_cons, Finset.sum_range_succ']
    have e1 : ∀ i, row (x :: l) (i + 1) = row l i := fun i => by simp [row]
    have e0 : row (x :: l) 0 = x := by simp [row]
    simp only [e1, e0]
    have h1 : ∑ i ∈ Finset.range l.length, ((row l i).choose 2 : Int) ≤ (l.sum.choose 2 : Int) := by
      have := sum_choose_le l
      have h2 : (l.map fun x => x.choose 2).sum = ∑ i ∈ Finset.range l.length, (row l i).choose 2 := by
        rw [Finset.sum_range, ← Fin.sum_ofFn]
        congr 1
        apply List.ext_getElem (by simp)
        intro i h1 h2
        simp [row]
      rw [h2] at this
      exact_mod_cast this
    have h3 : (l.sum : Int) ≤ ∑ i ∈ Finset.range l.length, ((i + 1 : Nat) : Int) * row l i := by
      have h4 : l.sum = ∑ i ∈ Finset.range l.length, row l i := by
        rw [Finset.sum_range, ← Fin.sum_ofFn]
        congr 1
        apply List.ext_getElem (by simp)
        intro i h1 h2
        simp [row]
      rw [h4, Nat.cast_sum]
      refine Finset.sum_le_sum fun i _ => ?_
      have : (0 : Int) ≤ i * row l i := by positivity
      push_cast
      nlinarith
    have e2 : ∀ m : Nat, (2 : Int) * (m.choose 2 : Nat) = m * (m - 1) := by
      intro m
      have := Nat.choose_two_right m
      have h5 : m.choose 2 * 2 = m * (m - 1) := by
        rw [this]; exact Nat.div_mul_cancel (Nat.even_mul_pred_self m).two_dvd
      rcases m with _ | m
      · simp
      · have h6 : (((m + 1).choose 2 * 2 : Nat) : Int) = ((m + 1) * (m + 1 - 1) : Nat) := by rw [h5]
        push_cast at h6 ⊢
        linarith
    rw [Finset.sum_sub_distrib]
    have hx := e2 x
    have hy := e2 l.sum
    have hn : (n : Int) = x + l.sum := by rw [← hs]; push_cast; ring
    have hl' : (1 : Int) ≤ l.sum := by exact_mod_cast hl
    have hx0 : (0 : Int) ≤ x := by positivity
    push_cast at h3 ⊢
    rw [hn]
    nlinarith

theorem contentSum_abs (hp : IsPartition n p) (h2 : 2 ≤ n) : |(2 * contentSum p : ℝ)| ≤ n * (n - 1) := by
  have hne : (⟨0, by omega⟩ : Fin n) ≠ ⟨1, by omega⟩ := by simp
  have h := chi_transposition hp hne
  have hc := abs_chi_le hp (Equiv.swap (⟨0, by omega⟩ : Fin n) ⟨1, by omega⟩)
  rw [← card_Wd hp] at hc
  have hd : (0 : ℝ) < Fintype.card (Wd n p) := by exact_mod_cast card_Wd_pos hp
  have hn1 : (0 : ℝ) ≤ n * (n - 1) := by
    have : (2 : ℝ) ≤ n := by exact_mod_cast h2
    nlinarith
  have h3 := congrArg abs h
  rw [abs_mul, abs_of_nonneg hn1, abs_mul (2 * (contentSum p : ℝ)), abs_of_pos hd] at h3
  have h4 := mul_le_mul_of_nonneg_left hc hn1
  rw [h3] at h4
  exact le_of_mul_le_mul_right h4 hd

/-- the spectral gap of the walk that transposes two cards chosen independently -/
theorem gap (hp : IsPartition n p) (h2 : 2 ≤ n) (hne : p ≠ [n]) : |1 / (n : ℝ) + 2 / (n : ℝ) ^ 2 * contentSum p| ≤ (1 - 2 / n : ℝ) := by
  have hn : (0 : ℝ) < n := by exact_mod_cast (by omega : 0 < n)
  have h3 : (2 * contentSum p : ℝ) ≤ n * (n - 3) := by exact_mod_cast contentSum_le hp hne
  have h4 := (abs_le.1 (contentSum_abs hp h2)).1
  have e : 1 / (n : ℝ) + 2 / (n : ℝ) ^ 2 * contentSum p = (n + 2 * contentSum p) / (n : ℝ) ^ 2 := by field_simp
  have e' : 1 - 2 / (n : ℝ) = (n * (n - 2)) / (n : ℝ) ^ 2 := by field_simp
  rw [e, e', abs_le, ← neg_div]
  constructor
  · refine div_le_div_of_nonneg_right ?_ (by positivity)
    nlinarith
  · refine div_le_div_of_nonneg_right ?_ (by positivity)
    nlinarith

/-- the distance to the constant function after some steps -/
theorem walk_distance (hn : 1 ≤ n) (a b : ℝ) (k : Nat) (u : Equiv.Perm (Fin n) → ℝ)
    (hu : u = (fun g : Equiv.Perm (Fin n) → ℝ => fun x => ∑ y, g (x * y⁻¹) * stepFn n a b y)^[k] (stepFn n a b)) (hs : ∑ σ, u σ = 1) :
    (n ! : ℝ) * ∑ σ, (u σ - 1 / n !) ^ 2 =
      ∑ q : Pt n, if q.1 = [n] then 0 else (dimW n q.1 : ℝ) ^ 2 * ((a + b * contentSum q.1) ^ (k + 1)) ^ 2 := by
  rw [distance_eq hn u hs]
  refine Finset.sum_congr rfl fun q _ => ?_
  by_cases hq : q.1 = [n]
  · rw [if_pos hq, if_pos hq]
  · rw [if_neg hq, if_neg hq, hu, hat_power, hat_step, smul_pow, one_pow]
    have : ∀ w, ∑ u, (((a + b * contentSum q.1) ^ (k + 1)) • (1 : Matrix (Wd n q.1) (Wd n q.1) ℝ)) u w ^ 2 = ((a + b * contentSum q.1) ^ (k + 1)) ^ 2 := by
      intro w
      rw [Finset.sum_eq_single w]
      · simp
      · intro v _ hv
        simp [hv]
      · simp
    rw [Finset.sum_congr rfl fun w _ => this w, Finset.sum_const, Finset.card_univ, nsmul_eq_mul, card_Wd q.2]
    show (dimW n q.1 : ℝ) * ((dimW n q.1 : ℝ) * _) = _
    ring

/-- the bound for the walk that transposes two cards chosen independently -/
theorem shuffle (h2 : 2 ≤ n) (k : Nat) (u : Equiv.Perm (Fin n) → ℝ)
    (hu : u = (fun g : Equiv.Perm (Fin n) → ℝ => fun x => ∑ y, g (x * y⁻¹) * stepFn n (1 / n) (2 / (n : ℝ) ^ 2) y)^[k]
      (stepFn n (1 / n) (2 / (n : ℝ) ^ 2))) (hs : ∑ σ, u σ = 1) :
    (n ! : ℝ) * ∑ σ, (u σ - 1 / n !) ^ 2 ≤ (n ! : ℝ) * (1 - 2 / n) ^ (2 * (k + 1)) := by
  rw [walk_distance (by omega) (1 / n) (2 / (n : ℝ) ^ 2) k u hu hs]
  have h1 : ((∑ q : Pt n, dimW n q.1 * dimW n q.1 : Nat) : ℝ) = n ! := by rw [sum_sq]
  rw [← h1, Nat.cast_sum, Finset.sum_mul]
  refine Finset.sum_le_sum fun q _ => ?_
  have hg0 : (0 : ℝ) ≤ (1 - 2 / n) ^ (2 * (k + 1)) := by
    rw [pow_mul]; positivity
  by_cases hq : q.1 = [n]
  · rw [if_pos hq]; positivity
  · rw [if_neg hq]
    push_cast
    rw [pow_two (dimW n q.1 : ℝ)]
    refine mul_le_mul_of_nonneg_left ?_ (by positivity)
    have := pow_le_pow_left₀ (abs_nonneg _) (gap q.2 h2 hq) (2 * (k + 1))
    refine le_trans (le_of_eq ?_) this
    rw [← abs_pow, abs_of_nonneg (by rw [pow_mul]; positivity), ← pow_mul, mul_comm (k + 1)]

end Snob
