import Verif.Spec.CGVec
import Mathlib.LinearAlgebra.Matrix.NonsingularInverse
import Mathlib.Data.Matrix.Basic
import Mathlib.Tactic.Linarith

/-! # Eigenvectors of a matrix with a known decomposition -/

namespace Snob

open Matrix

section
variable {ι : Type} [Fintype ι] [DecidableEq ι] {K : Nat} {Q : Matrix ι (Fin K) ℝ} {f : ι → ℝ} {U : Matrix (Fin K) (Fin K) ℝ}
  {D : Fin K → ℝ}

theorem eig_rot (hQ : Qᵀ * Q = 1) (hc : Fintype.card ι = K) (hU : Uᵀ * U = 1) :
    (Q * U)ᵀ * (Q * U) = 1 ∧ (Q * U) * (Q * U)ᵀ = 1 := by
  have h1 : (Q * U)ᵀ * (Q * U) = 1 := by
    rw [Matrix.transpose_mul, Matrix.mul_assoc, ← Matrix.mul_assoc Qᵀ, hQ, Matrix.one_mul, hU]
  exact ⟨h1, (Matrix.mul_eq_one_comm_of_card_eq (R := ℝ) (eq := by rw [Fintype.card_fin, hc])).1 h1⟩

theorem eig_support (hQ : Qᵀ * Q = 1) (hc : Fintype.card ι = K) (hM : Qᵀ * Matrix.diagonal f * Q * U = U * Matrix.diagonal D)
    (x : ι) (j : Fin K) (h : (Q * U) x j ≠ 0) : f x = D j := by
  have hQ' : Q * Qᵀ = 1 := (Matrix.mul_eq_one_comm_of_card_eq (R := ℝ) (eq := by rw [Fintype.card_fin, hc])).1 hQ
  have e : Matrix.diagonal f * (Q * U) = (Q * U) * Matrix.diagonal D := by
    rw [Matrix.mul_assoc Q, ← hM]
    simp only [← Matrix.mul_assoc]
    rw [hQ', Matrix.one_mul]
  have := congrFun (congrFun e x) j
  rw [Matrix.diagonal_mul, Matrix.mul_diagonal, mul_comm] at this
  exact mul_left_cancel₀ h this

theorem eig_exists (hQ : Qᵀ * Q = 1) (hc : Fintype.card ι = K) (hU : Uᵀ * U = 1)
    (hM : Qᵀ * Matrix.diagonal f * Q * U = U * Matrix.diagonal D) (j : Fin K) : ∃ x, f x = D j := by
  by_contra hcon
  have h0 : ∀ x, (Q * U) x j = 0 := fun x => by
    by_contra h
    exact hcon ⟨x, eig_support hQ hc hM x j h⟩
  have := congrFun (congrFun (eig_rot hQ hc hU).1 j) j
  rw [Matrix.mul_apply, Matrix.one_apply_eq] at this
  simp [h0] at this

theorem eig_count (hQ : Qᵀ * Q = 1) (hc : Fintype.card ι = K) (hU : Uᵀ * U = 1)
    (hM : Qᵀ * Matrix.diagonal f * Q * U = U * Matrix.diagonal D) (v : ℝ) :
    (Finset.univ.filter fun j => D j = v).card = (Finset.univ.filter fun x => f x = v).card := by
  obtain ⟨h1, h2⟩ := eig_rot hQ hc hU
  set O := Q * U with hO
  have hs : ∀ x j, f x ≠ D j → O x j = 0 := fun x j h => by
    by_contra h'
    exact h (eig_support hQ hc hM x j h')
  have r1 : ∑ j ∈ Finset.univ.filter (fun j => D j = v), ∑ x, O x j * O x j = (Finset.univ.filter fun j => D j = v).card := by
    have e : ∀ j, ∑ x, O x j * O x j = 1 := fun j => by
      have := congrFun (congrFun h1 j) j
      rw [Matrix.mul_apply, Matrix.one_apply_eq] at this
      exact this
    simp [e]
  have r2 : ∑ x ∈ Finset.univ.filter (fun x => f x = v), ∑ j, O x j * O x j = (Finset.univ.filter fun x => f x = v).card := by
    have e : ∀ x, ∑ j, O x j * O x j = 1 := fun x => by
      have := congrFun (congrFun h2 x) x
      rw [Matrix.mul_apply, Matrix.one_apply_eq] at this
      exact this
    simp [e]
  have r3 : ∑ j ∈ Finset.univ.filter (fun j => D j = v), ∑ x, O x j * O x j =
      ∑ j ∈ Finset.univ.filter (fun j => D j = v), ∑ x ∈ Finset.univ.filter (fun x => f x = v), O x j * O x j := by
    refine Finset.sum_congr rfl fun j hj => ?_
    rw [Finset.sum_filter]
    refine Finset.sum_congr rfl fun x _ => ?_
    split_ifs with h
    · rfl
    · rw [hs x j (by rw [(Finset.mem_filter.1 hj).2]; exact h), zero_mul]
  have r4 : ∑ x ∈ Finset.univ.filter (fun x => f x = v), ∑ j, O x j * O x j =
      ∑ x ∈ Finset.univ.filter (fun x => f x = v), ∑ j ∈ Finset.univ.filter (fun j => D j = v), O x j * O x j := by
    refine Finset.sum_congr rfl fun x hx => ?_
    rw [Finset.sum_filter]
    refine Finset.sum_congr rfl fun j _ => ?_
    split_ifs with h
    · rfl
    · rw [hs x j (by rw [(Finset.mem_filter.1 hx).2]; exact fun h' => h h'.symm), zero_mul]
  have := (r1.symm.trans (r3.trans (Finset.sum_comm.trans (r4.symm.trans r2))))
  exact_mod_cast this

end

end Snob
