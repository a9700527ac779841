import Verif.Proofs.IrrepAct

/-! # Jucys-Murphy elements -/

namespace Snob

open IP Matrix

/-- the transposition of `i` and `k` (from zero) if both are below `n` -/
def tr (n i k : Nat) : Equiv.Perm (Fin n) :=
  if h : i < n ∧ k < n then Equiv.swap ⟨i, h.1⟩ ⟨k, h.2⟩ else 1

theorem tr_of {n i k : Nat} (hi : i < n) (hk : k < n) : tr n i k = Equiv.swap ⟨i, hi⟩ ⟨k, hk⟩ := by
  unfold tr; rw [dif_pos ⟨hi, hk⟩]

theorem tr_adj {n k : Nat} : tr n k (k + 1) = adj n k := by
  unfold tr adj
  by_cases h : k + 1 < n
  · rw [dif_pos ⟨by omega, h⟩, dif_pos h]
  · rw [dif_neg (fun h' => h h'.2), dif_neg h]

theorem tr_succ {n i k : Nat} (hi : i < k) (hk : k + 1 < n) :
    tr n i (k + 1) = adj n k * tr n i k * adj n k := by
  rw [tr_of (by omega) hk, tr_of (by omega) (by omega)]
  unfold adj
  rw [dif_pos hk]
  have h1 : Equiv.swap (⟨k, by omega⟩ : Fin n) ⟨k + 1, hk⟩ ⟨k, by omega⟩ = ⟨k + 1, hk⟩ := Equiv.swap_apply_left _ _
  have h2 : Equiv.swap (⟨k, by omega⟩ : Fin n) ⟨k + 1, hk⟩ ⟨i, by omega⟩ = ⟨i, by omega⟩ :=
    Equiv.swap_apply_of_ne_of_ne (by simp; omega) (by simp; omega)
  have := Equiv.mul_swap_eq_swap_mul (Equiv.swap (⟨k, by omega⟩ : Fin n) ⟨k + 1, hk⟩) ⟨i, by omega⟩ ⟨k, by omega⟩
  rw [h1, h2] at this
  rw [this, mul_assoc, Equiv.swap_mul_self, mul_one]

section
variable {n : Nat} {p : List Nat}

/-- the sum of the matrices of the transpositions `(i,k)`, `i<k` (from zero) -/
noncomputable def jm (hp : IsPartition n p) (k : Nat) : Matrix (Wd n p) (Wd n p) ℝ :=
  ∑ i ∈ Finset.range k, rho hp (tr n i k)

theorem jm_succ (hp : IsPartition n p) {k : Nat} (hk : k + 1 < n) :
    jm hp (k + 1) = yorM n p (k + 1) * jm hp k * yorM n p (k + 1) + yorM n p (k + 1) := by
  unfold jm
  rw [Finset.sum_range_succ, tr_adj, rho_adj hp hk, Finset.mul_sum, Finset.sum_mul]
  congr 1
  refine Finset.sum_congr rfl fun i hi => ?_
  rw [tr_succ (Finset.mem_range.1 hi) hk, map_mul, map_mul, rho_adj hp hk]

theorem contW_one {u : List Nat} (hu : Lat u) (hl : 1 ≤ u.length) : contW u 1 = 0 := by
  induction u with
  | nil => simp at hl
  | cons r u ih =>
    rcases u with _ | ⟨r', u⟩
    · have : r = 0 := by
        rcases hu.2 with h0 | ⟨_, h1⟩
        · exact h0
        · simp at h1
      subst this
      decide
    · rw [← ih hu.1 (by simp)]
      unfold contW
      rw [posW, if_neg]
      simp

theorem jm_diag (hp : IsPartition n p) (k : Nat) (hk : k < n) (f : Wd n p → ℝ) (u : Wd n p) :
    (jm hp k *ᵥ f) u = (u.cont (k + 1) : ℝ) * f u := by
  induction k generalizing f u with
  | zero =>
    have : u.cont 1 = 0 := contW_one (u.lat hp) (by rw [u.length hp]; omega)
    rw [this]
    simp [jm]
  | succ k ih =>
    rw [jm_succ hp hk, Matrix.add_mulVec, Pi.add_apply, ← Matrix.mulVec_mulVec, ← Matrix.mulVec_mulVec,
      yorM_mulVec hp (by omega) hk, yorM_mulVec hp (by omega) hk, ← lift_cont hp f u,
      ← S_jm (k + 1) (lift f) u.cont (u.cont_ne hp (by omega) hk)]
    congr 1
    refine S_congr hp (by omega) hk (fun v => ?_) u
    rw [lift_cont hp, ih (by omega), yorM_mulVec hp (by omega) hk]

/-- the matrix is diagonal -/
theorem jm_eq (hp : IsPartition n p) (k : Nat) (hk : k < n) :
    jm hp k = Matrix.diagonal fun u => (u.cont (k + 1) : ℝ) := by
  refine mat_ext fun f u => ?_
  rw [jm_diag hp k hk, Matrix.mulVec_diagonal]

variable {hp : IsPartition n p} {R : IrrepObj}

theorem Repr'.identMat_act (h : Repr' hp R) (σ : Equiv.Perm (Fin n)) (i j : Fin R.d) :
    act (h.rep σ) (List.range R.d) IrrepObj.identMat i j = h.rep σ i j := by
  unfold act
  rw [dif_pos ⟨i.2, by simp⟩, Finset.sum_eq_single j]
  · simp [IrrepObj.identMat]
  · intro j' _ hne
    have : (j' : Nat) ≠ j := fun e => hne (Fin.ext e)
    simp [IrrepObj.identMat, this]
  · intro h'; exact absurd (Finset.mem_univ j) h'

/-- the loop of `JucysMurphy` -/
theorem Repr'.jmMatrix_eq (h : Repr' hp R) (k : Nat) (h1 : 1 ≤ k) (hk : k ≤ n) :
    ∃ M, R.jmMatrix k = some M ∧
      ∀ i j : Fin R.d, M i j = ∑ x ∈ Finset.range (k - 1), h.rep (tr n x (k - 1)) i j := by
  obtain ⟨k, rfl⟩ : ∃ k', k = k' + 1 := ⟨k - 1, by omega⟩
  have g := h.gen (List.range R.d) List.nodup_range
  have hfin : ∀ x, x ≤ k → x < n := fun x hx => by omega
  have key : ∀ (m : Nat) (hm : m ≤ k) (A0 : Nat → Nat → ℝ),
      ∃ M : Nat → Nat → ℝ, iterDown (fun i (st : (Nat → Nat → ℝ) × (Nat → Nat → ℝ)) => (do
          let A ← R.applyTau (List.range R.d) i st.2
          let B ← R.applyCycleInv (List.range R.d) (i + 1) ((k + 1 : Nat) : Int) A
          some (fun x y => st.1 x y + B x y, A) :
            Option ((Nat → Nat → ℝ) × (Nat → Nat → ℝ)))) m m
          (A0, act (h.rep (run (adj n) m (k - m))) (List.range R.d) IrrepObj.identMat) =
          some (M, act (h.rep (run (adj n) 0 k)) (List.range R.d) IrrepObj.identMat) ∧
        ∀ i j : Fin R.d, M i j = A0 i j + ∑ x ∈ Finset.range m, h.rep (tr n x k) i j := by
    intro m
    induction m with
    | zero => intro hm A0; exact ⟨A0, rfl, by simp⟩
    | succ m ih =>
      intro hm A0
      have e0 : ((m + 1 : Nat) : Int) = (m : Int) + 1 := by push_cast; ring
      have hgen := g.gen m (act (h.rep (run (adj n) (m + 1) (k - (m + 1)))) (List.range R.d)
        IrrepObj.identMat) (by omega)
      have hrun : run (adj n) m (k - m) = adj n m * run (adj n) (m + 1) (k - (m + 1)) := by
        have : k - m = (k - (m + 1)) + 1 := by omega
        rw [this, run]
      rw [← g.mul, ← hrun] at hgen
      have hinv := h.applyCycle_down (List.range R.d) List.nodup_range ⟨m + 1, by omega⟩ ⟨k, by omega⟩
        (by rw [Fin.le_def]; simp only; omega)
        (act (h.rep (run (adj n) m (k - m))) (List.range R.d) IrrepObj.identMat)
      have htr : tr n m k = (cyc (⟨m + 1, by omega⟩ : Fin n) ⟨k, by omega⟩)⁻¹ * run (adj n) m (k - m) := by
        rw [tr_of (by omega) (by omega), swap_eq_cyc _ _ (by rw [Fin.lt_def]; simp only; omega), run_adj (by omega)]
        congr 2
        exact Fin.ext (by simp only; omega)
      rw [← act_mul, ← map_mul, ← htr] at hinv
      obtain ⟨M, hM, hMv⟩ := ih (by omega) (fun x y => A0 x y +
        act (h.rep (tr n m k)) (List.range R.d) IrrepObj.identMat x y)
      refine ⟨M, ?_, ?_⟩
      · rw [iterDown]
        simp only [Option.bind_eq_bind]
        rw [e0]
        rw [hgen, Option.bind_some]
        unfold IrrepObj.applyCycleInv
        simp only [Nat.cast_add, Nat.cast_one] at hinv ⊢
        rw [hinv, Option.bind_some, Option.bind_some]
        have e1 : ((m : Int) + 1 - 1) = (m : Int) := by ring
        rw [e1]
        simp only [Option.bind_eq_bind] at hM
        unfold IrrepObj.applyCycleInv at hM
        simp only [Nat.cast_add, Nat.cast_one] at hM
        exact hM
      · intro i j
        rw [hMv i j, h.identMat_act, Finset.sum_range_succ]
        ring
  obtain ⟨M, hM, hMv⟩ := key k (Nat.le_refl _) (fun _ _ => 0)
  refine ⟨M, ?_, fun i j => by rw [hMv]; simp⟩
  unfold IrrepObj.jmMatrix
  rw [h.n_eq, if_pos (by exact_mod_cast hk)]
  have e : (((k + 1 : Nat) : Int) - 1) = k := by push_cast; ring
  have e2 : (((k + 1 : Nat) : Int) - 1 - 1 + 1).toNat = k := by omega
  unfold forDown
  rw [e2, e]
  have e3 : run (adj n) k (k - k) = 1 := by rw [Nat.sub_self]; rfl
  rw [e3, map_one, act_one] at hM
  rw [hM]
  rfl

theorem Repr'.rep_jm (h : Repr' hp R) (k : Nat) (hk : k < n) (i j : Fin R.d) :
    ∑ x ∈ Finset.range k, h.rep (tr n x k) i j = if i = j then ((h.eqv i).cont (k + 1) : ℝ) else 0 := by
  have h1 := congrFun (congrFun (jm_eq hp k hk) (h.eqv i)) (h.eqv j)
  unfold jm at h1
  rw [Matrix.sum_apply] at h1
  simp only [h.rep_apply, Repr'.mat, Matrix.submatrix_apply]
  rw [h1, Matrix.diagonal_apply]
  simp

end

end Snob
