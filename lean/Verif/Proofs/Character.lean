import Mathlib.LinearAlgebra.Matrix.NonsingularInverse
import Mathlib.Algebra.BigOperators.Field
import Verif.Proofs.Classes
import Verif.Proofs.IrrepSpec

/-! # Characters -/

namespace Snob

open scoped Nat

/-- trace of the representing matrix -/
noncomputable def chi {n : Nat} {p : List Nat} (hp : IsPartition n p) (σ : Equiv.Perm (Fin n)) : ℝ :=
  Matrix.trace (rho hp σ)

theorem chi_conj {n : Nat} {p : List Nat} (hp : IsPartition n p) {σ τ : Equiv.Perm (Fin n)} (h : IsConj σ τ) :
    chi hp σ = chi hp τ := by
  obtain ⟨c, hc⟩ := isConj_iff.1 h
  unfold chi
  rw [← hc, map_mul, map_mul, Matrix.trace_mul_comm, ← mul_assoc, ← map_mul, inv_mul_cancel, map_one, one_mul]

theorem chi_class {n : Nat} {p mu : List Nat} (hp : IsPartition n p) (hmu : IsPartition n mu)
    {σ τ : Equiv.Perm (Fin n)} (h : HasCycleType σ mu) (h' : HasCycleType τ mu) : chi hp σ = chi hp τ := by
  refine chi_conj hp (Equiv.Perm.isConj_iff_cycleType_eq.2 ?_)
  rw [(hasCycleType_iff hmu σ).1 h, (hasCycleType_iff hmu τ).1 h']

theorem hasCycleType_block {n : Nat} {mu : List Nat} (hmu : IsPartition n mu) :
    HasCycleType (blockPerm n mu 0) mu :=
  (hasCycleType_iff hmu _).2 (blockPerm_cycleType mu 0 hmu.pos (by rw [hmu.sum]; omega))

section

variable {n : Nat} {p : List Nat} {hp : IsPartition n p} {R : IrrepObj}

theorem Repr'.applyCycle_run (h : Repr' hp R) (a x : Nat) (hx : 0 < x) (hn : a + x ≤ n) (A : Nat → Nat → ℝ) :
    R.applyCycle (List.range R.d) ((a : Int) + 1) ((a : Int) + 1 + x - 1) A =
      some (act (h.rep (run (adj n) a (x - 1))) (List.range R.d) A) := by
  unfold IrrepObj.applyCycle
  by_cases h1 : x = 1
  · subst h1
    rw [if_neg (by omega), forUp_empty (by omega)]
    rw [show run (adj n) a (1 - 1) = 1 from rfl, map_one, act_one]
  · rw [if_pos (by omega)]
    exact (h.gen (List.range R.d) List.nodup_range).down a (x - 1) (by omega) rfl (by omega) A

theorem Repr'.charLoop_eq (h : Repr' hp R) (mu : List Nat) (a : Nat) (hpos : ∀ x ∈ mu, 0 < x) (hs : a + mu.sum ≤ n)
    (A : Nat → Nat → ℝ) :
    R.charLoop mu ((a : Int) + 1) A = some (act (h.rep (blockPerm n mu a)) (List.range R.d) A) := by
  induction mu generalizing a A with
  | nil => rw [IrrepObj.charLoop, blockPerm, map_one, act_one]
  | cons x mu ih =>
    simp only [List.sum_cons] at hs
    rw [IrrepObj.charLoop, h.applyCycle_run a x (hpos x (by simp)) (by omega), Option.bind_some]
    have e : (a : Int) + 1 + x = ((a + x : Nat) : Int) + 1 := by push_cast; ring
    rw [e, ih (a + x) (fun y hy => hpos y (by simp [hy])) (by omega), blockPerm, map_mul, act_mul]

theorem foldl_diag (d : Nat) (f : Nat → ℝ) : (List.range d).foldl (fun t i => t + f i) 0 = ∑ i : Fin d, f i := by
  rw [Finset.sum_range (f := f) |>.symm]
  induction d with
  | zero => simp
  | succ d ih => rw [List.range_succ, List.foldl_append, ih, Finset.sum_range_succ]; rfl

theorem Repr'.trace_rep (h : Repr' hp R) (σ : Equiv.Perm (Fin n)) : ∑ i, h.rep σ i i = chi hp σ := by
  unfold chi Matrix.trace
  rw [← h.eqv.sum_comp]
  refine Finset.sum_congr rfl fun i _ => ?_
  rw [h.rep_apply]; rfl

theorem Repr'.character_eq (h : Repr' hp R) {mu : List Nat} (hmu : IsPartition n mu) (σ : Equiv.Perm (Fin n))
    (hσ : HasCycleType σ mu) : R.character mu = some (chi hp σ) := by
  unfold IrrepObj.character
  have := h.charLoop_eq mu 0 hmu.pos (by rw [hmu.sum]; omega) IrrepObj.identMat
  simp only [Nat.cast_zero, zero_add] at this
  rw [this]
  simp only [Option.bind_eq_bind, Option.bind_some, Option.some.injEq]
  rw [foldl_diag, chi_class hp hmu hσ (hasCycleType_block hmu), ← h.trace_rep]
  exact Finset.sum_congr rfl fun i _ => h.identMat_act _ i i

end

theorem chi_orthogonality {n : Nat} {p q : List Nat} (hp : IsPartition n p) (hq : IsPartition n q) :
    ∑ σ, chi hp σ * chi hq σ = if p = q then (n ! : ℝ) else 0 := by
  have e : ∀ σ, chi hp σ * chi hq σ = ∑ a, ∑ c, rho hp σ a a * rho hq σ c c := by
    intro σ
    unfold chi Matrix.trace
    rw [Finset.sum_mul_sum]; rfl
  rw [Finset.sum_congr rfl fun σ _ => e σ, Finset.sum_comm]
  have e2 : ∀ a, ∑ σ, ∑ c, rho hp σ a a * rho hq σ c c = ∑ c, ∑ σ, rho hp σ a a * rho hq σ c c :=
    fun a => Finset.sum_comm
  rw [Finset.sum_congr rfl fun a _ => e2 a]
  split_ifs with h
  · subst h
    have hc : (Fintype.card (Wd n p) : ℝ) ≠ 0 := by
      have := card_Wd_pos hp
      positivity
    simp only [orthogonality_eq hp]
    have : ∀ a c : Wd n p, (if a = c ∧ a = c then (n ! : ℝ) / Fintype.card (Wd n p) else 0) =
        if a = c then (n ! : ℝ) / Fintype.card (Wd n p) else 0 := fun a c => by simp
    simp only [this, Finset.sum_ite_eq, Finset.mem_univ, if_true, Finset.sum_const, Finset.card_univ, nsmul_eq_mul]
    field_simp
  · simp only [orthogonality_ne hp hq h, Finset.sum_const_zero]

/-- value at a class -/
noncomputable def chiAt {n : Nat} {p : List Nat} (hp : IsPartition n p) (mu : List Nat) : ℝ := chi hp (blockPerm n mu 0)

/-- number of permutations of a cycle type -/
noncomputable def ccard (n : Nat) (mu : List Nat) : Nat :=
  (Finset.univ.filter fun σ : Equiv.Perm (Fin n) => σ.cycleType = big mu).card

theorem chi_orthonormal {n : Nat} {p q : List Nat} (hp : IsPartition n p) (hq : IsPartition n q) :
    ∑ mu : Pt n, (ccard n mu.1 : ℝ) * (chiAt hp mu.1 * chiAt hq mu.1) = if p = q then (n ! : ℝ) else 0 := by
  rw [← chi_orthogonality hp hq, sum_by_class]
  refine Finset.sum_congr rfl fun mu _ => ?_
  rw [Finset.sum_congr rfl (g := fun _ => chiAt hp mu.1 * chiAt hq mu.1), Finset.sum_const, nsmul_eq_mul]
  · rfl
  · intro σ hσ
    have hσ' := (hasCycleType_iff mu.2 σ).2 (Finset.mem_filter.1 hσ).2
    rw [chi_class hp mu.2 hσ' (hasCycleType_block mu.2), chi_class hq mu.2 hσ' (hasCycleType_block mu.2)]
    rfl

theorem ccard_mul_zee {n : Nat} {mu : List Nat} (h : IsPartition n mu) : ccard n mu * zee mu = n ! := zee_mul_card h

/-- column orthogonality -/
theorem chi_columns {n : Nat} (mu nu : Pt n) :
    ∑ p : Pt n, chiAt p.2 mu.1 * chiAt p.2 nu.1 = if mu = nu then (zee mu.1 : ℝ) else 0 := by
  classical
  let M : Matrix (Pt n) (Pt n) ℝ := fun p mu => chiAt p.2 mu.1
  let N : Matrix (Pt n) (Pt n) ℝ := fun mu q => (ccard n mu.1 : ℝ) / (n ! : ℝ) * chiAt q.2 mu.1
  have hn : (n ! : ℝ) ≠ 0 := by positivity
  have h : M * N = 1 := by
    ext p q
    rw [Matrix.mul_apply, Matrix.one_apply]
    have := chi_orthonormal p.2 q.2
    have e : ∀ j, M p j * N j q = (ccard n j.1 : ℝ) * (chiAt p.2 j.1 * chiAt q.2 j.1) / n ! := by
      intro j
      simp only [M, N]; field_simp
    rw [Finset.sum_congr rfl fun j _ => e j, ← Finset.sum_div, this]
    by_cases e : p = q
    · subst e; simp [hn]
    · rw [if_neg fun h => e (Subtype.ext h), if_neg e, zero_div]
  have h1 : N * M = 1 := mul_eq_one_comm.1 h
  have h2 := congrFun (congrFun h1 mu) nu
  rw [Matrix.mul_apply, Matrix.one_apply] at h2
  have hz : (ccard n mu.1 : ℝ) * zee mu.1 = n ! := by exact_mod_cast ccard_mul_zee mu.2
  have hzp : (zee mu.1 : ℝ) ≠ 0 := by
    have := zee_pos (m := (mu.1 : Multiset Nat)) (by simpa using mu.2.pos)
    positivity
  have e : ∀ p : Pt n, N mu p * M p nu = (1 / (zee mu.1 : ℝ)) * (chiAt p.2 mu.1 * chiAt p.2 nu.1) := by
    intro p
    simp only [M, N]
    have : (ccard n mu.1 : ℝ) / n ! = 1 / zee mu.1 := by rw [div_eq_div_iff hn hzp, one_mul, hz]
    rw [this]; ring
  rw [Finset.sum_congr rfl fun p _ => e p, ← Finset.mul_sum] at h2
  rw [one_div, inv_mul_eq_iff_eq_mul₀ hzp] at h2
  rw [h2]
  split_ifs <;> simp

end Snob
