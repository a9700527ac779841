import Verif.Proofs.Rational
import Verif.Props.Classes

/-! # Property C89: the values of characters are integers, the entries of irreps square roots of rationals -/

namespace Snob.Props

open Snob IP Matrix

/-- entries of an orthogonal matrix -/
theorem rho_abs_le {n : Nat} {p : List Nat} (hp : IsPartition n p) (σ : Equiv.Perm (Fin n)) (u v : Wd n p) : |rho hp σ u v| ≤ 1 := by
  classical
  have h := congrFun (congrFun (show rho hp σ * (rho hp σ)ᵀ = 1 by rw [← rho_inv, ← map_mul, mul_inv_cancel, map_one]) u) u
  rw [Matrix.mul_apply, Matrix.one_apply_eq] at h
  have h2 : rho hp σ u v * rho hp σ u v ≤ 1 := by
    rw [← h]
    exact Finset.single_le_sum (f := fun w => rho hp σ u w * (rho hp σ)ᵀ w u) (fun w _ => mul_self_nonneg _) (Finset.mem_univ v)
  rw [abs_le]
  constructor <;> nlinarith

/-- **C89.** After every history of calls the value of a character at a class is an integer, of absolute value at most the
dimension of the irrep. -/
theorem C89_character_integer (cs : List Call) (hv : ∀ c ∈ cs, c.Valid) (n : Nat) (hn : 1 ≤ n) (p mu : List Nat)
    (hp : IsPartition n p) (hmu : IsPartition n mu) :
    ∃ w w' R, ∃ z : ℤ, World.empty.run cs = some w ∧ w.exec (.value p mu) = some (w', .real z) ∧ mkIrrep p = some R ∧ |z| ≤ R.d := by
  obtain ⟨w, w', x, R, e, e', hR, hx⟩ := C33_character_value cs hv n hn p mu hp hmu
  obtain ⟨z, hz⟩ := chi_int hp (blockPerm n mu 0)
  obtain ⟨R', hR', _, h⟩ := exists_repr hn hp
  obtain rfl : R = R' := Option.some.inj (hR.symm.trans hR')
  obtain ⟨A, hA, rfl⟩ := hx _ (hasCycleType_block hmu)
  obtain ⟨A', hA', hA''⟩ := h.eval_eq (blockPerm n mu 0)
  obtain rfl : A = A' := Option.some.inj (hA.symm.trans hA')
  have et : ∑ i : Fin R.d, A i i = z := by
    rw [← hz, Finset.sum_congr rfl fun i _ => hA'' i i, h.trace_rep]
  rw [et] at e'
  refine ⟨w, w', R, z, e, e', hR, ?_⟩
  have : |(z : ℝ)| ≤ R.d := by
    rw [← et]
    refine (Finset.abs_sum_le_sum_abs _ _).trans ?_
    have : ∀ i ∈ (Finset.univ : Finset (Fin R.d)), |A i i| ≤ 1 := fun i _ => by rw [hA'']; exact rho_abs_le hp _ _ _
    simpa using Finset.sum_le_sum this
  exact_mod_cast this

/-- **C89.** The entries on the diagonal of the matrix of a permutation are rational, and so are the squares of all entries. -/
theorem C89_entries (n : Nat) (hn : 1 ≤ n) (p : List Nat) (hp : IsPartition n p) (a : Arr) (ha : IsPerm n a) :
    ∃ R A, mkIrrep p = some R ∧ R.eval a = some A ∧ (∀ i : Fin R.d, ∃ q : ℚ, A i i = q) ∧ ∀ i j : Fin R.d, ∃ q : ℚ, A i j ^ 2 = q := by
  obtain ⟨σ, rfl⟩ := ha
  obtain ⟨R, hR, _, h⟩ := exists_repr hn hp
  obtain ⟨A, hA, hA'⟩ := h.eval_eq σ
  refine ⟨R, A, hR, hA, fun i => ?_, fun i j => ?_⟩
  · rw [hA' i i]; exact rho_diag_rat hp σ _
  · rw [hA' i j, sq]; exact rho_sq_rat hp σ _ _

/-- **C89.** Every entry becomes rational after one scaling of the basis vectors, the same for all permutations; the scale of
each vector is the root of a positive rational number. -/
theorem C89_rational_form (n : Nat) (hn : 1 ≤ n) (p : List Nat) (hp : IsPartition n p) :
    ∃ R, mkIrrep p = some R ∧ ∃ s : Fin R.d → ℚ, (∀ i, 0 < s i) ∧ ∀ a, IsPerm n a →
      ∃ A, R.eval a = some A ∧ ∀ i j : Fin R.d, ∃ q : ℚ, A i j * √(s j) = q * √(s i) := by
  obtain ⟨R, hR, _, h⟩ := exists_repr hn hp
  choose s hs using fun i => sc_sq_rat n (h.eqv i).cont
  have hpos : ∀ i, (0 : ℝ) < s i := fun i => by rw [← hs]; exact mul_pos (sc_pos _ _) (sc_pos _ _)
  have hsq : ∀ i, √((s i : ℚ) : ℝ) = sc n (h.eqv i).cont := fun i => by rw [← hs]; exact Real.sqrt_mul_self (sc_pos _ _).le
  refine ⟨R, hR, s, fun i => by exact_mod_cast hpos i, ?_⟩
  rintro _ ⟨σ, rfl⟩
  obtain ⟨A, hA, hA'⟩ := h.eval_eq σ
  obtain ⟨q, hq⟩ := scRat_rho hp σ
  exact ⟨A, hA, fun i j => ⟨q (h.eqv i) (h.eqv j), by rw [hA', hsq, hsq]; exact hq _ _⟩⟩

example : ∃ w w', ∃ z : ℤ, World.empty.run [.cclass 3 1, .irrep 3 [1, 1, 1]] = some w ∧ w.exec (.value [4, 2, 1] [3, 2, 2]) = some (w', .real z) := by
  obtain ⟨w, w', R, z, h1, h2, -⟩ := C89_character_integer [.cclass 3 1, .irrep 3 [1, 1, 1]]
    C33_example_valid 7 (by decide) [4, 2, 1] [3, 2, 2] ⟨by simp, by simp, rfl⟩ ⟨by simp, by simp, rfl⟩
  exact ⟨w, w', z, h1, h2⟩

example : ∃ R A, mkIrrep [3, 1] = some R ∧ R.eval [some 2, some 3, some 4, some 1] = some A ∧ ∀ i : Fin R.d, ∃ q : ℚ, A i i = q := by
  obtain ⟨R, A, h1, h2, h3, -⟩ := C89_entries 4 (by decide) [3, 1] ⟨by simp, by simp, rfl⟩ _ ⟨cyc 0 3, rfl⟩
  exact ⟨R, A, h1, by rw [← h2]; congr 1, h3⟩

end Snob.Props
