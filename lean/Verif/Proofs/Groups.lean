import Mathlib.Analysis.SpecialFunctions.Trigonometric.Basic
import Mathlib.Algebra.BigOperators.Intervals
import Mathlib.Algebra.Field.GeomSum
import Mathlib.Data.ZMod.Basic
import Mathlib.GroupTheory.SpecificGroups.Dihedral
import Mathlib.Logic.Equiv.Fin.Basic
import Mathlib.RingTheory.RootsOfUnity.Complex
import Verif.Model.Groups
import Verif.Proofs.Function

/-! # Cyclic, dihedral and product groups -/

namespace Snob

theorem cmod_val {n : Nat} [NeZero n] {a : Int} (h : 0 ≤ a) : cmod a n = some (((a : ZMod n).val : Nat) : Int) := by
  have hn : (n : Int) ≠ 0 := by exact_mod_cast NeZero.ne n
  rw [cmod, if_neg hn, ZMod.val_intCast, Int.tmod_eq_emod_of_nonneg h]

section
variable (n : Nat) [NeZero n]

/-- the numbering of the cyclic group -/
def cycEquiv : Fin (cyclicGroup n).size ≃ Multiplicative (ZMod n) where
  toFun i := Multiplicative.ofAdd ((i : Nat) : ZMod n)
  invFun x := ⟨(Multiplicative.toAdd x).val, ZMod.val_lt _⟩
  left_inv i := Fin.ext (ZMod.val_cast_of_lt i.2)
  right_inv x := by
    show Multiplicative.ofAdd (((Multiplicative.toAdd x).val : Nat) : ZMod n) = x
    rw [ZMod.natCast_zmod_val, ofAdd_toAdd]

/-- the object for an element of the cyclic group -/
def cycRep (x : Multiplicative (ZMod n)) : CycElem := ⟨n, ((Multiplicative.toAdd x).val : Nat)⟩

theorem cyclic_implements : Implements (cyclicGroup n) (cycEquiv n) (cycRep n) where
  inj x y h := by
    have h1 := congrArg CycElem.i h
    simp only [cycRep, Nat.cast_inj] at h1
    exact Multiplicative.toAdd.injective (ZMod.val_injective n h1)
  element i := by
    show some (⟨n, _⟩ : CycElem) = some ⟨n, _⟩
    congr 2
    have h1 := (cycEquiv n).left_inv i
    exact_mod_cast congrArg Fin.val h1.symm
  mul x y := by
    show CycElem.mul _ _ = _
    rw [CycElem.mul, cycRep, cycRep, if_pos rfl, cmod_val (by positivity)]
    simp [cycRep]
  inverse x := by
    show CycElem.inverse _ = _
    have h1 : (Multiplicative.toAdd x).val < n := ZMod.val_lt _
    rw [CycElem.inverse, cycRep, cmod_val (by simp only; omega)]
    simp [cycRep]
  index x := rfl

/-- the numbering of the dihedral group -/
def dihEquiv : Fin (dihedralGroup n).size ≃ DihedralGroup n where
  toFun i := if (i : Nat) < n then .r ((i : Nat) : ZMod n) else .sr (-(((i : Nat) - n : Nat) : ZMod n))
  invFun x := match x with
    | .r i => ⟨i.val, by have := ZMod.val_lt i; show _ < 2 * n; omega⟩
    | .sr i => ⟨(-i).val + n, by have := ZMod.val_lt (-i); show _ < 2 * n; omega⟩
  left_inv i := by
    have h2 : (i : Nat) < 2 * n := i.2
    by_cases h : (i : Nat) < n
    · simp only [h, if_true]
      exact Fin.ext (ZMod.val_cast_of_lt h)
    · simp only [h, if_false]
      refine Fin.ext ?_
      simp only [neg_neg]
      rw [ZMod.val_cast_of_lt (by omega)]
      omega
  right_inv x := by
    rcases x with i | i
    · simp only [ZMod.val_lt i, if_true, ZMod.natCast_zmod_val]
    · simp only [show ¬ (-i).val + n < n by omega, if_false, Nat.add_sub_cancel, ZMod.natCast_zmod_val, neg_neg]

/-- the object for an element of the dihedral group; `(i,-1)` is the reflection that Mathlib calls `sr (-i)` -/
def dihRep : DihedralGroup n → DihElem
  | .r i => ⟨n, (i.val : Nat), 1⟩
  | .sr i => ⟨n, ((-i).val : Nat), -1⟩

theorem dihedral_implements : Implements (dihedralGroup n) (dihEquiv n) (dihRep n) where
  inj x y h := by
    rcases x with x | x <;> rcases y with y | y <;> simp only [dihRep, DihElem.mk.injEq, true_and, Nat.cast_inj] at h
    · rw [ZMod.val_injective n h.1]
    · exact absurd h.2 (by decide)
    · exact absurd h.2 (by decide)
    · rw [neg_injective (ZMod.val_injective n h.1)]
  element i := by
    have h2 : (i : Nat) < 2 * n := i.2
    show some (dihElement n _) = some (dihRep n (if (i : Nat) < n then _ else _))
    congr 1
    unfold dihElement
    by_cases h : (i : Nat) < n
    · rw [if_pos (by omega), if_pos h, dihRep, ZMod.val_cast_of_lt h]
    · rw [if_neg (by omega), if_neg h, dihRep, neg_neg, ZMod.val_cast_of_lt (by omega)]
      congr 1
      omega
  mul x y := by
    show DihElem.mul _ _ = _
    have hx : ∀ x : ZMod n, x.val < n := ZMod.val_lt
    rcases x with x | x <;> rcases y with y | y
    · rw [DihElem.mul, dihRep, dihRep, if_pos rfl, cmod_val (by positivity)]
      simp [dihRep]
    · rw [DihElem.mul, dihRep, dihRep, if_pos rfl, cmod_val (by positivity)]
      simp [dihRep, sub_eq_add_neg]
    · rw [DihElem.mul, dihRep, dihRep, if_pos rfl, cmod_val (by have := hx y; simp only; omega)]
      simp [dihRep, add_comm]
    · rw [DihElem.mul, dihRep, dihRep, if_pos rfl, cmod_val (by have := hx (-y); simp only; omega)]
      simp [dihRep, add_comm, sub_eq_add_neg]
  inverse x := by
    show DihElem.inverse _ = _
    have hx : ∀ x : ZMod n, x.val < n := ZMod.val_lt
    rcases x with x | x
    · rw [DihElem.inverse, dihRep, cmod_val (by have := hx x; simp only; omega)]
      simp [dihRep]
    · rw [DihElem.inverse, dihRep, cmod_val (by have := hx (-x); simp only; omega)]
      simp [dihRep]
  index x := by
    rcases x with x | x
    · show some (_ : Int) = some _
      simp [dihRep, dihEquiv]
    · show some (_ : Int) = some _
      simp [dihRep, dihEquiv]

end

section
variable {E₁ E₂ G₁ G₂ : Type} [Group G₁] [Group G₂] {I₁ : GroupOps E₁} {I₂ : GroupOps E₂} {e₁ : Fin I₁.size ≃ G₁}
  {e₂ : Fin I₂.size ≃ G₂} {rep₁ : G₁ → E₁} {rep₂ : G₂ → E₂}

/-- the numbering of the product -/
def prodEquiv (e₁ : Fin I₁.size ≃ G₁) (e₂ : Fin I₂.size ≃ G₂) : Fin (productGroup I₁ I₂).size ≃ G₁ × G₂ :=
  finProdFinEquiv.symm.trans (Equiv.prodCongr e₁ e₂)

theorem product_implements (h₁ : ImplementsOps I₁ e₁ rep₁) (h₂ : ImplementsOps I₂ e₂ rep₂) :
    ImplementsOps (productGroup I₁ I₂) (prodEquiv e₁ e₂) (Prod.map rep₁ rep₂) where
  inj := h₁.inj.prodMap h₂.inj
  element i := by
    have hi : (i : Nat) < I₁.size * I₂.size := i.2
    have h0 : 0 < I₂.size := Nat.pos_of_ne_zero fun h => by rw [h, Nat.mul_zero] at hi; omega
    have h0' : (I₂.size : Int) ≠ 0 := by omega
    have d : cdiv ((i : Nat) : Int) I₂.size = some (((i : Nat) / I₂.size : Nat) : Int) := by
      rw [cdiv, if_neg h0', Int.tdiv_eq_ediv_of_nonneg (by omega)]; simp
    have m : cmod ((i : Nat) : Int) I₂.size = some (((i : Nat) % I₂.size : Nat) : Int) := by
      rw [cmod, if_neg h0', Int.tmod_eq_emod_of_nonneg (by omega)]; simp
    show (do
      let a ← cdiv ((i : Nat) : Int) I₂.size
      let b ← cmod ((i : Nat) : Int) I₂.size
      let x ← I₁.element a
      let y ← I₂.element b
      some (x, y)) = _
    have k1 := h₁.element ⟨(i : Nat) / I₂.size, Nat.div_lt_of_lt_mul (by rw [Nat.mul_comm]; exact hi)⟩
    have k2 := h₂.element ⟨(i : Nat) % I₂.size, Nat.mod_lt _ h0⟩
    simp only [Option.bind_eq_bind]
    rw [d, m, Option.bind_some, Option.bind_some, k1, Option.bind_some, k2, Option.bind_some]
    rfl
  mul x y := by
    show (do
      let a ← I₁.mul (rep₁ x.1) (rep₁ y.1)
      let b ← I₂.mul (rep₂ x.2) (rep₂ y.2)
      some (a, b)) = _
    rw [h₁.mul, h₂.mul]
    rfl
  inverse x := by
    show (do
      let a ← I₁.inverse (rep₁ x.1)
      let b ← I₂.inverse (rep₂ x.2)
      some (a, b)) = _
    rw [h₁.inverse, h₂.inverse]
    rfl

end

/-! ### Roots of unity -/

/-- the first `n`-th root of unity -/
noncomputable def om (n : Nat) : ℂ := Complex.exp (2 * Real.pi * Complex.I / n)

section
variable {n : Nat} (hn : n ≠ 0)

theorem om_ne_zero (n : Nat) : om n ≠ 0 := Complex.exp_ne_zero _

theorem om_prim (hn : n ≠ 0) : IsPrimitiveRoot (om n) n := Complex.isPrimitiveRoot_exp n hn

theorem om_zpow (n : Nat) (a : Int) : om n ^ a = Complex.exp (((2 * Real.pi / n * a : ℝ) : ℂ) * Complex.I) := by
  rw [om, ← Complex.exp_int_mul]
  congr 1
  push_cast
  ring

theorem cos_sin (n : Nat) (k i : Int) :
    (⟨Real.cos (2 * Real.pi / n * k * i), Real.sin (2 * Real.pi / n * k * i)⟩ : ℂ) = om n ^ (k * i) := by
  rw [om_zpow, Complex.exp_mul_I, ← Complex.ofReal_cos, ← Complex.ofReal_sin, ← Complex.mk_eq_add_mul_I]
  congr 2 <;> · push_cast; ring_nf

theorem cos_sin_neg (n : Nat) (k i : Int) :
    (⟨Real.cos (2 * Real.pi / n * k * i), -Real.sin (2 * Real.pi / n * k * i)⟩ : ℂ) = om n ^ (-(k * i)) := by
  have h := cos_sin n (-k) i
  rw [neg_mul] at h
  rw [← h]
  push_cast
  rw [mul_neg, neg_mul, Real.cos_neg, Real.sin_neg]

theorem conj_om (n : Nat) (a : Int) : (starRingEnd ℂ) (om n ^ a) = om n ^ (-a) := by
  rw [om_zpow, om_zpow, ← Complex.exp_conj, map_mul, Complex.conj_I, Complex.conj_ofReal]
  congr 1
  push_cast
  ring

theorem norm_om (n : Nat) (a : Int) : ‖om n ^ a‖ = 1 := by rw [om_zpow, Complex.norm_exp_ofReal_mul_I]

include hn in
theorem om_congr {a b : Int} (h : (a : ZMod n) = (b : ZMod n)) : om n ^ a = om n ^ b := by
  rw [ZMod.intCast_eq_intCast_iff_dvd_sub] at h
  have h1 := ((om_prim hn).zpow_eq_one_iff_dvd (b - a)).2 h
  rw [zpow_sub₀ (om_ne_zero n), div_eq_one_iff_eq (zpow_ne_zero _ (om_ne_zero n))] at h1
  exact h1.symm

include hn in
theorem sum_om (a : Int) :
    ∑ i ∈ Finset.range n, om n ^ (a * (i : Int)) = if (n : Int) ∣ a then (n : ℂ) else 0 := by
  have h1 : ∀ i : Nat, om n ^ (a * (i : Int)) = (om n ^ a) ^ i := fun i => by rw [zpow_mul, zpow_natCast]
  simp only [h1]
  have h2 := (om_prim hn).zpow_eq_one_iff_dvd a
  split_ifs with h
  · rw [h2.2 h]; simp
  · have h3 : om n ^ a ≠ 1 := fun hh => h (h2.1 hh)
    have h4 : (om n ^ a) ^ n = 1 := by
      rw [← zpow_natCast, ← zpow_mul, mul_comm, zpow_mul, zpow_natCast, (om_prim hn).pow_eq_one, one_zpow]
    rw [geom_sum_eq h3, h4, sub_self, zero_div]

end

end Snob
