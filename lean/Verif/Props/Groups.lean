import Mathlib.LinearAlgebra.Matrix.Trace
import Mathlib.LinearAlgebra.Matrix.Notation
import Verif.Proofs.Groups
import Verif.Spec.Groups
import Verif.Props.Function

/-! # Properties C51 - C54 and C65: cyclic, dihedral and product groups -/

namespace Snob.Props

open Snob

/-! ## C51: cyclic groups -/

theorem cycValid_iff (n : Nat) [NeZero n] (x : CycElem) : CycValid n x ↔ ∃ g, x = cycRep n g := by
  constructor
  · rintro ⟨h1, h2, h3⟩
    refine ⟨Multiplicative.ofAdd (x.i : ZMod n), ?_⟩
    obtain ⟨m, i⟩ := x
    obtain rfl : m = n := h1
    simp only at h2 h3
    simp only [cycRep, toAdd_ofAdd, CycElem.mk.injEq, true_and]
    rw [ZMod.val_intCast, Int.emod_eq_of_lt h2 h3]
  · rintro ⟨g, rfl⟩
    exact ⟨rfl, Int.natCast_nonneg _, Int.ofNat_lt.2 (ZMod.val_lt _)⟩

/-- **C51.** The objects with reduced number are closed under product and inverse, which are defined and are addition and
negation modulo `n`; `index` and `element` are mutually inverse. -/
theorem C51_cyclic_group (n : Nat) (hn : 1 ≤ n) :
    (cyclicGroup n).size = n ∧ CycValid n (cyclicIdentity n) ∧
    (∀ x y, CycValid n x → CycValid n y → ∃ z, CycElem.mul x y = some z ∧ CycValid n z ∧ (n : Int) ∣ z.i - (x.i + y.i)) ∧
    (∀ x, CycValid n x → ∃ z, CycElem.inverse x = some z ∧ CycValid n z ∧ (n : Int) ∣ z.i + x.i ∧
      CycElem.mul x z = some (cyclicIdentity n)) ∧
    (∀ i : Int, 0 ≤ i → i < n → ∃ x, (cyclicGroup n).element i = some x ∧ CycValid n x ∧ (cyclicGroup n).index x = some i) ∧
    (∀ x, CycValid n x → ∃ i : Int, 0 ≤ i ∧ i < n ∧ (cyclicGroup n).index x = some i ∧ (cyclicGroup n).element i = some x) := by
  have : NeZero n := ⟨by omega⟩
  have hI := cyclic_implements n
  have h0 : cyclicIdentity n = cycRep n 1 := by simp [cyclicIdentity, cycRep]
  refine ⟨rfl, (cycValid_iff n _).2 ⟨_, h0⟩, ?_, ?_, fun i h1 h2 => ⟨_, rfl, ⟨rfl, h1, h2⟩, rfl⟩,
    fun x hx => ⟨x.i, hx.2.1, hx.2.2, rfl, ?_⟩⟩
  · intro x y hx hy
    obtain ⟨g, rfl⟩ := (cycValid_iff n x).1 hx
    obtain ⟨h, rfl⟩ := (cycValid_iff n y).1 hy
    refine ⟨_, hI.mul g h, (cycValid_iff n _).2 ⟨_, rfl⟩, ?_⟩
    rw [← ZMod.intCast_zmod_eq_zero_iff_dvd]
    simp [cycRep]
  · intro x hx
    obtain ⟨g, rfl⟩ := (cycValid_iff n x).1 hx
    refine ⟨_, hI.inverse g, (cycValid_iff n _).2 ⟨_, rfl⟩, ?_, ?_⟩
    · rw [← ZMod.intCast_zmod_eq_zero_iff_dvd]
      simp [cycRep]
    · rw [h0, ← mul_inv_cancel g]
      exact hI.mul g g⁻¹
  · obtain ⟨m, i⟩ := x
    obtain rfl : m = n := hx.1
    rfl

/-- **C51.** The class implements the group of residues modulo `n`, so that C55 holds of functions on it. -/
theorem C51_implements (n : Nat) [NeZero n] :
    Implements (cyclicGroup n) (cycEquiv n) (cycRep n) ∧ ∀ x, CycValid n x ↔ ∃ g, x = cycRep n g :=
  ⟨cyclic_implements n, cycValid_iff n⟩

/-- **C51.** The irreps with numbers `0..n-1` have one entry, which has modulus one; they are homomorphisms and take the
same value at an element as at its index; different ones are orthogonal. -/
theorem C51_irreps (n : Nat) (hn : 1 ≤ n) :
    cyclicIrreps n = n ∧
    (∀ (k : Int) (x : CycElem), (cyclicIrrep n k x).Square 1 ∧ ‖(cyclicIrrep n k x).mat 1 0 0‖ = 1 ∧
      cyclicIrrepAt n k x.i = cyclicIrrep n k x) ∧
    (∀ (k : Int) (x y z : CycElem), CycValid n x → CycValid n y → CycElem.mul x y = some z →
      (cyclicIrrep n k z).mat 1 = (cyclicIrrep n k x).mat 1 * (cyclicIrrep n k y).mat 1) ∧
    (∀ k l : Int, 0 ≤ k → k < cyclicIrreps n → 0 ≤ l → l < cyclicIrreps n →
      ∑ i ∈ Finset.range n, (cyclicIrrepAt n k i).mat 1 0 0 * (starRingEnd ℂ) ((cyclicIrrepAt n l i).mat 1 0 0) =
        if k = l then (n : ℂ) else 0) := by
  have hn0 : n ≠ 0 := by omega
  have : NeZero n := ⟨hn0⟩
  have hv : ∀ (k : Int) (x : CycElem), (cyclicIrrep n k x).mat 1 0 0 = om n ^ (k * x.i) := by
    intro k x
    simp only [cyclicIrrep, CTensor.mat]
    simpa using cos_sin n k x.i
  have hw : ∀ (k i : Int), (cyclicIrrepAt n k i).mat 1 0 0 = om n ^ (k * i) := by
    intro k x
    simp only [cyclicIrrepAt, CTensor.mat]
    simpa using cos_sin n k x
  refine ⟨rfl, fun k x => ⟨⟨rfl, rfl⟩, by rw [hv, norm_om], rfl⟩, ?_, ?_⟩
  · intro k x y z hx hy hz
    obtain ⟨z', h1, -, h2⟩ := (C51_cyclic_group n hn).2.2.1 x y hx hy
    obtain rfl := Option.some.inj (hz.symm.trans h1)
    ext a b
    rw [Matrix.mul_apply, Fin.sum_univ_one, Subsingleton.elim a 0, Subsingleton.elim b 0, hv, hv, hv,
      ← zpow_add₀ (om_ne_zero n)]
    refine om_congr hn0 ?_
    rw [← ZMod.intCast_zmod_eq_zero_iff_dvd] at h2
    push_cast at h2 ⊢
    rw [sub_eq_zero.1 h2]
    ring
  · intro k l h1 h2 h3 h4
    simp only [hw, conj_om]
    have e : ∀ i : Nat, om n ^ (k * (i : Int)) * om n ^ (-(l * (i : Int))) = om n ^ ((k - l) * (i : Int)) := fun i => by
      rw [← zpow_add₀ (om_ne_zero n)]; congr 1; ring
    simp only [e]
    rw [sum_om hn0]
    have h2' : k < n := h2
    have h4' : l < n := h4
    congr 1
    refine propext ⟨fun ⟨c, hc⟩ => ?_, fun h => by rw [h, sub_self]; exact dvd_zero _⟩
    have hc0 : c = 0 := by
      rcases lt_trichotomy c 0 with h | h | h
      · nlinarith
      · exact h
      · nlinarith
    rw [hc0, mul_zero] at hc
    omega

/-- In the cyclic group of order 5, 3+4 is 2 and the inverse of 3 is 2. -/
example : CycValid 5 ⟨5, 3⟩ ∧ CycElem.mul ⟨5, 3⟩ ⟨5, 4⟩ = some ⟨5, 2⟩ ∧ CycElem.inverse ⟨5, 3⟩ = some ⟨5, 2⟩ :=
  ⟨⟨rfl, by decide, by decide⟩, by decide, by decide⟩

/-! ## C52: dihedral groups -/

theorem dihValid_iff (n : Nat) [NeZero n] (x : DihElem) : DihValid n x ↔ ∃ g, x = dihRep n g := by
  constructor
  · rintro ⟨h1, h2, h3, h4⟩
    obtain ⟨m, i, s⟩ := x
    obtain rfl : m = n := h1
    simp only at h2 h3 h4
    rcases h4 with rfl | rfl
    · refine ⟨.r (i : ZMod n), ?_⟩
      simp only [dihRep, DihElem.mk.injEq, true_and, and_true]
      rw [ZMod.val_intCast, Int.emod_eq_of_lt h2 h3]
    · refine ⟨.sr (-(i : ZMod n)), ?_⟩
      simp only [dihRep, DihElem.mk.injEq, true_and, and_true, neg_neg]
      rw [ZMod.val_intCast, Int.emod_eq_of_lt h2 h3]
  · rintro ⟨g | g, rfl⟩
    · exact ⟨rfl, Int.natCast_nonneg _, Int.ofNat_lt.2 (ZMod.val_lt _), Or.inl rfl⟩
    · exact ⟨rfl, Int.natCast_nonneg _, Int.ofNat_lt.2 (ZMod.val_lt _), Or.inr rfl⟩

/-- **C52.** The class implements the dihedral group of order `2n`, so that C55 holds of functions on it. -/
theorem C52_implements (n : Nat) [NeZero n] :
    Implements (dihedralGroup n) (dihEquiv n) (dihRep n) ∧ ∀ x, DihValid n x ↔ ∃ g, x = dihRep n g :=
  ⟨dihedral_implements n, dihValid_iff n⟩

/-- **C52.** The `2n` rotations and reflections form a group under the product, with the computed inverse; conjugation
with a reflection inverts rotations; reflections are involutions. -/
theorem C52_group_laws (n : Nat) (hn : 1 ≤ n) :
    (dihedralGroup n).size = 2 * n ∧ DihValid n (dihIdentity n) ∧
    (∀ x y, DihValid n x → DihValid n y → ∃ z, DihElem.mul x y = some z ∧ DihValid n z ∧ z.s = x.s * y.s ∧
      (n : Int) ∣ z.i - (x.i + x.s * y.i)) ∧
    (∀ x y z, DihValid n x → DihValid n y → DihValid n z →
      (DihElem.mul x y).bind (DihElem.mul · z) = (DihElem.mul y z).bind (DihElem.mul x ·)) ∧
    (∀ x, DihValid n x → DihElem.mul (dihIdentity n) x = some x ∧ DihElem.mul x (dihIdentity n) = some x ∧
      ∃ y, DihElem.inverse x = some y ∧ DihValid n y ∧ DihElem.mul x y = some (dihIdentity n) ∧
        DihElem.mul y x = some (dihIdentity n)) ∧
    (∀ x, DihValid n x → x.s = -1 → DihElem.inverse x = some x ∧ DihElem.mul x x = some (dihIdentity n) ∧
      ∀ y, DihValid n y → y.s = 1 →
        ((DihElem.mul x y).bind (DihElem.mul · x)) = DihElem.inverse y) := by
  have : NeZero n := ⟨by omega⟩
  have hI := dihedral_implements n
  have hm : ∀ g h, DihElem.mul (dihRep n g) (dihRep n h) = some (dihRep n (g * h)) := hI.mul
  have hi : ∀ g, DihElem.inverse (dihRep n g) = some (dihRep n g⁻¹) := hI.inverse
  have h0 : dihIdentity n = dihRep n 1 := by
    rw [DihedralGroup.one_def]; simp [dihIdentity, dihRep]
  refine ⟨rfl, (dihValid_iff n _).2 ⟨_, h0⟩, ?_, ?_, ?_, ?_⟩
  · intro x y hx hy
    obtain ⟨g, rfl⟩ := (dihValid_iff n x).1 hx
    obtain ⟨h, rfl⟩ := (dihValid_iff n y).1 hy
    refine ⟨_, hm g h, (dihValid_iff n _).2 ⟨_, rfl⟩, ?_, ?_⟩
    · rcases g with g | g <;> rcases h with h | h <;> simp [dihRep]
    · rw [← ZMod.intCast_zmod_eq_zero_iff_dvd]
      rcases g with g | g <;> rcases h with h | h <;> simp [dihRep] <;> ring
  · intro x y z hx hy hz
    obtain ⟨g, rfl⟩ := (dihValid_iff n x).1 hx
    obtain ⟨h, rfl⟩ := (dihValid_iff n y).1 hy
    obtain ⟨k, rfl⟩ := (dihValid_iff n z).1 hz
    simp only [hm, Option.bind_some, mul_assoc]
  · intro x hx
    obtain ⟨g, rfl⟩ := (dihValid_iff n x).1 hx
    rw [h0]
    simp only [hm, hi, one_mul, mul_one, true_and, Option.some.injEq]
    exact ⟨_, rfl, (dihValid_iff n _).2 ⟨_, rfl⟩, by rw [hm, mul_inv_cancel], by rw [hm, inv_mul_cancel]⟩
  · intro x hx hs
    obtain ⟨g, rfl⟩ := (dihValid_iff n x).1 hx
    rcases g with g | g
    · exact absurd hs (by simp [dihRep])
    refine ⟨by rw [hi, DihedralGroup.inv_sr], by rw [hm, h0]; simp, fun y hy hs' => ?_⟩
    obtain ⟨h, rfl⟩ := (dihValid_iff n y).1 hy
    rcases h with h | h
    · rw [hm, Option.bind_some, hm, hi]
      simp
    · exact absurd hs' (by simp [dihRep])

/-- **C52.** `index` and `element` are mutually inverse, and `index()` of the element is `index(x)` of the group. -/
theorem C52_index (n : Nat) :
    (∀ i : Int, 0 ≤ i → i < 2 * n → ∃ x, (dihedralGroup n).element i = some x ∧ DihValid n x ∧
      (dihedralGroup n).index x = some i) ∧
    (∀ x, DihValid n x → ∃ i : Int, 0 ≤ i ∧ i < 2 * n ∧ (dihedralGroup n).index x = some i ∧ x.index = i ∧
      (dihedralGroup n).element i = some x) := by
  constructor
  · intro i h1 h2
    refine ⟨_, rfl, ?_⟩
    by_cases h : i < n
    · rw [dihElement, if_pos h]
      exact ⟨⟨rfl, h1, h, Or.inl rfl⟩, by simp [dihedralGroup]⟩
    · rw [dihElement, if_neg h]
      exact ⟨⟨rfl, by simp only; omega, by simp only; omega, Or.inr rfl⟩, by simp [dihedralGroup]⟩
  · rintro ⟨m, i, s⟩ ⟨h1, h2, h3, h4⟩
    obtain rfl : m = n := h1
    simp only at h2 h3 h4
    rcases h4 with rfl | rfl
    · exact ⟨i, h2, by omega, by simp [dihedralGroup], by simp [DihElem.index], by simp [dihedralGroup, dihElement, h3]⟩
    · refine ⟨i + n, by omega, by omega, by simp [dihedralGroup], by simp [DihElem.index]; omega, ?_⟩
      simp [dihedralGroup, dihElement, show ¬ i + (n : Int) < n by omega]

/-- **C52.** `s()` is a reflection for `n≥2`; for `n=1` it is not an element of the group: its index is 2, outside of
the range of a function on the group. -/
theorem C52_s (n : Nat) (hn : 1 ≤ n) :
    (DihValid n (dihS n) ↔ 2 ≤ n) ∧
      ((dihedralGroup 1).index (dihS 1) = some 2 ∧ (dihedralGroup 1).size = 2 ∧
        ∀ f : Cells ℝ, Written (dihedralGroup 1).size f → (dihedralGroup 1).value f (dihS 1) = none) := by
  refine ⟨⟨fun h => by have := h.2.2.1; simp only [dihS] at this; omega, fun h =>
    ⟨rfl, by simp [dihS], by simp only [dihS]; omega, Or.inr rfl⟩⟩, rfl, rfl, fun f hf => ?_⟩
  have h1 : (dihedralGroup 1).index (dihS 1) = some 2 := rfl
  have h2 : f.length = 2 := hf.1
  rw [GroupI.value, h1, Option.bind_some, rdC, if_pos (by omega), List.getElem?_eq_none (by simp [h2])]
  rfl

/-- **C52.** `r(i)` is the `i`-th rotation when `0≤i<n`: rotations multiply by adding their numbers, and `s()` turns a
rotation into its inverse. `i` is not reduced: `r(n)` is not an element of the group, and its index is that of a
reflection. -/
theorem C52_r (n : Nat) (hn : 1 ≤ n) :
    (∀ i : Int, DihValid n (dihR n i) ↔ 0 ≤ i ∧ i < n) ∧
    (∀ i : Int, 0 ≤ i → i < n → (dihedralGroup n).element i = some (dihR n i) ∧ (dihedralGroup n).index (dihR n i) = some i) ∧
    (∀ i j : Int, 0 ≤ i → 0 ≤ j → DihElem.mul (dihR n i) (dihR n j) = some (dihR n ((i + j) % n))) ∧
    (∀ i : Int, 0 ≤ i → i < n → (DihElem.mul (dihS n) (dihR n i)).bind (DihElem.mul · (dihS n)) = DihElem.inverse (dihR n i)) ∧
    ∃ x, DihValid n x ∧ x.s = -1 ∧ (dihedralGroup n).index x = (dihedralGroup n).index (dihR n n) := by
  have hc : ∀ x : Int, 0 ≤ x → cmod x n = some (x % n) := fun x hx => by
    unfold cmod
    rw [if_neg (by omega), Int.tmod_eq_emod_of_nonneg hx]
  refine ⟨fun i => ⟨fun h => ⟨h.2.1, h.2.2.1⟩, fun h => ⟨rfl, h.1, h.2, Or.inl rfl⟩⟩, fun i _ h2 => ?_, fun i j h1 h2 => ?_,
    fun i h1 h2 => ?_, ⟨n, 0, -1⟩, ⟨rfl, le_refl _, by simp only; omega, Or.inr rfl⟩, rfl, by simp [dihedralGroup, dihR]⟩
  · exact ⟨by simp [dihedralGroup, dihElement, h2, dihR], by simp [dihedralGroup, dihR]⟩
  · simp only [DihElem.mul, dihR, if_true, one_mul]
    rw [hc _ (by omega), Int.add_emod_right]
    rfl
  · simp only [DihElem.mul, DihElem.inverse, dihR, dihS, if_true]
    rw [hc _ (by omega)]
    simp only [Option.map_some, Option.bind_some, if_true]
    rw [hc _ (by have := Int.emod_nonneg (1 + -1 * i + n) (by omega : (n : Int) ≠ 0); omega), hc _ (by omega)]
    simp only [Option.map_some, Option.some.injEq, DihElem.mk.injEq, true_and]
    refine ⟨?_, by norm_num⟩
    rw [show (1 + -1 * i + (n : Int)) % n + -1 * 1 * 1 + n = (1 + -1 * i + (n : Int)) % n + (n - 1) by ring, Int.emod_add_emod]
    rw [show 1 + -1 * i + (n : Int) + (n - 1) = (1 * -i + n) + n by ring, Int.add_emod_right]

example : DihElem.mul (dihR 5 3) (dihR 5 4) = some (dihR 5 2) ∧ (dihedralGroup 5).index (dihR 5 5) = some 5 := by decide

/-- In the dihedral group of order 10: a product of two reflections, and of a reflection and a rotation. -/
example : DihValid 5 ⟨5, 3, -1⟩ ∧ DihElem.mul ⟨5, 1, -1⟩ ⟨5, 3, -1⟩ = some ⟨5, 3, 1⟩ ∧
    DihElem.mul ⟨5, 1, -1⟩ ⟨5, 3, 1⟩ = some ⟨5, 3, -1⟩ := ⟨⟨rfl, by decide, by decide, by decide⟩, by decide, by decide⟩

/-! ## C53: dihedral irreps -/

/-- the irreps of dimension one: `q` a multiple of `n/2`, `ε` the sign of reflections -/
def OneDim (n : Nat) (k q : Int) (ε : ℂ) : Prop :=
  dihDim n k = 1 ∧ (n : Int) ∣ 2 * q ∧ 0 ≤ q ∧ 2 * q ≤ n ∧ (ε = 1 ∨ ε = -1) ∧
    ∀ i : Int, 0 ≤ i → dihIrrepAt n k i = ⟨[1], [(if i < n then 1 else ε) * om n ^ (q * i)]⟩

/-- the irreps of dimension two -/
def TwoDim (n : Nat) (k p : Int) : Prop :=
  dihDim n k = 2 ∧ 1 ≤ p ∧ 2 * p < n ∧
    ∀ i : Int, dihIrrepAt n k i =
      if i < n then ⟨[2, 2], [om n ^ (p * i), 0, 0, om n ^ (-(p * i))]⟩
      else ⟨[2, 2], [0, om n ^ (p * i), om n ^ (-(p * i)), 0]⟩

theorem om_half (h : Nat) (hh : 1 ≤ h) : om (2 * h) ^ (h : Int) = -1 := by
  have h1 := (om_prim (n := 2 * h) (by omega))
  have h2 : (om (2 * h) ^ (h : Int)) ^ 2 = 1 := by
    rw [zpow_natCast, ← pow_mul, Nat.mul_comm h 2, h1.pow_eq_one]
  have h3 : om (2 * h) ^ (h : Int) ≠ 1 := fun hc => by
    have h4 := (h1.zpow_eq_one_iff_dvd (h : Int)).1 hc
    have h5 := Int.le_of_dvd (by omega) h4
    push_cast at h5
    omega
  rcases mul_self_eq_one_iff.1 ((sq _).symm.trans h2) with h6 | h6
  · exact absurd h6 h3
  · exact h6

/-- the irreps that are right -/
def GoodIrrep (n : Nat) (k : Int) : Prop := 0 ≤ k ∧ k < dihIrreps n ∧ ¬ (n % 2 = 0 ∧ k = 3)

theorem classify {n : Nat} (hn : 1 ≤ n) {k : Int} (hk : GoodIrrep n k) :
    (∃ q ε, OneDim n k q ε ∧ (k = 0 ∧ q = 0 ∧ ε = 1 ∨ k = 1 ∧ q = 0 ∧ ε = -1 ∨ k = 2 ∧ 2 * q = n ∧ ε = 1)) ∨
      ∃ p, TwoDim n k p ∧ p = k - 1 - 2 * (if n % 2 = 0 then 1 else 0) := by
  obtain ⟨h1, h2, h3⟩ := hk
  have hev : (Int.tmod n 2 = 0) ↔ n % 2 = 0 := by
    rw [Int.tmod_eq_emod_of_nonneg (by omega)]; omega
  have hdv : Int.tdiv n 2 = n / 2 := Int.tdiv_eq_ediv_of_nonneg (by omega)
  have hdv' : Int.tdiv ((n : Int) - 1) 2 = ((n : Int) - 1) / 2 := Int.tdiv_eq_ediv_of_nonneg (by omega)
  rw [dihIrreps, hdv, hdv', if_congr hev rfl rfl] at h2
  have hdim : dihDim n k = if k < 2 * (1 + (if n % 2 = 0 then 1 else 0)) then 1 else 2 := by
    unfold dihDim
    rw [if_congr hev rfl rfl]
  by_cases k0 : k = 0
  · subst k0
    refine Or.inl ⟨0, 1, ⟨?_, by simp, le_refl _, by omega, Or.inl rfl, fun i _ => ?_⟩, Or.inl ⟨rfl, rfl, rfl⟩⟩
    · rw [hdim, if_pos]; split_ifs <;> omega
    · rw [dihIrrepAt, if_pos rfl]; simp
  by_cases k1 : k = 1
  · subst k1
    refine Or.inl ⟨0, -1, ⟨?_, by simp, le_refl _, by omega, Or.inr rfl, fun i _ => ?_⟩, Or.inr (Or.inl ⟨rfl, rfl, rfl⟩)⟩
    · rw [hdim, if_pos]; split_ifs <;> omega
    · rw [dihIrrepAt, if_neg (by decide), if_pos rfl]
      by_cases h : i < n
      · simp [h, show ¬ (n : Int) ≤ i by omega]
      · simp [h, show (n : Int) ≤ i by omega]; norm_num
  by_cases k2 : n % 2 = 0 ∧ k = 2
  · obtain ⟨hn2, rfl⟩ := k2
    obtain ⟨h, rfl⟩ : ∃ h, n = 2 * h := ⟨n / 2, by omega⟩
    refine Or.inl ⟨h, 1, ⟨?_, by push_cast; exact dvd_refl _, by omega, by push_cast; omega, Or.inl rfl, fun i hi => ?_⟩,
      Or.inr (Or.inr ⟨rfl, by push_cast; rfl, rfl⟩)⟩
    · rw [hdim, if_pos]; rw [if_pos hn2]; decide
    · rw [dihIrrepAt, if_neg (by decide), if_neg (by decide), if_pos ⟨hev.2 hn2, rfl⟩, ite_self, one_mul, zpow_mul,
        om_half h (by omega), Int.tmod_eq_emod_of_nonneg hi]
      rcases Int.even_or_odd i with he | ho
      · rw [he.neg_one_zpow, Int.even_iff.1 he]; simp
      · rw [ho.neg_one_zpow, Int.odd_iff.1 ho]; norm_num
  · refine Or.inr ⟨_, ⟨?_, ?_, ?_, fun i => ?_⟩, rfl⟩
    · rw [hdim, if_neg]
      split_ifs with he <;> omega
    · split_ifs with he <;> omega
    · split_ifs at h2 ⊢ with he <;> omega
    · have e : ¬ (Int.tmod n 2 = 0 ∧ k = 2) := by rw [hev]; exact k2
      rw [dihIrrepAt, if_neg k0, if_neg k1, if_neg e, if_congr hev rfl rfl]
      simp only [cos_sin, cos_sin_neg]

/-- the reduced number of a product -/
theorem dih_mul_cast {n : Nat} (hn : 1 ≤ n) {x y z : DihElem} (hx : DihValid n x) (hy : DihValid n y)
    (h : DihElem.mul x y = some z) : DihValid n z ∧ z.s = x.s * y.s ∧ (z.i : ZMod n) = x.i + x.s * y.i := by
  obtain ⟨z', h1, h2, h3, h4⟩ := (C52_group_laws n hn).2.2.1 x y hx hy
  obtain rfl := Option.some.inj (h.symm.trans h1)
  refine ⟨h2, h3, ?_⟩
  rw [← ZMod.intCast_zmod_eq_zero_iff_dvd] at h4
  push_cast at h4
  exact sub_eq_zero.1 h4

theorem mat_one (d : List Nat) (v : ℂ) : CTensor.mat ⟨d, [v]⟩ 1 = !![v] := by
  ext a b
  fin_cases a
  fin_cases b
  simp [CTensor.mat]

theorem mat_two (d : List Nat) (a b c e : ℂ) : CTensor.mat ⟨d, [a, b, c, e]⟩ 2 = !![a, b; c, e] := by
  ext i j
  fin_cases i <;> fin_cases j <;> simp [CTensor.mat]

theorem om_congr_mul {n : Nat} (hn : n ≠ 0) {p a b : Int} (h : (a : ZMod n) = b) : om n ^ (p * a) = om n ^ (p * b) :=
  om_congr hn (by push_cast; rw [h])

theorem om_congr_neg {n : Nat} (hn : n ≠ 0) {p a b : Int} (h : (a : ZMod n) = b) : om n ^ (-(p * a)) = om n ^ (-(p * b)) :=
  om_congr hn (by push_cast; rw [h])

theorem OneDim.hom {n : Nat} (hn : 1 ≤ n) {k q : Int} {ε : ℂ} (hk : OneDim n k q ε) {x y z : DihElem} (hx : DihValid n x)
    (hy : DihValid n y) (h : DihElem.mul x y = some z) :
    (dihIrrep n k z).mat 1 = (dihIrrep n k x).mat 1 * (dihIrrep n k y).mat 1 := by
  obtain ⟨hz, hs, hc⟩ := dih_mul_cast hn hx hy h
  obtain ⟨-, ⟨c, hc2⟩, -, -, hε, hv⟩ := hk
  have hn0 : n ≠ 0 := by omega
  have val : ∀ x, DihValid n x → (dihIrrep n k x).mat 1 = !![(if x.s = 1 then 1 else ε) * om n ^ (q * x.i)] := by
    rintro ⟨m, i, s⟩ ⟨e1, e2, e3, e4⟩
    obtain rfl : m = n := e1
    simp only at e2 e3 e4
    rcases e4 with rfl | rfl
    · rw [dihIrrep, hv _ (by simp [DihElem.index]; omega), mat_one]
      simp [DihElem.index, e3]
    · rw [dihIrrep, hv _ (by simp [DihElem.index]; omega), mat_one]
      have : om n ^ (q * ((n : Int) + i)) = om n ^ (q * i) := om_congr_mul hn0 (by push_cast; simp)
      simp [DihElem.index, show ¬ i < 0 by omega, this]
  have hneg : ∀ a : Int, om n ^ (q * (-a)) = om n ^ (q * a) := by
    intro a
    refine om_congr hn0 ?_
    have h2 : ((2 * q : Int) : ZMod n) = 0 := by rw [hc2]; simp
    push_cast at h2 ⊢
    linear_combination (-(a : ZMod n)) * h2
  rw [val x hx, val y hy, val z hz]
  have hprod : om n ^ (q * z.i) = om n ^ (q * x.i) * om n ^ (q * y.i) := by
    rw [om_congr_mul (b := x.i + x.s * y.i) hn0 (by push_cast; exact hc), mul_add, zpow_add₀ (om_ne_zero n)]
    rcases hx.2.2.2 with e | e
    · rw [e, one_mul]
    · rw [e, neg_one_mul, hneg]
  rw [hprod, hs]
  ext a b
  fin_cases a
  fin_cases b
  rcases hx.2.2.2 with e | e <;> rcases hy.2.2.2 with e' | e' <;> rcases hε with rfl | rfl <;> simp [e, e', Matrix.mul_apply]

theorem TwoDim.hom {n : Nat} (hn : 1 ≤ n) {k p : Int} (hk : TwoDim n k p) {x y z : DihElem} (hx : DihValid n x)
    (hy : DihValid n y) (h : DihElem.mul x y = some z) :
    (dihIrrep n k z).mat 2 = (dihIrrep n k x).mat 2 * (dihIrrep n k y).mat 2 := by
  obtain ⟨hz, hs, hc⟩ := dih_mul_cast hn hx hy h
  obtain ⟨-, -, -, hv⟩ := hk
  have hn0 : n ≠ 0 := by omega
  have val : ∀ x, DihValid n x → (dihIrrep n k x).mat 2 =
      if x.s = 1 then !![om n ^ (p * x.i), 0; 0, om n ^ (-(p * x.i))] else !![0, om n ^ (p * x.i); om n ^ (-(p * x.i)), 0] := by
    rintro ⟨m, i, s⟩ ⟨e1, e2, e3, e4⟩
    obtain rfl : m = n := e1
    simp only at e2 e3 e4
    rcases e4 with rfl | rfl
    · rw [dihIrrep, hv, if_pos (by simp [DihElem.index]; omega), mat_two]
      simp [DihElem.index]
    · rw [dihIrrep, hv, if_neg (by simp [DihElem.index]; omega), mat_two]
      have h1 : om n ^ (p * ((n : Int) + i)) = om n ^ (p * i) := om_congr_mul hn0 (by push_cast; simp)
      have h2 : om n ^ (-(p * ((n : Int) + i))) = om n ^ (-(p * i)) := om_congr_neg hn0 (by push_cast; simp)
      simp [DihElem.index, h1, h2]
  rw [val x hx, val y hy, val z hz]
  have h1 : om n ^ (p * z.i) = om n ^ (p * x.i) * om n ^ (x.s * (p * y.i)) := by
    rw [om_congr_mul (b := x.i + x.s * y.i) hn0 (by push_cast; exact hc), ← zpow_add₀ (om_ne_zero n)]
    congr 1; ring
  have h2 : om n ^ (-(p * z.i)) = om n ^ (-(p * x.i)) * om n ^ (-x.s * (p * y.i)) := by
    rw [om_congr_neg (b := x.i + x.s * y.i) hn0 (by push_cast; exact hc), ← zpow_add₀ (om_ne_zero n)]
    congr 1; ring
  rw [h1, h2, hs]
  rcases hx.2.2.2 with e | e <;> rcases hy.2.2.2 with e' | e' <;>
    simp only [e, e', one_mul, neg_mul, mul_neg, mul_one, neg_neg, if_true, show ¬ ((-1 : Int) = 1) by decide, if_false] <;>
    · ext a b
      fin_cases a <;> fin_cases b <;> simp [Matrix.mul_apply, Fin.sum_univ_two]

/-- **C53 (negation).** For even `n` the irrep with number 3 declares dimension 1 and returns 2 by 2 matrices at every
element, since the second branch for `k==2` was meant for `k==3`. -/
theorem C53_irrep_three_wrong :
    ¬ ∀ (n : Nat) (k : Int), 1 ≤ n → 0 ≤ k → k < dihIrreps n → ∀ x, DihValid n x → (dihIrrep n k x).Square (dihDim n k) := by
  intro h
  have h1 := (h 2 3 (by decide) (by decide) (by decide) ⟨2, 0, 1⟩ ⟨rfl, by decide, by decide, by decide⟩).1
  have h2 : dihDim 2 3 = 1 := by decide
  rw [h2, dihIrrep, dihIrrepAt, if_neg (by decide), if_neg (by decide), if_neg (by decide)] at h1
  simp only [DihElem.index] at h1
  split_ifs at h1 <;> simp_all

/-- **C53 (negation, everywhere).** The same for every even `n` and every element. -/
theorem C53_irrep_three (n : Nat) (h2 : n % 2 = 0) (x : DihElem) :
    dihDim n 3 = 1 ∧ (dihIrrep n 3 x).dims = [2, 2] ∧ ¬ (dihIrrep n 3 x).Square 1 := by
  have hev : Int.tmod n 2 = 0 := by rw [Int.tmod_eq_emod_of_nonneg (by omega)]; omega
  have h1 : (dihIrrep n 3 x).dims = [2, 2] := by
    rw [dihIrrep, dihIrrepAt, if_neg (by decide), if_neg (by decide), if_neg (by simp)]
    simp only
    split_ifs <;> rfl
  refine ⟨by rw [dihDim, if_pos]; rw [if_pos hev]; decide, h1, fun h => ?_⟩
  have h3 := h.1
  rw [h1, if_pos rfl] at h3
  simp at h3

/-- **C53.** Full statement: every irrep with number `0≤k<n_irreps()` returns matrices of its declared dimension and is a
homomorphism. This is false for even `n` and `k=3` (`C53_irrep_three`). What holds: it is true of all the others. -/
theorem C53_irreps_partial (n : Nat) (hn : 1 ≤ n) (k : Int) (hk : GoodIrrep n k) :
    (∀ x, DihValid n x → (dihIrrep n k x).Square (dihDim n k)) ∧
    (dihIrrep n k (dihIdentity n)).mat (dihDim n k) = 1 ∧
    ∀ x y z, DihValid n x → DihValid n y → DihElem.mul x y = some z →
      (dihIrrep n k z).mat (dihDim n k) = (dihIrrep n k x).mat (dihDim n k) * (dihIrrep n k y).mat (dihDim n k) := by
  rcases classify hn hk with ⟨q, ε, h, -⟩ | ⟨p, h, -⟩
  · rw [h.1]
    have hv := h.2.2.2.2.2
    refine ⟨fun x hx => ?_, ?_, fun x y z hx hy hz => h.hom hn hx hy hz⟩
    · have h0 : 0 ≤ x.index := by
        obtain ⟨e1, e2, e3, e4⟩ := hx
        unfold DihElem.index
        split_ifs <;> omega
      rw [dihIrrep, hv _ h0]
      exact ⟨rfl, rfl⟩
    · rw [dihIrrep, hv _ (by simp [dihIdentity, DihElem.index]), mat_one]
      ext a b
      fin_cases a
      fin_cases b
      simp [dihIdentity, DihElem.index, show 0 < n by omega]
  · rw [h.1]
    have hv := h.2.2.2
    refine ⟨fun x hx => ?_, ?_, fun x y z hx hy hz => h.hom hn hx hy hz⟩
    · rw [dihIrrep, hv]
      split_ifs <;> exact ⟨rfl, rfl⟩
    · rw [dihIrrep, hv, if_pos (by simp [dihIdentity, DihElem.index]; omega), mat_two]
      ext a b
      fin_cases a <;> fin_cases b <;> simp [dihIdentity, DihElem.index]

/-- the character of an irrep at the element with index `i` -/
noncomputable def chi (n : Nat) (k i : Int) : ℂ := ((dihIrrepAt n k i).mat (dihDim n k)).trace

theorem OneDim.chi {n : Nat} {k q : Int} {ε : ℂ} (h : OneDim n k q ε) (i : Int) (hi : 0 ≤ i) :
    chi n k i = (if i < n then 1 else ε) * om n ^ (q * i) := by
  unfold Props.chi
  rw [h.1, h.2.2.2.2.2 i hi, mat_one]
  simp [Matrix.trace]

theorem TwoDim.chi {n : Nat} {k p : Int} (h : TwoDim n k p) (i : Int) :
    chi n k i = if i < n then om n ^ (p * i) + om n ^ (-(p * i)) else 0 := by
  unfold Props.chi
  rw [h.1, h.2.2.2 i]
  split_ifs
  · rw [mat_two, Matrix.trace_fin_two_of]
  · rw [mat_two, Matrix.trace_fin_two_of, add_zero]

theorem sum_om_ne {n : Nat} (hn : 1 ≤ n) {a : Int} (h1 : -n < a) (h2 : a < n) :
    ∑ i ∈ Finset.range n, om n ^ (a * (i : Int)) = if a = 0 then (n : ℂ) else 0 := by
  rw [sum_om (by omega)]
  congr 1
  refine propext ⟨fun ⟨c, hc⟩ => ?_, fun h => by rw [h]; exact dvd_zero _⟩
  have hc0 : c = 0 := by
    rcases lt_trichotomy c 0 with h | h | h
    · nlinarith
    · exact h
    · nlinarith
  rw [hc, hc0, mul_zero]

theorem sum_split {n : Nat} (F : Int → ℂ) :
    ∑ i ∈ Finset.range (2 * n), F i = ∑ i ∈ Finset.range n, F i + ∑ i ∈ Finset.range n, F (n + i) := by
  rw [two_mul, Finset.sum_range_add]
  push_cast
  rfl

/-- **C53.** Full statement: the characters of the irreps are orthogonal, of square norm `2n`, that is, the irreps are
irreducible and inequivalent. This is false for even `n` and `k=3`, where there is no character of the declared
dimension (`C53_irrep_three`). What holds: it is true of all the others. -/
theorem C53_orthogonal_partial (n : Nat) (hn : 1 ≤ n) (k l : Int) (hk : GoodIrrep n k) (hl : GoodIrrep n l) :
    ∑ i ∈ Finset.range (2 * n), ((dihIrrepAt n k i).mat (dihDim n k)).trace *
      (starRingEnd ℂ) (((dihIrrepAt n l i).mat (dihDim n l)).trace) = if k = l then (2 * n : ℂ) else 0 := by
  have hn0 : n ≠ 0 := by omega
  have om0 := om_ne_zero n
  show ∑ i ∈ Finset.range (2 * n), chi n k i * (starRingEnd ℂ) (chi n l i) = _
  rw [sum_split fun i => chi n k i * (starRingEnd ℂ) (chi n l i)]
  have lt : ∀ i ∈ Finset.range n, ((i : Nat) : Int) < n := fun i hi => by have := Finset.mem_range.1 hi; omega
  have shift : ∀ (q : Int) (i : Nat), om n ^ (q * ((n : Int) + i)) = om n ^ (q * (i : Int)) := fun q i =>
    om_congr_mul hn0 (by push_cast; simp)
  rcases classify hn hk with ⟨q, ε, h, hq⟩ | ⟨p, h, hp⟩ <;> rcases classify hn hl with ⟨q', ε', h', hq'⟩ | ⟨p', h', hp'⟩
  · have e1 : ∀ i ∈ Finset.range n, chi n k i * (starRingEnd ℂ) (chi n l i) = om n ^ ((q - q') * (i : Int)) := by
      intro i hi
      rw [h.chi _ (by omega), h'.chi _ (by omega), if_pos (lt i hi), if_pos (lt i hi), one_mul, one_mul, conj_om, ← zpow_add₀ om0]
      congr 1; ring
    have hε' : (starRingEnd ℂ) ε' = ε' := by rcases h'.2.2.2.2.1 with rfl | rfl <;> simp
    have e2 : ∀ i ∈ Finset.range n, chi n k ((n : Int) + i) * (starRingEnd ℂ) (chi n l ((n : Int) + i)) =
        (ε * ε') * om n ^ ((q - q') * (i : Int)) := by
      intro i hi
      rw [h.chi _ (by omega), h'.chi _ (by omega), if_neg (by omega), if_neg (by omega), map_mul, hε', shift, shift, conj_om,
        show (q - q') * (i : Int) = q * i + -(q' * i) by ring, zpow_add₀ om0]
      ring
    rw [Finset.sum_congr rfl e1, Finset.sum_congr rfl e2, ← Finset.mul_sum,
      sum_om_ne hn (by have := h.2.2.1; have := h'.2.2.2.1; omega) (by have := h'.2.2.1; have := h.2.2.2.1; omega)]
    rcases hq with ⟨rfl, rfl, rfl⟩ | ⟨rfl, rfl, rfl⟩ | ⟨rfl, hq, rfl⟩ <;>
      rcases hq' with ⟨rfl, rfl, rfl⟩ | ⟨rfl, rfl, rfl⟩ | ⟨rfl, hq', rfl⟩
    · norm_num; ring
    · norm_num
    · simp [show q' ≠ 0 by omega]
    · norm_num
    · norm_num; ring
    · simp [show q' ≠ 0 by omega]
    · simp [show q ≠ 0 by omega]
    · simp [show q ≠ 0 by omega]
    · simp [show q - q' = 0 by omega]; ring
  · have e1 : ∀ i ∈ Finset.range n, chi n k i * (starRingEnd ℂ) (chi n l i) =
        om n ^ ((q - p') * (i : Int)) + om n ^ ((q + p') * (i : Int)) := by
      intro i hi
      rw [h.chi _ (by omega), h'.chi, if_pos (lt i hi), if_pos (lt i hi), one_mul, map_add, conj_om, conj_om, mul_add,
        ← zpow_add₀ om0, ← zpow_add₀ om0]
      congr 2 <;> ring
    have e2 : ∀ i ∈ Finset.range n, chi n k ((n : Int) + i) * (starRingEnd ℂ) (chi n l ((n : Int) + i)) = 0 := by
      intro i hi
      rw [h'.chi, if_neg (by omega), map_zero, mul_zero]
    obtain ⟨-, p1, p2, -⟩ := h'
    obtain ⟨-, -, q1, q2, -⟩ := h
    rw [Finset.sum_congr rfl e1, Finset.sum_congr rfl e2, Finset.sum_add_distrib, sum_om_ne hn (by omega) (by omega),
      sum_om_ne hn (by omega) (by omega), if_neg (by omega), if_neg (by omega), if_neg]
    · simp
    · split_ifs at hp' <;> omega
  · have e1 : ∀ i ∈ Finset.range n, chi n k i * (starRingEnd ℂ) (chi n l i) =
        om n ^ ((p - q') * (i : Int)) + om n ^ ((-p - q') * (i : Int)) := by
      intro i hi
      rw [h.chi, h'.chi _ (by omega), if_pos (lt i hi), if_pos (lt i hi), one_mul, conj_om, add_mul,
        ← zpow_add₀ om0, ← zpow_add₀ om0]
      congr 2 <;> ring
    have e2 : ∀ i ∈ Finset.range n, chi n k ((n : Int) + i) * (starRingEnd ℂ) (chi n l ((n : Int) + i)) = 0 := by
      intro i hi
      rw [h.chi, if_neg (by omega), zero_mul]
    obtain ⟨-, p1, p2, -⟩ := h
    obtain ⟨-, -, q1, q2, -⟩ := h'
    rw [Finset.sum_congr rfl e1, Finset.sum_congr rfl e2, Finset.sum_add_distrib, sum_om_ne hn (by omega) (by omega),
      sum_om_ne hn (by omega) (by omega), if_neg (by omega), if_neg (by omega), if_neg]
    · simp
    · split_ifs at hp <;> omega
  · have e1 : ∀ i ∈ Finset.range n, chi n k i * (starRingEnd ℂ) (chi n l i) =
        (om n ^ ((p - p') * (i : Int)) + om n ^ ((p + p') * (i : Int))) +
          (om n ^ ((-p - p') * (i : Int)) + om n ^ ((p' - p) * (i : Int))) := by
      intro i hi
      rw [h.chi, h'.chi, if_pos (lt i hi), if_pos (lt i hi), map_add, conj_om, conj_om, add_mul, mul_add, mul_add,
        ← zpow_add₀ om0, ← zpow_add₀ om0, ← zpow_add₀ om0, ← zpow_add₀ om0]
      congr 2 <;> congr 1 <;> ring
    have e2 : ∀ i ∈ Finset.range n, chi n k ((n : Int) + i) * (starRingEnd ℂ) (chi n l ((n : Int) + i)) = 0 := by
      intro i hi
      rw [h.chi, if_neg (by omega), zero_mul]
    obtain ⟨-, p1, p2, -⟩ := h
    obtain ⟨-, p1', p2', -⟩ := h'
    rw [Finset.sum_congr rfl e1, Finset.sum_congr rfl e2, Finset.sum_add_distrib, Finset.sum_add_distrib,
      Finset.sum_add_distrib, sum_om_ne hn (by omega) (by omega), sum_om_ne hn (by omega) (by omega),
      sum_om_ne hn (by omega) (by omega), sum_om_ne hn (by omega) (by omega), if_neg (show p + p' ≠ 0 by omega),
      if_neg (show -p - p' ≠ 0 by omega)]
    by_cases hkl : k = l
    · have : p = p' := by rw [hp, hp', hkl]
      simp [this, hkl]; ring
    · have : p ≠ p' := by rw [hp, hp']; omega
      simp [sub_eq_zero, this, this.symm, hkl]

/-- There are irreps of both dimensions that meet the hypotheses of C53. -/
example : GoodIrrep 5 1 ∧ GoodIrrep 5 2 ∧ dihDim 5 2 = 2 ∧ GoodIrrep 6 2 ∧ GoodIrrep 6 4 ∧ dihDim 6 2 = 1 ∧ dihIrreps 6 = 6 := by
  unfold GoodIrrep
  decide

/-! ## C54: direct products -/

section
variable {E₁ E₂ G₁ G₂ : Type} [Group G₁] [Group G₂] {I₁ : GroupOps E₁} {I₂ : GroupOps E₂} {e₁ : Fin I₁.size ≃ G₁}
  {e₂ : Fin I₂.size ≃ G₂} {rep₁ : G₁ → E₁} {rep₂ : G₂ → E₂}

/-- **C54.** The product of two classes that implement groups has as many elements as there are pairs, `element(i)`
enumerates the pairs once each, and the product and the inverse are taken in each component. Since the product
implements a group again, this applies to products of products. -/
theorem C54_product (h₁ : ImplementsOps I₁ e₁ rep₁) (h₂ : ImplementsOps I₂ e₂ rep₂) :
    (productGroup I₁ I₂).size = I₁.size * I₂.size ∧
    (∀ (x : G₁) (y : G₂), ∃! i : Fin (productGroup I₁ I₂).size,
      (productGroup I₁ I₂).element ((i : Nat) : Int) = some (rep₁ x, rep₂ y)) ∧
    (∀ i : Fin (productGroup I₁ I₂).size, ∃ x y, (productGroup I₁ I₂).element ((i : Nat) : Int) = some (rep₁ x, rep₂ y)) ∧
    (∀ (x x' : G₁) (y y' : G₂), (productGroup I₁ I₂).mul (rep₁ x, rep₂ y) (rep₁ x', rep₂ y') =
      some (rep₁ (x * x'), rep₂ (y * y'))) ∧
    (∀ (x : G₁) (y : G₂), (productGroup I₁ I₂).inverse (rep₁ x, rep₂ y) = some (rep₁ x⁻¹, rep₂ y⁻¹)) ∧
    ∃ e : Fin (productGroup I₁ I₂).size ≃ G₁ × G₂, ImplementsOps (productGroup I₁ I₂) e (Prod.map rep₁ rep₂) := by
  have h := product_implements h₁ h₂
  refine ⟨rfl, fun x y => ?_, fun i => ⟨_, _, h.element i⟩, fun x x' y y' => h.mul (x, y) (x', y'),
    fun x y => h.inverse (x, y), _, h⟩
  refine ⟨(prodEquiv e₁ e₂).symm (x, y), ?_, fun i hi => ?_⟩
  · simp only
    rw [h.element, Equiv.apply_symm_apply]
    rfl
  · simp only at hi
    rw [h.element] at hi
    have h1 : (prodEquiv e₁ e₂) i = (x, y) := h.inj (Option.some.inj hi)
    rw [← h1, Equiv.symm_apply_apply]

end

/-- The product of the cyclic group of order 3 with the dihedral group of order 8 meets the hypotheses of C54. -/
example : (productGroup (cyclicGroup 3).toGroupOps (dihedralGroup 4).toGroupOps).size = 24 ∧
    (productGroup (cyclicGroup 3).toGroupOps (dihedralGroup 4).toGroupOps).element 14 = some (⟨3, 1⟩, ⟨4, 2, -1⟩) ∧
    ImplementsOps (cyclicGroup 3).toGroupOps (cycEquiv 3) (cycRep 3) ∧
    ImplementsOps (dihedralGroup 4).toGroupOps (dihEquiv 4) (dihRep 4) :=
  ⟨by decide, by decide, (cyclic_implements 3).toImplementsOps, (dihedral_implements 4).toImplementsOps⟩

/-- **C65 (negation).** No irrep of a direct product is a representation: it returns the zero matrix at every element, also
at the identity, whatever the dimensions of its factors are. -/
theorem C65_product_irreps_wrong (d₁ d₂ : Nat) (h₁ : 1 ≤ d₁) (h₂ : 1 ≤ d₂) :
    ¬ ∃ i : Int, (productIrrepAt d₁ d₂ i).mat (d₁ * d₂) = 1 := by
  rintro ⟨i, hi⟩
  have hpos : 0 < d₁ * d₂ := Nat.mul_pos h₁ h₂
  have h := congrFun (congrFun hi ⟨0, hpos⟩) ⟨0, hpos⟩
  rw [Matrix.one_apply_eq] at h
  simp [productIrrepAt, CTensor.mat, List.getD_eq_getElem?_getD, List.getElem?_replicate] at h
  split_ifs at h <;> simp at h

/-- **C65 (partial).** What an irrep of a direct product does give is a square matrix of the right dimension, the product
of the dimensions of its factors, with every entry zero. Missing: that it is a representation, which is false. -/
theorem C65_product_irreps_partial (d₁ d₂ : Nat) (i : Int) :
    (productIrrepAt d₁ d₂ i).dims = [d₁ * d₂, d₁ * d₂] ∧ (productIrrepAt d₁ d₂ i).data.length = d₁ * d₂ * (d₁ * d₂) ∧
    (productIrrepAt d₁ d₂ i).mat (d₁ * d₂) = 0 := by
  refine ⟨rfl, by simp [productIrrepAt], ?_⟩
  funext a b
  simp only [productIrrepAt, CTensor.mat, List.getD_eq_getElem?_getD, List.getElem?_replicate, Matrix.zero_apply]
  split_ifs <;> rfl

/-- The product of an irrep of dimension 2 with one of dimension 3 has 36 entries. -/
example : (productIrrepAt 2 3 4).dims = [6, 6] ∧ (productIrrepAt 2 3 4).data.length = 36 :=
  ⟨(C65_product_irreps_partial 2 3 4).1, (C65_product_irreps_partial 2 3 4).2.1⟩

end Snob.Props
