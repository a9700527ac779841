import Verif.Proofs.SnCosets
import Verif.Proofs.PermCheck

/-! # Properties C07 - C09: enumeration of `Sn` and of `Sn/Sm` -/

namespace Snob.Props

open Snob Snob.Perm
open scoped Nat

/-- **C07.** There is a bijection between `0..n!-1` and the permutations of `n` that `element` computes (always
defined, always a fully written valid permutation) and whose inverse `index` computes. -/
theorem C07_enumeration_bijective (n : Nat) (hn : 1 ≤ n) :
    ∃ φ : Fin (snSize n) ≃ {a : Arr // IsPerm n a},
      (∀ i : Fin (snSize n), element n ((i : Nat) : Int) = some (φ i)) ∧
      (∀ a : {a : Arr // IsPerm n a}, index n a = some (((φ.symm a : Fin (snSize n)) : Nat) : Int)) := by
  let ψ : Equiv.Perm (Fin n) ≃ {a : Arr // IsPerm n a} :=
    Equiv.ofBijective (fun σ => ⟨enc σ, σ, rfl⟩) ⟨fun σ τ h => enc_injective (congrArg Subtype.val h),
      fun ⟨a, σ, h⟩ => ⟨σ, by simp [h]⟩⟩
  unfold snSize
  refine ⟨(elemEquiv n).trans ψ, fun i => ?_, fun a => ?_⟩
  · rw [element_eq n i i.2]; rfl
  · obtain ⟨i, rfl⟩ := ((elemEquiv n).trans ψ).surjective a
    rw [Equiv.symm_apply_apply]
    exact index_elem n hn i i.2

/-- **C07**, round trips in both directions, and `size()`. -/
theorem C07_round_trips (n : Nat) (hn : 1 ≤ n) :
    snSize n = n ! ∧
    (∀ e : Nat, e < n ! → ∃ a, element n e = some a ∧ IsPerm n a ∧ index n a = some (e : Int)) ∧
    (∀ a, IsPerm n a → ∃ e : Nat, e < n ! ∧ index n a = some (e : Int) ∧ element n e = some a) := by
  refine ⟨rfl, fun e he => ⟨_, element_eq n e he, ⟨_, rfl⟩, index_elem n hn e he⟩, ?_⟩
  rintro a ⟨σ, rfl⟩
  obtain ⟨e, he, rfl⟩ := exists_elem n σ
  exact ⟨e, he, index_elem n hn e he, element_eq n e he⟩

/-- The documented example: element 17 of S4 is `[3 4 2 1]` and its index is 17. -/
example : element 4 17 = some [some 3, some 4, some 2, some 1] ∧
    index 4 [some 3, some 4, some 2, some 1] = some 17 := by decide

/-- The left coset partner relation: `b = h∘a` for some `h` that moves only `1..m`. -/
def SameCoset (n m : Nat) (a b : Arr) : Prop :=
  ∃ h, IsPerm n h ∧ (∀ k : Int, (m : Int) < k → k ≤ n → app h k = some k) ∧ mul h a = some b

theorem sameCoset_iff {n m : Nat} (σ τ : Equiv.Perm (Fin n)) :
    SameCoset n m (enc σ) (enc τ) ↔ ∀ i : Fin n, m ≤ (σ i : Nat) → τ i = σ i := by
  constructor
  · rintro ⟨_, ⟨h, rfl⟩, hfix, hmul⟩ i hi
    rw [mul_eq] at hmul
    have hτ : h * σ = τ := enc_injective (Option.some.inj hmul)
    have := hfix (((σ i : Nat) : Int) + 1) (by omega) (by have := (σ i).2; omega)
    have e : (((σ i : Nat) : Int) + 1 - 1) = ((σ i : Fin n) : Nat) := by omega
    rw [app, e, rd_enc] at this
    have h2 : ((h (σ i) : Nat) : Int) + 1 = ((σ i : Nat) : Int) + 1 := Option.some.inj this
    rw [← hτ]
    exact Fin.ext (by simp only [Equiv.Perm.coe_mul, Function.comp_apply]; omega)
  · intro hall
    refine ⟨enc (τ * σ⁻¹), ⟨_, rfl⟩, fun k hk1 hk2 => ?_, by rw [mul_eq]; simp⟩
    obtain ⟨j, rfl⟩ : ∃ j : Nat, k = (j : Int) + 1 := ⟨(k - 1).toNat, by omega⟩
    have hj : j < n := by omega
    have e : ((j : Int) + 1 - 1) = ((⟨j, hj⟩ : Fin n) : Nat) := by simp
    rw [app, e, rd_enc]
    have := hall (σ⁻¹ ⟨j, hj⟩) (by simp; omega)
    simp only [Equiv.Perm.coe_mul, Function.comp_apply, this]
    simp

/-- **C08.** Elements `i`, `j` of `Sn` have equal quotient by `m!` exactly when one is obtained from the other by
composing on the left with a permutation moving only `1..m`; in particular the first `m!` elements are exactly the
permutations moving only `1..m`. -/
theorem C08_enumeration_nested (n m : Nat) (hm : m ≤ n) (i j : Nat) (hi : i < n !) (hj : j < n !) :
    ∃ a b, element n i = some a ∧ element n j = some b ∧ (i / m ! = j / m ! ↔ SameCoset n m a b) ∧
      (i < m ! ↔ ∀ k : Int, (m : Int) < k → k ≤ n → app a k = some k) := by
  refine ⟨_, _, element_eq n i hi, element_eq n j hj, ?_, ?_⟩
  · rw [sameCoset_iff, coset_iff n m hm i j hi hj]
  · have h0 : 0 < n ! := Nat.factorial_pos n
    have h1 := coset_iff n m hm 0 i h0 hi
    rw [Nat.zero_div, elem_zero] at h1
    have h2 : i < m ! ↔ 0 = i / m ! := by
      rw [eq_comm, Nat.div_eq_zero_iff]
      have := Nat.factorial_pos m
      omega
    rw [h2, h1]
    constructor
    · intro hall k hk1 hk2
      obtain ⟨l, rfl⟩ : ∃ l : Nat, k = (l : Int) + 1 := ⟨(k - 1).toNat, by omega⟩
      have hl : l < n := by omega
      have e : ((l : Int) + 1 - 1) = ((⟨l, hl⟩ : Fin n) : Nat) := by simp
      rw [app, e, rd_enc, hall ⟨l, hl⟩ (by simp; omega)]
      simp
    · intro hall k hk
      have hk2 := k.2
      simp only [Equiv.Perm.coe_one, id_eq] at hk ⊢
      have := hall (((k : Nat) : Int) + 1) (by omega) (by omega)
      have e : (((k : Nat) : Int) + 1 - 1) = (k : Nat) := by omega
      rw [app, e, rd_enc] at this
      have h2 : ((elem n i k : Nat) : Int) + 1 = ((k : Nat) : Int) + 1 := Option.some.inj this
      exact Fin.ext (by omega)

/-- Elements 2 and 3 of S3 are in one coset of S2, elements 1 and 2 are not. -/
example : (2 / 2 ! = 3 / 2 !) ∧ ¬ (1 / 2 ! = 2 / 2 !) ∧ element 3 2 = some [some 1, some 3, some 2] ∧
    element 3 3 = some [some 2, some 3, some 1] := by decide

/-- **C09.** `SnOverSm(n,m)` has `n!/m!` elements; `index(element(i))=i`; `index` is defined on every permutation,
is in range, and takes equal values exactly on equal cosets (left composition with permutations of `1..m`). -/
theorem C09_coset_space (n m : Nat) (hm : m ≤ n) :
    snsmSize n m * m ! = n ! ∧
    (∀ i : Nat, i < snsmSize n m → ∃ a, snsmElement n m i = some a ∧ IsPerm n a ∧ snsmIndex n m a = some (i : Int)) ∧
    (∀ a b, IsPerm n a → IsPerm n b → ∃ i j : Nat, i < snsmSize n m ∧ j < snsmSize n m ∧
      snsmIndex n m a = some (i : Int) ∧ snsmIndex n m b = some (j : Int) ∧ (i = j ↔ SameCoset n m a b)) := by
  have hdvd : n ! / m ! * m ! = n ! := Nat.div_mul_cancel (Nat.factorial_dvd_factorial hm)
  have hpos := Nat.factorial_pos m
  refine ⟨hdvd, fun i hi => ?_, ?_⟩
  · have he : i * m ! < n ! := by
      rw [← hdvd]; exact Nat.mul_lt_mul_of_pos_right hi hpos
    refine ⟨_, snsmElement_eq n m hm i hi, ⟨_, rfl⟩, ?_⟩
    rw [snsmIndex_elem n m hm _ he, Nat.mul_div_cancel _ hpos]
  · rintro _ _ ⟨σ, rfl⟩ ⟨τ, rfl⟩
    obtain ⟨e, he, rfl⟩ := exists_elem n σ
    obtain ⟨e', he', rfl⟩ := exists_elem n τ
    have hlt : ∀ x, x < n ! → x / m ! < snsmSize n m := by
      intro x hx
      rw [Nat.div_lt_iff_lt_mul hpos, snsmSize, hdvd]; exact hx
    refine ⟨e / m !, e' / m !, hlt _ he, hlt _ he', snsmIndex_elem n m hm _ he, snsmIndex_elem n m hm _ he', ?_⟩
    rw [sameCoset_iff, coset_iff n m hm e e' he he']

example : snsmSize 4 2 = 12 ∧ snsmElement 4 2 7 = some [some 1, some 4, some 3, some 2] ∧
    snsmIndex 4 2 [some 2, some 4, some 3, some 1] = some 7 := by decide

end Snob.Props
