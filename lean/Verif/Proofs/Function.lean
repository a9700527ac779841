import Mathlib.Algebra.BigOperators.Fin
import Mathlib.Algebra.BigOperators.Ring.Finset
import Mathlib.Algebra.BigOperators.Group.Finset.Basic
import Mathlib.Data.Real.Basic
import Mathlib.Tactic.Ring
import Verif.Proofs.Mem
import Verif.Proofs.SnElements
import Verif.Spec.Function

/-! # Functions on groups -/

namespace Snob

section
variable {α : Type}

theorem rdC_ofNat (f : Cells α) (i : Nat) : rdC f (i : Int) = (f[i]?).join := by
  simp [rdC]

theorem wrC_ofNat (f : Cells α) (i : Nat) (v : α) (h : i < f.length) : wrC f (i : Int) v = some (f.set i (some v)) := by
  simp [wrC, h]

variable {E G : Type} [Group G] {I : GroupI E} {e : Fin I.size ≃ G} {rep : G → E}

@[simp] theorem length_cellsOf (f : G → α) : (cellsOf e f).length = I.size := by simp [cellsOf]

theorem rdC_cellsOf (f : G → α) (i : Fin I.size) : rdC (cellsOf e f) ((i : Nat) : Int) = some (f (e i)) := by
  rw [rdC_ofNat, cellsOf, List.getElem?_ofFn, dif_pos i.2]
  rfl

theorem Implements.value_eq (h : Implements I e rep) (f : G → α) (x : G) : I.value (cellsOf e f) (rep x) = some (f x) := by
  unfold GroupI.value
  rw [h.index, Option.bind_some, rdC_cellsOf, Equiv.apply_symm_apply]

theorem cellsOf_injective : Function.Injective (cellsOf (I := I) (α := α) e) := by
  intro f g h
  funext x
  have h1 := congrArg (fun c => rdC c ((e.symm x : Nat) : Int)) h
  simp only [rdC_cellsOf, Equiv.apply_symm_apply, Option.some.injEq] at h1
  exact h1

/-- a loop that moves the value at `x` to `π x` -/
theorem move_loop (h : Implements I e rep) (f : G → α) (π : Equiv.Perm G) (step : E → Option E)
    (hs : ∀ x, step (rep x) = some (rep (π x))) :
    forUp 0 (cellsOf e f).length (List.replicate I.size none) (fun i R => do
      let x ← I.element i
      let y ← step x
      let v ← rdC (cellsOf e f) i
      I.setValue R y v) = some (cellsOf e fun x => f (π.symm x)) := by
  rw [length_cellsOf]
  obtain ⟨R, hR, hl, hd⟩ := forUp_inv (S := Cells α) (lo := 0) (hi := (I.size : Int)) (s := List.replicate I.size none)
    (body := fun i R => do
      let x ← I.element i
      let y ← step x
      let v ← rdC (cellsOf e f) i
      I.setValue R y v)
    (fun i R => R.length = I.size ∧ ∀ k : Fin I.size, ((k : Nat) : Int) < i → R[(e.symm (π (e k)) : Nat)]? = some (some (f (e k))))
    (by omega) ⟨by simp, fun k hk => by omega⟩ (by
      intro i R hi1 hi2 ⟨hl, hR⟩
      obtain ⟨j, rfl⟩ : ∃ j : Nat, i = (j : Int) := ⟨i.toNat, by omega⟩
      have hj : j < I.size := by omega
      have hlt : ((e.symm (π (e ⟨j, hj⟩)) : Fin I.size) : Nat) < R.length := by rw [hl]; exact Fin.is_lt _
      refine ⟨R.set (e.symm (π (e ⟨j, hj⟩)) : Fin I.size) (some (f (e ⟨j, hj⟩))), ?_, by rw [List.length_set, hl], ?_⟩
      · have h1 := h.element ⟨j, hj⟩
        have h2 := rdC_cellsOf (e := e) f ⟨j, hj⟩
        simp only [Option.bind_eq_bind]
        rw [h1, Option.bind_some, hs, Option.bind_some, h2, Option.bind_some, GroupI.setValue, h.index, Option.bind_some,
          wrC_ofNat _ _ _ hlt]
      · intro k hk
        by_cases hkj : k = ⟨j, hj⟩
        · subst hkj
          rw [List.getElem?_set_self hlt]
        · rw [List.getElem?_set_ne]
          · refine hR k ?_
            have : (k : Nat) ≠ j := fun hh => hkj (Fin.ext hh)
            omega
          · intro hh
            exact hkj (e.injective (π.injective (e.symm.injective (Fin.ext hh.symm)))))
  rw [hR]
  congr 1
  refine List.ext_getElem? fun i => ?_
  by_cases hi : i < I.size
  · have h3 := hd (e.symm (π.symm (e ⟨i, hi⟩))) (by have := (e.symm (π.symm (e ⟨i, hi⟩))).2; omega)
    simp only [Equiv.apply_symm_apply, Equiv.symm_apply_apply] at h3
    rw [h3, cellsOf, List.getElem?_ofFn, dif_pos hi]
  · rw [List.getElem?_eq_none (by omega), List.getElem?_eq_none (by simp; omega)]

theorem leftTranslate_eq (h : Implements I e rep) (f : G → α) (t : G) :
    I.leftTranslate (cellsOf e f) (rep t) = some (cellsOf e fun x => f (t⁻¹ * x)) := by
  have := move_loop h f (Equiv.mulLeft t) (fun x => I.mul (rep t) x) (fun x => h.mul t x)
  rw [GroupI.leftTranslate, this]
  rfl

theorem rightTranslate_eq (h : Implements I e rep) (f : G → α) (t : G) :
    I.rightTranslate (cellsOf e f) (rep t) = some (cellsOf e fun x => f (x * t⁻¹)) := by
  have := move_loop h f (Equiv.mulRight t) (fun x => I.mul x (rep t)) (fun x => h.mul x t)
  rw [GroupI.rightTranslate, this]
  rfl

theorem invert_eq (h : Implements I e rep) (f : G → α) :
    I.invert (cellsOf e f) = some (cellsOf e fun x => f x⁻¹) := by
  have := move_loop h f (Equiv.inv G) (fun x => I.inverse x) (fun x => h.inverse x)
  rw [GroupI.invert, this]
  rfl

/-- a loop that writes one cell after the other -/
theorem fill_loop {N : Nat} (c : Int → Option α) (g : Nat → α) (hc : ∀ i < N, c (i : Int) = some (g i)) :
    forUp 0 (N : Int) (List.replicate N none) (fun i R => do
      let t ← c i
      wrC R i t) = some (List.ofFn fun i : Fin N => some (g i)) := by
  obtain ⟨R, hR, hl, hd⟩ := forUp_inv (S := Cells α) (lo := 0) (hi := (N : Int)) (s := List.replicate N none)
    (body := fun i R => do
      let t ← c i
      wrC R i t)
    (fun i R => R.length = N ∧ ∀ k : Nat, (k : Int) < i → k < N → R[k]? = some (some (g k)))
    (by omega) ⟨by simp, fun k hk => by omega⟩ (by
      intro i R hi1 hi2 ⟨hl, hR⟩
      obtain ⟨j, rfl⟩ : ∃ j : Nat, i = (j : Int) := ⟨i.toNat, by omega⟩
      have hj : j < N := by omega
      refine ⟨R.set j (some (g j)), ?_, by rw [List.length_set, hl], ?_⟩
      · simp only [Option.bind_eq_bind]
        rw [hc j hj, Option.bind_some, wrC_ofNat _ _ _ (by omega)]
      · intro k hk hkN
        by_cases hkj : k = j
        · subst hkj
          rw [List.getElem?_set_self (by omega)]
        · rw [List.getElem?_set_ne (fun hh => hkj hh.symm)]
          exact hR k (by omega) hkN)
  rw [hR]
  congr 1
  refine List.ext_getElem? fun i => ?_
  by_cases hi : i < N
  · rw [hd i (by omega) hi, List.getElem?_ofFn, dif_pos hi]
  · rw [List.getElem?_eq_none (by omega), List.getElem?_eq_none (by simp; omega)]

theorem convolve_eq [Fintype G] (h : Implements I e rep) (f g : G → ℝ) :
    I.convolve (cellsOf e f) (cellsOf e g) = some (cellsOf e fun x => ∑ y, f (x * y⁻¹) * g y) := by
  unfold GroupI.convolve
  rw [if_pos (by simp)]
  simp only [length_cellsOf]
  have hin : ∀ x : G, forUp 0 (I.size : Int) (0 : ℝ) (fun j t => do
        let x' ← I.element j
        let y ← I.inverse x'
        let z ← I.mul (rep x) y
        let a ← I.value (cellsOf e f) z
        let b ← rdC (cellsOf e g) j
        some (t + a * b)) = some (∑ y, f (x * y⁻¹) * g y) := by
    intro x
    obtain ⟨s, hs, hd⟩ := forUp_inv (S := ℝ) (lo := 0) (hi := (I.size : Int)) (s := (0 : ℝ))
      (body := fun j t => do
        let x' ← I.element j
        let y ← I.inverse x'
        let z ← I.mul (rep x) y
        let a ← I.value (cellsOf e f) z
        let b ← rdC (cellsOf e g) j
        some (t + a * b))
      (fun i s => s = ∑ k ∈ Finset.univ.filter (fun k : Fin I.size => ((k : Nat) : Int) < i), f (x * (e k)⁻¹) * g (e k))
      (by omega) (by rw [Finset.filter_false_of_mem (fun k _ => by omega), Finset.sum_empty]) (by
        intro i s hi1 hi2 hs
        obtain ⟨j, rfl⟩ : ∃ j : Nat, i = (j : Int) := ⟨i.toNat, by omega⟩
        have hj : j < I.size := by omega
        have h1 := h.element ⟨j, hj⟩
        have h2 := rdC_cellsOf (e := e) g ⟨j, hj⟩
        refine ⟨s + f (x * (e ⟨j, hj⟩)⁻¹) * g (e ⟨j, hj⟩), ?_, ?_⟩
        · simp only [Option.bind_eq_bind]
          rw [h1, Option.bind_some, h.inverse, Option.bind_some, h.mul, Option.bind_some, h.value_eq, Option.bind_some, h2,
            Option.bind_some]
        · have hset : Finset.univ.filter (fun k : Fin I.size => ((k : Nat) : Int) < (j : Int) + 1) =
              insert ⟨j, hj⟩ (Finset.univ.filter (fun k : Fin I.size => ((k : Nat) : Int) < (j : Int))) := by
            ext k
            simp only [Finset.mem_filter, Finset.mem_univ, true_and, Finset.mem_insert, Fin.ext_iff]
            omega
          rw [hset, Finset.sum_insert (by simp), ← hs, add_comm])
    rw [hs, hd, Finset.filter_true_of_mem (fun k _ => by have := k.2; omega)]
    congr 1
    exact Equiv.sum_comp e fun y => f (x * y⁻¹) * g y
  have := fill_loop (N := I.size) (fun i => do
      let sigma ← I.element i
      forUp 0 (I.size : Int) (0 : ℝ) (fun j t => do
        let x' ← I.element j
        let y ← I.inverse x'
        let z ← I.mul sigma y
        let a ← I.value (cellsOf e f) z
        let b ← rdC (cellsOf e g) j
        some (t + a * b)))
    (fun i => if hi : i < I.size then ∑ y, f (e ⟨i, hi⟩ * y⁻¹) * g y else 0) (by
      intro i hi
      have h1 := h.element ⟨i, hi⟩
      simp only [Option.bind_eq_bind] at h1 ⊢
      rw [h1, Option.bind_some, dif_pos hi]
      exact hin (e ⟨i, hi⟩))
  simp only [Option.bind_eq_bind, Option.bind_assoc] at this ⊢
  rw [this, cellsOf]
  congr 2
  funext i
  rw [dif_pos i.2]

theorem written_iff (f : Cells α) : Written I.size f ↔ ∃ g : G → α, f = cellsOf e g := by
  constructor
  · rintro ⟨hl, hw⟩
    have hget : ∀ i : Fin I.size, ∃ v, f[(i : Nat)]? = some (some v) := by
      intro i
      have hi : (i : Nat) < f.length := by rw [hl]; exact i.2
      have h1 := hw _ (List.getElem_mem hi)
      obtain ⟨v, hv⟩ := Option.isSome_iff_exists.1 h1
      exact ⟨v, by rw [List.getElem?_eq_getElem hi, hv]⟩
    choose g hg using hget
    refine ⟨fun x => g (e.symm x), List.ext_getElem? fun i => ?_⟩
    by_cases hi : i < I.size
    · rw [hg ⟨i, hi⟩, cellsOf, List.getElem?_ofFn, dif_pos hi, Equiv.symm_apply_apply]
    · rw [List.getElem?_eq_none (by omega), List.getElem?_eq_none (by simp; omega)]
  · rintro ⟨g, rfl⟩
    refine ⟨by simp, fun c hc => ?_⟩
    rw [cellsOf, List.mem_ofFn] at hc
    obtain ⟨i, rfl⟩ := hc
    rfl

end

open Perm in
theorem snGroup_implements (n : Nat) (hn : 1 ≤ n) : Implements (snGroup n) (elemEquiv n) enc where
  inj := enc_injective
  element i := element_eq n i i.2
  index x := by
    have h1 := index_elem n hn ((elemEquiv n).symm x) ((elemEquiv n).symm x).2
    have h2 : elem n ((elemEquiv n).symm x) = x := (elemEquiv n).apply_symm_apply x
    rw [h2] at h1
    exact h1
  mul x y := mul_eq x y
  inverse x := inverse_eq x

end Snob
