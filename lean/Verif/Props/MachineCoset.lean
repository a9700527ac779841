import Verif.Proofs.MachineCoset
import Verif.Props.SnElements

/-! # Property C109: the coset spaces Sn/Sm in 32 bit arithmetic -/

namespace Snob.Props

open Snob Snob.Machine
open scoped Nat

/-- **C109 (partial).** For `n ≤ 12` and every `m ≤ n` the number of cosets and the enumeration of the cosets in both
directions are computed without overflow and are right. Missing: larger `n` with few cosets, where the property is false. -/
theorem C109_exact_partial (n m : Nat) (hm : m ≤ n) (h : n ≤ 12) :
    Machine.snsmSize ck n m = some ((n ! / m ! : Nat) : Int) ∧
    (∀ e : Nat, e < n ! / m ! → ∃ a, Machine.snsmElement ck n m e = some a ∧ Snob.snsmElement n m e = some a ∧ IsPerm n a ∧
      Machine.snsmIndex ck n m a = some (e : Int)) ∧
    ∀ a b, IsPerm n a → IsPerm n b → ∃ i j : Nat, i < n ! / m ! ∧ j < n ! / m ! ∧ Machine.snsmIndex ck n m a = some (i : Int) ∧
      Machine.snsmIndex ck n m b = some (j : Int) ∧ (i = j ↔ SameCoset n m a b) := by
  obtain ⟨-, h1, h2⟩ := C09_coset_space n m hm
  refine ⟨snsmSize_ok exact_ck hm h, fun e he => ?_, ?_⟩
  · obtain ⟨a, h3, h4, h5⟩ := h1 e he
    exact ⟨a, by rw [snsmElement_ok exact_ck hm h e he, h3], h3, h4, by rw [snsmIndex_ok exact_ck hm h, h5]⟩
  · simp only [snsmIndex_ok exact_ck hm h]
    exact h2

example : Machine.snsmSize ck 12 10 = some 132 ∧ Machine.snsmElement ck 12 11 5 = Snob.snsmElement 12 11 5 ∧
    (Machine.snsmElement ck 12 11 5).bind (Machine.snsmIndex ck 12 11) = some 5 := by
  refine ⟨by decide +kernel, by decide +kernel, by decide +kernel⟩

/-- **C109 (negation).** From `n = 13` on the number of cosets is undefined for every `m`, however small it is: the code
divides `n!` by `m!`. From `n = 14` on no coset representative and no index is defined. -/
theorem C109_undefined (n : Nat) (h : 13 ≤ n) (m : Nat) :
    Machine.snsmSize ck n m = none ∧
    (14 ≤ n → m < n → (∀ e, Machine.snsmElement ck n m e = none) ∧ ∀ a, IsPerm n a → Machine.snsmIndex ck n m a = none) := by
  refine ⟨by unfold Machine.snsmSize; rw [factorial_none h]; rfl, fun h14 hm => ⟨fun e => ?_, fun a ha => ?_⟩⟩
  · have hd : ∀ e, Machine.digitLoop ck n m e = none := fun e => by
      unfold Machine.digitLoop forDown
      obtain ⟨k, hk⟩ : ∃ k, ((n : Int) - ((m : Int) + 1) + 1).toNat = k + 1 := ⟨n - m - 1, by omega⟩
      rw [hk, iterDown, show (((n : Nat) : Int) - 1).toNat = n - 1 by omega, factorial_none (by omega)]
      rfl
    unfold Machine.snsmElement
    simp only [hd, Option.bind_eq_bind, Option.bind_none, Option.bind_fun_none]
  · obtain ⟨σ, rfl⟩ := ha
    unfold Machine.snsmIndex
    have h0 : ¬ ((enc σ).length ≠ n) := by simp
    simp only [if_neg h0, Option.bind_eq_bind]
    obtain ⟨s, h, hl, hw, -⟩ := forUp_scatter (n := n) (lo := 0) (hi := n) (r0 := List.replicate n (some 0)) (by omega)
      (by simp) (body := fun i s => (rd (enc σ) i).bind fun v => wr s i v) (fun i => i.toNat)
      (fun i => if h : i.toNat < n then (σ ⟨i.toNat, h⟩ : Nat) + 1 else 0)
      (by intro i h1 h2; omega) (by intro i j h1 h2 h3; omega)
      (by
        intro i r h1 h2 _
        have hi : i.toNat < n := by omega
        have e1 := rd_enc σ ⟨i.toNat, hi⟩
        simp only [Int.toNat_of_nonneg h1] at e1
        simp [e1, hi, Int.toNat_of_nonneg h1])
    rw [h]
    simp only [Option.bind_some]
    have hrd : ∀ i : Fin n, rd s ((i : Nat) : Int) = some ((σ i : Int) + 1) := fun i => by
      rw [rd_ofNat]
      have := hw (i : Nat) (by omega) (by have := i.2; omega)
      simp only [Int.toNat_natCast, i.2, dif_pos] at this
      rw [this]
      rfl
    have hstep : Machine.snsmIndexStep ck n (s, 0) = none := by
      let q := σ.symm ⟨n - 1, by omega⟩
      have hq : σ q = ⟨n - 1, by omega⟩ := σ.apply_symm_apply _
      have h1 := forUpE_inv (R := Int) (lo := 0) (hi := (n : Int)) (s := ())
        (body := fun i _ => (rd s i).bind fun v => if v = (n : Int) then some (.inl i) else some (.inr ()))
        (fun i _ => i ≤ (q : Nat)) (fun _ => True) (by omega) (by omega)
        (by
          intro i _ h0 h2 hit
          obtain ⟨j, rfl⟩ := Int.eq_ofNat_of_zero_le h0
          have hj : j < n := by omega
          have e := hrd ⟨j, hj⟩
          simp only at e
          rw [e, Option.bind_some]
          by_cases hv : ((σ ⟨j, hj⟩ : Int) + 1) = n
          · left
            exact ⟨(j : Int), by rw [if_pos hv], trivial⟩
          · right
            refine ⟨(), by rw [if_neg hv], ?_⟩
            have : j ≠ (q : Nat) := fun hjq => hv (by
              have : (⟨j, hj⟩ : Fin n) = q := Fin.ext hjq
              rw [this, hq]
              simp only
              omega)
            omega)
      unfold Machine.snsmIndexStep
      simp only [Option.bind_eq_bind] at h1 ⊢
      rcases h1 with ⟨r, he, -⟩ | ⟨_, _, hp⟩
      · rw [he]
        simp only [Option.bind_some]
        rw [show (((n : Nat) : Int) - 1).toNat = n - 1 by omega, factorial_none (by omega)]
        rfl
      · have := q.2
        omega
    obtain ⟨k, hk⟩ : ∃ k, ((n : Int) - ((m : Int) + 1) + 1).toNat = k + 1 := ⟨n - m - 1, by omega⟩
    unfold forDown
    rw [hk, iterDown, hstep]
    rfl

/-- **C109 (negation).** The number of cosets is not computed whenever it is an `int`. -/
theorem C109_false : ¬ ∀ n m : Nat, m ≤ n → Fits ((n ! / m ! : Nat) : Int) → Machine.snsmSize ck n m = some ((n ! / m ! : Nat) : Int) := by
  intro h
  have := h 13 12 (by omega) (by decide +kernel)
  rw [(C109_undefined 13 (by omega) 12).1] at this
  simp at this

/-- **C109 (negation).** With wrap-around instead of undefined behaviour `SnOverSm(n,n-1)`, which has `n` elements, has
another size for every `n ≥ 13`, and for `m ≥ 34` the code divides by zero. -/
theorem C109_wrapped :
    (∀ n, 13 ≤ n → Machine.snsmSize wrap n (n - 1) ≠ some (n : Int)) ∧
    (∀ n m, 34 ≤ m → Machine.snsmSize wrap n m = none) ∧
    ∀ n, 13 ≤ n → n ! / (n - 1)! = n := by
  have hz : ∀ n m, 34 ≤ m → Machine.snsmSize wrap n m = none := fun n m h => by
    unfold Machine.snsmSize
    obtain ⟨w, hw, -⟩ := factorial_wrap n
    rw [hw, factorial_wrap_zero h]
    rfl
  refine ⟨fun n hn => ?_, hz, fun n hn => ?_⟩
  · rcases le_or_gt 35 n with h | h
    · rw [hz _ _ (by omega)]; simp
    · have := (by decide +kernel : ∀ k : Fin 22, Machine.snsmSize wrap (k + 13) (k + 12) ≠ some ((k + 13 : Nat) : Int)) ⟨n - 13, by omega⟩
      simp only at this
      rwa [show n - 13 + 13 = n by omega, show n - 13 + 12 = n - 1 by omega] at this
  · obtain ⟨k, rfl⟩ : ∃ k, n = k + 1 := ⟨n - 1, by omega⟩
    rw [Nat.add_sub_cancel, Nat.factorial_succ, Nat.mul_div_cancel _ (Nat.factorial_pos k)]

example : Machine.snsmSize wrap 13 12 = some 4 ∧ Machine.snsmSize wrap 20 19 = some (-19) := by
  refine ⟨by decide +kernel, by decide +kernel⟩

end Snob.Props
