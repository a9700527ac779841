import Verif.Proofs.Counting
import Verif.Props.Classes

/-! # Property C124: numbers of solutions of equations between permutations, from the characters -/

namespace Snob.Props

open Snob IP Perm
open scoped Nat

theorem sum_Pt {n : Nat} (hn : 1 ≤ n) (f : List Nat → ℝ) : ∑ q : Pt n, f q.1 = ((partitions n).map f).sum := by
  rw [← List.sum_toFinset _ (partitions_nodup n)]
  refine Finset.sum_bij (fun q _ => q.1) (fun q _ => ?_) (fun a _ b _ h => Subtype.ext h) (fun q hq => ?_) (fun _ _ => rfl)
  · rw [List.mem_toFinset, mem_partitions n hn]; exact q.2
  · rw [List.mem_toFinset, mem_partitions n hn] at hq
    exact ⟨⟨q, hq⟩, Finset.mem_univ _, rfl⟩

/-- `X p mu` is what `SnCharacter(p)` returns at the class `mu` after every history of calls, `D p` the dimension of the irrep, `c mu` the size of
the class. -/
def Tables (n : Nat) (X : List Nat → List Nat → ℝ) (D c : List Nat → Nat) : Prop :=
  (∀ cs : List Call, (∀ c ∈ cs, c.Valid) → ∀ p mu, IsPartition n p → IsPartition n mu →
      ∃ w w', World.empty.run cs = some w ∧ w.exec (.value p mu) = some (w', .real (X p mu))) ∧
    (∀ p, IsPartition n p → ∃ R, mkIrrep p = some R ∧ R.d = D p) ∧ ∀ mu, IsPartition n mu → classSize n mu = some (c mu)

theorem exists_tables (n : Nat) (hn : 1 ≤ n) : Tables n (chiVal n) (fun p => Fintype.card (Wd n p)) (ccard n) := by
  refine ⟨fun cs hv p mu hp hmu => ?_, fun p hp => ?_, fun mu h => classSize_card hn h⟩
  · obtain rfl := hp.sum
    exact history_exec cs hv (.value p mu) ⟨hn, hp, hmu⟩
  · obtain ⟨R, hR, -, hr⟩ := exists_repr hn hp
    exact ⟨R, hR, hr.d_eq.trans (card_Wd hp).symm⟩

theorem Tables.eq {n : Nat} (hn : 1 ≤ n) {X : List Nat → List Nat → ℝ} {D c : List Nat → Nat} (h : Tables n X D c) :
    (∀ p mu, IsPartition n p → IsPartition n mu → X p mu = chiVal n p mu) ∧ (∀ p, IsPartition n p → D p = Fintype.card (Wd n p)) ∧
      ∀ mu, IsPartition n mu → c mu = ccard n mu := by
  obtain ⟨k1, k2, k3⟩ := exists_tables n hn
  refine ⟨fun p mu hp hmu => ?_, fun p hp => ?_, fun mu hmu => ?_⟩
  · obtain ⟨w, w', e1, e2⟩ := h.1 [] (by simp) p mu hp hmu
    obtain ⟨v, v', f1, f2⟩ := k1 [] (by simp) p mu hp hmu
    obtain rfl := Option.some.inj (e1.symm.trans f1)
    have := Option.some.inj (e2.symm.trans f2)
    simpa using (Prod.mk.inj this).2
  · obtain ⟨R, e1, e2⟩ := h.2.1 p hp
    obtain ⟨S, f1, f2⟩ := k2 p hp
    obtain rfl := Option.some.inj (e1.symm.trans f1)
    exact e2.symm.trans f2
  · exact Option.some.inj ((h.2.2 mu hmu).symm.trans (k3 mu hmu))

theorem chi_eq_X {n : Nat} (hn : 1 ≤ n) {X : List Nat → List Nat → ℝ} {D c : List Nat → Nat} (h : Tables n X D c) {σ : Equiv.Perm (Fin n)}
    {mu : List Nat} (hmu : IsPartition n mu) (hσ : HasCycleType σ mu) (q : Pt n) : chi q.2 σ = X q.1 mu := by
  rw [(h.eq hn).1 q.1 mu q.2 hmu, chiVal_eq q.2]
  exact chi_class q.2 hmu hσ (hasCycleType_block hmu)

section
variable (n : Nat) (hn : 1 ≤ n) (X : List Nat → List Nat → ℝ) (D c : List Nat → Nat) (h : Tables n X D c)
include hn h

/-- **C124.** A permutation has as many square roots as the sum of all characters at its class. -/
theorem C124_square_roots (σ : Equiv.Perm (Fin n)) (mu : List Nat) (hmu : IsPartition n mu) (hσ : HasCycleType σ mu) :
    ((Finset.univ.filter fun τ : Equiv.Perm (Fin n) => mul (enc τ) (enc τ) = some (enc σ)).card : ℝ) = ((partitions n).map fun p => X p mu).sum := by
  have hn0 : (n ! : ℝ) ≠ 0 := by exact_mod_cast (Nat.factorial_pos n).ne'
  have := count_eq Finset.univ (fun τ : Equiv.Perm (Fin n) => τ * τ) (fun q => (n ! : ℝ) / Fintype.card (Wd n q.1)) (fun q => sum_rho_sq q.2) σ
  rw [← sum_Pt hn]
  simp only [mul_eq, Option.some.injEq, enc_injective.eq_iff]
  rw [this]
  refine Finset.sum_congr rfl fun q _ => ?_
  have hd : (Fintype.card (Wd n q.1) : ℝ) ≠ 0 := by exact_mod_cast (card_Wd_pos q.2).ne'
  rw [chi_eq_X hn h hmu hσ]
  field_simp

/-- **C124.** The dimensions of the irreps add up to the number of permutations that are their own inverse. -/
theorem C124_involutions :
    (Finset.univ.filter fun τ : Equiv.Perm (Fin n) => Perm.inverse (enc τ) = some (enc τ)).card = ((partitions n).map D).sum := by
  have hone : HasCycleType (1 : Equiv.Perm (Fin n)) (List.replicate n 1) := by
    unfold HasCycleType
    simp [Multiset.coe_replicate]
  have h1 := C124_square_roots n hn X D c h 1 _ (isPartition_col n) hone
  have e : (Finset.univ.filter fun τ : Equiv.Perm (Fin n) => Perm.inverse (enc τ) = some (enc τ)) =
      Finset.univ.filter fun τ : Equiv.Perm (Fin n) => mul (enc τ) (enc τ) = some (enc (1 : Equiv.Perm (Fin n))) := by
    ext τ
    simp only [inverse_eq, mul_eq, Option.some.injEq, enc_injective.eq_iff, Finset.mem_filter, Finset.mem_univ, true_and]
    rw [inv_eq_iff_mul_eq_one]
  have h2 : ((partitions n).map fun p => X p (List.replicate n 1)).sum = ((((partitions n).map D).sum : Nat) : ℝ) := by
    rw [Nat.cast_list_sum, List.map_map]
    refine congrArg List.sum (List.map_congr_left fun p hp => ?_)
    have hp := (mem_partitions n hn p).1 hp
    rw [← chi_eq_X hn h (isPartition_col n) hone ⟨p, hp⟩]
    unfold chi
    rw [map_one, Matrix.trace_one, Function.comp_apply, (h.eq hn).2.1 p hp]
  rw [e]
  exact_mod_cast h1.trans h2

/-- **C124.** The number of ways to write a permutation as a product of an element of one class and an element of another. -/
theorem C124_products (σ : Equiv.Perm (Fin n)) (mu nu ka : List Nat) (hmu : IsPartition n mu) (hnu : IsPartition n nu) (hka : IsPartition n ka)
    (hσ : HasCycleType σ ka) [DecidablePred fun x : Equiv.Perm (Fin n) × Equiv.Perm (Fin n) => HasCycleType x.1 mu ∧ HasCycleType x.2 nu ∧
      mul (enc x.1) (enc x.2) = some (enc σ)] :
    (n ! : ℝ) * (Finset.univ.filter fun x : Equiv.Perm (Fin n) × Equiv.Perm (Fin n) => HasCycleType x.1 mu ∧ HasCycleType x.2 nu ∧
      mul (enc x.1) (enc x.2) = some (enc σ)).card =
      c mu * c nu * ((partitions n).map fun p => X p mu * X p nu * X p ka / D p).sum := by
  classical
  have hn0 : (n ! : ℝ) ≠ 0 := by exact_mod_cast (Nat.factorial_pos n).ne'
  obtain ⟨k1, k2, k3⟩ := h.eq hn
  let s := Finset.univ.filter fun σ : Equiv.Perm (Fin n) => HasCycleType σ mu
  let t := Finset.univ.filter fun σ : Equiv.Perm (Fin n) => HasCycleType σ nu
  have hs : ∀ σ, σ ∈ s ↔ HasCycleType σ mu := fun σ => by simp [s]
  have ht : ∀ σ, σ ∈ t ↔ HasCycleType σ nu := fun σ => by simp [t]
  have cs : s.card = c mu := by rw [k3 mu hmu, ccard_eq hmu]
  have ct : t.card = c nu := by rw [k3 nu hnu, ccard_eq hnu]
  have hz : ∀ q : Pt n, ∑ x ∈ s ×ˢ t, rho q.2 (x.1 * x.2)⁻¹ =
      ((c mu : ℝ) * X q.1 mu / Fintype.card (Wd n q.1) * ((c nu : ℝ) * X q.1 nu / Fintype.card (Wd n q.1))) • 1 := by
    intro q
    have e : ∀ x : Equiv.Perm (Fin n) × Equiv.Perm (Fin n), rho q.2 (x.1 * x.2)⁻¹ = rho q.2 x.2⁻¹ * rho q.2 x.1⁻¹ := fun x => by
      rw [mul_inv_rev, map_mul]
    rw [Finset.sum_congr rfl fun x _ => e x, Finset.sum_product_right]
    have e2 : ∀ y ∈ t, ∑ x ∈ s, rho q.2 y⁻¹ * rho q.2 x⁻¹ = rho q.2 y⁻¹ * ∑ x ∈ s, rho q.2 x⁻¹ := fun y _ => by rw [Finset.mul_sum]
    rw [Finset.sum_congr rfl e2, ← Finset.sum_mul, class_sum_scalar q.2 hmu s hs, class_sum_scalar q.2 hnu t ht, cs, ct,
      chi_eq_X hn h hmu (hasCycleType_block hmu), chi_eq_X hn h hnu (hasCycleType_block hnu), Matrix.mul_smul, Matrix.mul_one, smul_smul]
  have := count_eq (s ×ˢ t) (fun x => x.1 * x.2) _ hz σ
  have e : (Finset.univ.filter fun x : Equiv.Perm (Fin n) × Equiv.Perm (Fin n) => HasCycleType x.1 mu ∧ HasCycleType x.2 nu ∧
      mul (enc x.1) (enc x.2) = some (enc σ)) = (s ×ˢ t).filter fun x => x.1 * x.2 = σ := by
    ext x
    simp only [Finset.mem_filter, Finset.mem_univ, true_and, Finset.mem_product, hs, ht, mul_eq, Option.some.injEq, enc_injective.eq_iff, and_assoc]
  rw [e, this, ← sum_Pt hn, Finset.mul_sum, Finset.mul_sum]
  refine Finset.sum_congr rfl fun q _ => ?_
  have hd : (Fintype.card (Wd n q.1) : ℝ) ≠ 0 := by exact_mod_cast (card_Wd_pos q.2).ne'
  rw [chi_eq_X hn h hka hσ, k2 q.1 q.2]
  field_simp

/-- **C124.** The number of ways to write a permutation as a commutator: of pairs with `a*b = s*b*a`. -/
theorem C124_commutators (σ : Equiv.Perm (Fin n)) (mu : List Nat) (hmu : IsPartition n mu) (hσ : HasCycleType σ mu) :
    ((Finset.univ.filter fun x : Equiv.Perm (Fin n) × Equiv.Perm (Fin n) =>
      mul (enc x.1) (enc x.2) = (mul (enc x.2) (enc x.1)).bind (mul (enc σ))).card : ℝ) = n ! * ((partitions n).map fun p => X p mu / D p).sum := by
  have hn0 : (n ! : ℝ) ≠ 0 := by exact_mod_cast (Nat.factorial_pos n).ne'
  have := count_eq Finset.univ (fun x : Equiv.Perm (Fin n) × Equiv.Perm (Fin n) => x.1 * x.2 * x.1⁻¹ * x.2⁻¹) _ (fun q => sum_commutator q.2) σ
  have e : (Finset.univ.filter fun x : Equiv.Perm (Fin n) × Equiv.Perm (Fin n) =>
      mul (enc x.1) (enc x.2) = (mul (enc x.2) (enc x.1)).bind (mul (enc σ))) =
      Finset.univ.filter fun x : Equiv.Perm (Fin n) × Equiv.Perm (Fin n) => x.1 * x.2 * x.1⁻¹ * x.2⁻¹ = σ := by
    ext x
    simp only [mul_eq, Option.bind_some, Option.some.injEq, enc_injective.eq_iff, Finset.mem_filter, Finset.mem_univ, true_and]
    rw [mul_inv_eq_iff_eq_mul, mul_inv_eq_iff_eq_mul, mul_assoc σ]
  rw [e, this, ← sum_Pt hn, Finset.mul_sum]
  refine Finset.sum_congr rfl fun q _ => ?_
  have hd : (Fintype.card (Wd n q.1) : ℝ) ≠ 0 := by exact_mod_cast (card_Wd_pos q.2).ne'
  rw [chi_eq_X hn h hmu hσ, (h.eq hn).2.1 q.1 q.2]
  field_simp

end

/-- **C124.** There are `n!` times as many commuting pairs as irreps. -/
theorem C124_commuting (n : Nat) (hn : 1 ≤ n) :
    (Finset.univ.filter fun x : Equiv.Perm (Fin n) × Equiv.Perm (Fin n) => mul (enc x.1) (enc x.2) = mul (enc x.2) (enc x.1)).card =
      n ! * (partitions n).length := by
  have hone : HasCycleType (1 : Equiv.Perm (Fin n)) (List.replicate n 1) := by
    unfold HasCycleType
    simp [Multiset.coe_replicate]
  have h := exists_tables n hn
  have h1 := C124_commutators n hn _ _ _ h 1 _ (isPartition_col n) hone
  have e : (Finset.univ.filter fun x : Equiv.Perm (Fin n) × Equiv.Perm (Fin n) => mul (enc x.1) (enc x.2) = mul (enc x.2) (enc x.1)) =
      Finset.univ.filter fun x : Equiv.Perm (Fin n) × Equiv.Perm (Fin n) => mul (enc x.1) (enc x.2) = (mul (enc x.2) (enc x.1)).bind (mul (enc (1 : Equiv.Perm (Fin n)))) := by
    ext x
    simp only [mul_eq, Option.bind_some, one_mul]
  have h2 : ((partitions n).map fun p => chiVal n p (List.replicate n 1) / ((Fintype.card (Wd n p) : Nat) : ℝ)) = (partitions n).map fun _ => (1 : ℝ) := by
    refine List.map_congr_left fun p hp => ?_
    have hp := (mem_partitions n hn p).1 hp
    have hd : (Fintype.card (Wd n p) : ℝ) ≠ 0 := by exact_mod_cast (card_Wd_pos hp).ne'
    rw [← chi_eq_X hn h (isPartition_col n) hone ⟨p, hp⟩]
    unfold chi
    rw [map_one, Matrix.trace_one, div_self hd]
  rw [h2] at h1
  rw [e]
  simp only [List.map_const', List.sum_replicate, nsmul_eq_mul, mul_one] at h1
  exact_mod_cast h1

/-! ### examples -/

/-- the hypothesis can be met for every `n` -/
example : Tables 6 (chiVal 6) (fun p => Fintype.card (Wd 6 p)) (ccard 6) := exists_tables 6 (by omega)

/-- at `n=3`: four permutations are their own inverse, and the dimensions are 1, 2, 1 -/
example : (Finset.univ.filter fun τ : Equiv.Perm (Fin 3) => Perm.inverse (enc τ) = some (enc τ)).card = 4 := by decide +kernel

/-- at `n=3` there are 18 commuting pairs and three partitions -/
example : (Finset.univ.filter fun x : Equiv.Perm (Fin 3) × Equiv.Perm (Fin 3) => mul (enc x.1) (enc x.2) = mul (enc x.2) (enc x.1)).card = 18 ∧
    (partitions 3).length = 3 := by
  constructor <;> decide +kernel

end Snob.Props
