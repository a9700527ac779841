import Verif.Spec.ProductRep
import Verif.Proofs.ProductRep

/-! # Property C58: the product of two irreps; C25, C26: actions on the middle index of a view -/

namespace Snob.Props

open Snob Snob.Perm

theorem contiguousCycle_cyc2 {n : Nat} (i j : Fin n) :
    contiguousCycle n ((i : Nat) + 1) ((j : Nat) + 1) = some (enc (cyc2 i j)) := by
  unfold cyc2
  by_cases hij : i < j
  · rw [if_pos hij]
    exact contiguousCycle_up i j hij.le
  · rw [if_neg hij]
    exact contiguousCycle_down i j (not_lt.1 hij)

section
variable (n : Nat) (hn : 1 ≤ n) (p : List Nat) (hp : IsPartition n p)
include hn hp

/-- **C25.** `apply(T,sigma)` on a tensor view multiplies the middle index by `rho(sigma)`. -/
theorem C25_apply_middle {n0 n2 : Nat} (s : Arr) (hs : IsPerm n s) :
    ∃ R A, mkIrrep p = some R ∧ R.eval s = some A ∧
      ∀ T : View3 n0 R.d n2, ∃ Y, R.midSigma s T = some Y ∧ MiddleMul A T Y := by
  obtain ⟨σ, rfl⟩ := hs
  obtain ⟨R, hR, hl, h⟩ := exists_repr hn hp
  obtain ⟨A, hA, hA'⟩ := h.eval_eq σ
  refine ⟨R, A, hR, hA, fun T => ⟨mulMid (h.rep σ) T, ?_, fun a i b => ?_⟩⟩
  · unfold IrrepObj.midSigma
    rw [h.n_eq]
    exact h.genMid.sigma σ T
  · exact Finset.sum_congr rfl fun j _ => by rw [hA']

/-- **C26.** The same for contiguous cycles, in both orientations. -/
theorem C26_apply_middle_cycle {n0 n2 : Nat} (a b : Int) (ha : 1 ≤ a ∧ a ≤ n) (hb : 1 ≤ b ∧ b ≤ n) :
    ∃ R s A, mkIrrep p = some R ∧ contiguousCycle n a b = some s ∧ R.eval s = some A ∧
      ∀ T : View3 n0 R.d n2, ∃ Y, R.midCycle a b T = some Y ∧ MiddleMul A T Y := by
  obtain ⟨a, rfl⟩ : ∃ x : Nat, a = (x : Int) + 1 := ⟨(a - 1).toNat, by omega⟩
  obtain ⟨b, rfl⟩ : ∃ x : Nat, b = (x : Int) + 1 := ⟨(b - 1).toNat, by omega⟩
  obtain ⟨R, hR, hl, h⟩ := exists_repr hn hp
  obtain ⟨A, hA, hA'⟩ := h.eval_eq (cyc2 ⟨a, by omega⟩ ⟨b, by omega⟩)
  refine ⟨R, _, A, hR, contiguousCycle_cyc2 ⟨a, by omega⟩ ⟨b, by omega⟩, hA, fun T =>
    ⟨_, cyc_midCycle h ⟨a, by omega⟩ ⟨b, by omega⟩ T, fun a i b => ?_⟩⟩
  exact Finset.sum_congr rfl fun j _ => by rw [hA']

/-- **C26.** The same for transpositions. -/
theorem C26_apply_middle_transposition {n0 n2 : Nat} (a b : Int) (ha : 1 ≤ a ∧ a ≤ n) (hb : 1 ≤ b ∧ b ≤ n) :
    ∃ R s A, mkIrrep p = some R ∧ transposition n a b = some s ∧ R.eval s = some A ∧
      ∀ T : View3 n0 R.d n2, ∃ Y, R.midTransposition a b T = some Y ∧ MiddleMul A T Y := by
  obtain ⟨a, rfl⟩ : ∃ x : Nat, a = (x : Int) + 1 := ⟨(a - 1).toNat, by omega⟩
  obtain ⟨b, rfl⟩ : ∃ x : Nat, b = (x : Int) + 1 := ⟨(b - 1).toNat, by omega⟩
  obtain ⟨R, hR, hl, h⟩ := exists_repr hn hp
  obtain ⟨A, hA, hA'⟩ := h.eval_eq (Equiv.swap ⟨a, by omega⟩ ⟨b, by omega⟩)
  refine ⟨R, _, A, hR, transposition_eq ⟨a, by omega⟩ ⟨b, by omega⟩, hA, fun T =>
    ⟨_, h.genMid.swap ⟨a, by omega⟩ ⟨b, by omega⟩ T, fun a i b => ?_⟩⟩
  exact Finset.sum_congr rfl fun j _ => by rw [hA']

variable (q : List Nat) (hq : IsPartition n q)
include hq

/-- **C58.** `apply(A,tau)` and `apply_transp(A,tau)` of the product of two irreps multiply the middle index by the
Kronecker product of the two matrices of the adjacent transposition. -/
theorem C58_apply_tau {n0 n2 : Nat} (tau : Int) (h1 : 1 ≤ tau) (h2 : tau < n) :
    ∃ R0 R1 s A0 A1, mkIrrep p = some R0 ∧ mkIrrep q = some R1 ∧ transposition n tau (tau + 1) = some s ∧
      R0.eval s = some A0 ∧ R1.eval s = some A1 ∧
      ∀ T : View3 n0 (ProductRep.mk R0 R1).d n2, ∃ Y, (ProductRep.mk R0 R1).applyTau tau T = some Y ∧
        MiddleMul (kronEntry R1.d A0 A1) T Y := by
  obtain ⟨k, rfl⟩ : ∃ x : Nat, tau = (x : Int) + 1 := ⟨(tau - 1).toNat, by omega⟩
  obtain ⟨R0, hR0, _, h0⟩ := exists_repr hn hp
  obtain ⟨R1, hR1, _, h1⟩ := exists_repr hn hq
  have hadj : adj n k = Equiv.swap ⟨k, by omega⟩ ⟨k + 1, by omega⟩ := by
    unfold adj
    rw [dif_pos (by omega)]
  have htr := transposition_eq (n := n) ⟨k, by omega⟩ ⟨k + 1, by omega⟩
  simp only [Nat.cast_add, Nat.cast_one] at htr
  rw [← hadj] at htr
  obtain ⟨A0, hA0, hA0'⟩ := h0.eval_eq (adj n k)
  obtain ⟨A1, hA1, hA1'⟩ := h1.eval_eq (adj n k)
  refine ⟨R0, R1, _, A0, A1, hR0, hR1, htr, hA0, hA1, fun T =>
    ⟨_, (genProd (P := ⟨R0, R1⟩) h0 h1).gen k T (by omega), fun a x b => ?_⟩⟩
  refine Finset.sum_congr rfl fun y _ => ?_
  unfold prodMat
  rw [kronFuse_apply, ← hA0', ← hA1']
  rfl

/-- **C58.** `apply(A,cyc)` of the product of two irreps multiplies the middle index by the Kronecker product of the two
matrices of the contiguous cycle. -/
theorem C58_apply_cycle {n0 n2 : Nat} (a b : Int) (ha : 1 ≤ a ∧ a ≤ n) (hb : 1 ≤ b ∧ b ≤ n) :
    ∃ R0 R1 s A0 A1, mkIrrep p = some R0 ∧ mkIrrep q = some R1 ∧ contiguousCycle n a b = some s ∧
      R0.eval s = some A0 ∧ R1.eval s = some A1 ∧
      ∀ T : View3 n0 (ProductRep.mk R0 R1).d n2, ∃ Y, (ProductRep.mk R0 R1).applyCycle a b T = some Y ∧
        MiddleMul (kronEntry R1.d A0 A1) T Y := by
  obtain ⟨a, rfl⟩ : ∃ x : Nat, a = (x : Int) + 1 := ⟨(a - 1).toNat, by omega⟩
  obtain ⟨b, rfl⟩ : ∃ x : Nat, b = (x : Int) + 1 := ⟨(b - 1).toNat, by omega⟩
  obtain ⟨R0, hR0, _, h0⟩ := exists_repr hn hp
  obtain ⟨R1, hR1, _, h1⟩ := exists_repr hn hq
  obtain ⟨A0, hA0, hA0'⟩ := h0.eval_eq (cyc2 ⟨a, by omega⟩ ⟨b, by omega⟩)
  obtain ⟨A1, hA1, hA1'⟩ := h1.eval_eq (cyc2 ⟨a, by omega⟩ ⟨b, by omega⟩)
  refine ⟨R0, R1, _, A0, A1, hR0, hR1, contiguousCycle_cyc2 ⟨a, by omega⟩ ⟨b, by omega⟩, hA0, hA1, fun T =>
    ⟨_, prodCycle (P := ⟨R0, R1⟩) h0 h1 ⟨a, by omega⟩ ⟨b, by omega⟩ T, fun a x b => ?_⟩⟩
  refine Finset.sum_congr rfl fun y _ => ?_
  unfold prodMat
  rw [kronFuse_apply, ← hA0', ← hA1']
  rfl

/-- **C58.** The Kronecker product of the two irreps is a homomorphism. -/
theorem C58_homomorphism (a b : Arr) (ha : IsPerm n a) (hb : IsPerm n b) :
    ∃ R0 R1 c e A0 A1 B0 B1 C0 C1 E0 E1, mkIrrep p = some R0 ∧ mkIrrep q = some R1 ∧ mul a b = some c ∧
      identity n = some e ∧ R0.eval a = some A0 ∧ R1.eval a = some A1 ∧ R0.eval b = some B0 ∧ R1.eval b = some B1 ∧
      R0.eval c = some C0 ∧ R1.eval c = some C1 ∧ R0.eval e = some E0 ∧ R1.eval e = some E1 ∧
      (∀ x y : Fin (R0.d * R1.d), kronEntry R1.d C0 C1 x y =
        ∑ z : Fin (R0.d * R1.d), kronEntry R1.d A0 A1 x z * kronEntry R1.d B0 B1 z y) ∧
      ∀ x y : Fin (R0.d * R1.d), kronEntry R1.d E0 E1 x y = if x = y then 1 else 0 := by
  obtain ⟨σ, rfl⟩ := ha
  obtain ⟨τ, rfl⟩ := hb
  obtain ⟨R0, hR0, _, h0⟩ := exists_repr hn hp
  obtain ⟨R1, hR1, _, h1⟩ := exists_repr hn hq
  have key : ∀ σ A0 A1, (∀ i j : Fin R0.d, A0 i j = h0.rep σ i j) → (∀ i j : Fin R1.d, A1 i j = h1.rep σ i j) →
      ∀ x y : Fin (R0.d * R1.d), kronEntry R1.d A0 A1 x y = prodMat (P := ⟨R0, R1⟩) h0 h1 σ x y := by
    intro σ A0 A1 e0 e1 x y
    unfold prodMat
    rw [kronFuse_apply, ← e0, ← e1]
    rfl
  obtain ⟨A0, hA0, hA0'⟩ := h0.eval_eq σ
  obtain ⟨A1, hA1, hA1'⟩ := h1.eval_eq σ
  obtain ⟨B0, hB0, hB0'⟩ := h0.eval_eq τ
  obtain ⟨B1, hB1, hB1'⟩ := h1.eval_eq τ
  obtain ⟨C0, hC0, hC0'⟩ := h0.eval_eq (σ * τ)
  obtain ⟨C1, hC1, hC1'⟩ := h1.eval_eq (σ * τ)
  obtain ⟨E0, hE0, hE0'⟩ := h0.eval_eq 1
  obtain ⟨E1, hE1, hE1'⟩ := h1.eval_eq 1
  refine ⟨R0, R1, _, _, A0, A1, B0, B1, C0, C1, E0, E1, hR0, hR1, mul_eq σ τ, identity_eq n, hA0, hA1, hB0, hB1, hC0,
    hC1, hE0, hE1, fun x y => ?_, fun x y => ?_⟩
  · rw [key _ _ _ hC0' hC1', prodMat_mul, Matrix.mul_apply]
    exact Finset.sum_congr rfl fun z _ => by rw [key _ _ _ hA0' hA1', key _ _ _ hB0' hB1']
  · rw [key _ _ _ hE0' hE1', prodMat_one, Matrix.one_apply]

/-- **C58.** `JucysMurphy(k)` of the product is the sum over `i<k` of the Kronecker products of the matrices of the
transpositions `(i k)`. -/
theorem C58_jucys_murphy (k : Nat) (hk1 : 1 ≤ k) (hk : k ≤ n) :
    ∃ R0 R1 M, mkIrrep p = some R0 ∧ mkIrrep q = some R1 ∧ (ProductRep.mk R0 R1).jucysMurphy k = some M ∧
      ∃ (s : Fin (k - 1) → Arr) (A0 A1 : Fin (k - 1) → Nat → Nat → ℝ),
        (∀ i : Fin (k - 1), transposition n ((i : Nat) + 1) k = some (s i) ∧ R0.eval (s i) = some (A0 i) ∧
          R1.eval (s i) = some (A1 i)) ∧
        ∀ x y, M x y = ∑ i, kronEntry R1.d (A0 i) (A1 i) x y := by
  obtain ⟨R0, hR0, _, h0⟩ := exists_repr hn hp
  obtain ⟨R1, hR1, _, h1⟩ := exists_repr hn hq
  obtain ⟨k, rfl⟩ : ∃ k', k = k' + 1 := ⟨k - 1, by omega⟩
  change ∃ R0 R1 M, _ ∧ _ ∧ _ ∧ ∃ (s : Fin k → Arr) (A0 A1 : Fin k → Nat → Nat → ℝ), _ ∧ _
  have hM := prodJM (P := ⟨R0, R1⟩) h0 h1 k (by omega)
  have c0 := fun i : Fin k => h0.eval_eq (tr n i k)
  have c1 := fun i : Fin k => h1.eval_eq (tr n i k)
  choose A0 hA0 hA0' using c0
  choose A1 hA1 hA1' using c1
  refine ⟨R0, R1, _, hR0, hR1, by exact_mod_cast hM, fun i => enc (tr n i k), A0, A1, fun i => ⟨?_, hA0 i, hA1 i⟩,
    fun x y => ?_⟩
  · have hi := i.2
    change _ = some (enc (tr n (i : Nat) k))
    rw [tr_of (by omega) (by omega)]
    exact_mod_cast transposition_eq (n := n) ⟨i, by omega⟩ ⟨k, by omega⟩
  · rw [Finset.sum_range]
    refine Finset.sum_congr rfl fun i _ => ?_
    unfold prodMat
    rw [kronFuse_apply, ← hA0', ← hA1']
    rfl

end

/-! ## Examples -/

example := C25_apply_middle (n0 := 2) (n2 := 3) 3 (by omega) [2, 1] ⟨by decide, by decide, by decide⟩ _ ⟨cyc 0 2, rfl⟩
example := C26_apply_middle_cycle (n0 := 2) (n2 := 3) 3 (by omega) [2, 1] ⟨by decide, by decide, by decide⟩ 3 1 (by omega)
  (by omega)
example := C26_apply_middle_transposition (n0 := 2) (n2 := 3) 3 (by omega) [2, 1] ⟨by decide, by decide, by decide⟩ 3 1
  (by omega) (by omega)
example := C58_apply_tau (n0 := 2) (n2 := 3) 3 (by omega) [2, 1] ⟨by decide, by decide, by decide⟩ [1, 1, 1]
  ⟨by decide, by decide, by decide⟩ 2 (by omega) (by omega)
example := C58_apply_cycle (n0 := 2) (n2 := 3) 3 (by omega) [2, 1] ⟨by decide, by decide, by decide⟩ [1, 1, 1]
  ⟨by decide, by decide, by decide⟩ 3 1 (by omega) (by omega)
example := C58_homomorphism 3 (by omega) [2, 1] ⟨by decide, by decide, by decide⟩ [1, 1, 1]
  ⟨by decide, by decide, by decide⟩ _ _ ⟨cyc 0 2, rfl⟩ ⟨Equiv.swap 1 2, rfl⟩
example := C58_jucys_murphy 3 (by omega) [2, 1] ⟨by decide, by decide, by decide⟩ [2, 1]
  ⟨by decide, by decide, by decide⟩ 3 (by omega) (by omega)

/-- In dimensions two by three, row 4 is the pair of rows 1, 1; the permutation is the same in both factors. -/
example : kronEntry 3 (fun i j => i + 10 * j) (fun i j => i + 100 * j) 4 2 = (1 + 10 * 0) * (1 + 100 * 2) := by
  norm_num [kronEntry]

end Snob.Props
