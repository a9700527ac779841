import Verif.Proofs.IrrepSpec
import Verif.Proofs.TrivSign

/-! # Properties C23 - C29, C62: the irreducible representations -/

namespace Snob.Props

open Snob Snob.Perm

section
variable (n : Nat) (hn : 1 ≤ n) (p : List Nat) (hp : IsPartition n p)
include hn hp

/-- **C23.** For every partition of `n` the irrep object exists, its basis consists of the standard tableaux
of the shape, each once, and `operator()(sigma)` returns a homomorphism from `Sn`, namely Young's orthogonal
form in this basis. -/
theorem C23_irrep_is_homomorphism :
    ∃ R, mkIrrep p = some R ∧ R.n = n ∧ R.lambda = p ∧
      (R.tableaux.Nodup ∧ ∀ T, T ∈ R.tableaux ↔ IsSYT p T) ∧
      ∃ ρ : Equiv.Perm (Fin n) →* Matrix (Fin R.d) (Fin R.d) ℝ, IsYOR R.tableaux ρ ∧
        ∀ σ, ∃ A, R.eval (enc σ) = some A ∧ ∀ i j : Fin R.d, A i j = ρ σ i j := by
  obtain ⟨R, hR, hl, h⟩ := exists_repr hn hp
  refine ⟨R, hR, h.n_eq, hl, ⟨?_, ?_⟩, h.rep, h.isYOR, h.eval_eq⟩
  · rw [h.tab]; exact toTab_nodup hp
  · intro T
    rw [h.tab, isSYT_iff hp, List.mem_map]
    constructor
    · rintro ⟨u, hu, rfl⟩
      obtain ⟨h1, h2⟩ := (mem_words hp u).1 hu
      exact ⟨u, h1, h2, rfl⟩
    · rintro ⟨u, h1, h2, rfl⟩
      exact ⟨u, (mem_words hp u).2 ⟨h1, h2⟩, rfl⟩

/-- **C23.** In terms of the calls: the matrix of a product of two permutations is the product of their
matrices, and the matrix of the identity is the identity matrix. -/
theorem C23_matrix_of_product (a b : Arr) (ha : IsPerm n a) (hb : IsPerm n b) :
    ∃ R c e A B C E, mkIrrep p = some R ∧ mul a b = some c ∧ identity n = some e ∧
      R.eval a = some A ∧ R.eval b = some B ∧ R.eval c = some C ∧ R.eval e = some E ∧
      (∀ i j : Fin R.d, C i j = ∑ k : Fin R.d, A i k * B k j) ∧
      ∀ i j : Fin R.d, E i j = if i = j then 1 else 0 := by
  obtain ⟨σ, rfl⟩ := ha
  obtain ⟨τ, rfl⟩ := hb
  obtain ⟨R, hR, hl, h⟩ := exists_repr hn hp
  obtain ⟨A, hA, hA'⟩ := h.eval_eq σ
  obtain ⟨B, hB, hB'⟩ := h.eval_eq τ
  obtain ⟨C, hC, hC'⟩ := h.eval_eq (σ * τ)
  obtain ⟨E, hE, hE'⟩ := h.eval_eq 1
  refine ⟨R, _, _, A, B, C, E, hR, mul_eq σ τ, identity_eq n, hA, hB, hC, hE, fun i j => ?_, fun i j => ?_⟩
  · rw [hC', map_mul, Matrix.mul_apply]
    exact Finset.sum_congr rfl fun k _ => by rw [hA', hB']
  · rw [hE', map_one, Matrix.one_apply]

/-- **C24.** The matrices are orthogonal, and the matrix of the inverse is the transpose. -/
theorem C24_irrep_orthogonal (a : Arr) (ha : IsPerm n a) :
    ∃ R b A B, mkIrrep p = some R ∧ inverse a = some b ∧ R.eval a = some A ∧ R.eval b = some B ∧
      (∀ i j : Fin R.d, B i j = A j i) ∧
      (∀ i j : Fin R.d, (∑ k : Fin R.d, A i k * A j k) = if i = j then 1 else 0) ∧
      (∀ i j : Fin R.d, (∑ k : Fin R.d, A k i * A k j) = if i = j then 1 else 0) := by
  obtain ⟨σ, rfl⟩ := ha
  obtain ⟨R, hR, hl, h⟩ := exists_repr hn hp
  obtain ⟨A, hA, hA'⟩ := h.eval_eq σ
  obtain ⟨B, hB, hB'⟩ := h.eval_eq σ⁻¹
  have h1 : h.rep σ * (h.rep σ).transpose = 1 := by rw [← h.rep_inv, ← map_mul, mul_inv_cancel, map_one]
  have h2 : (h.rep σ).transpose * h.rep σ = 1 := by rw [← h.rep_inv, ← map_mul, inv_mul_cancel, map_one]
  refine ⟨R, _, A, B, hR, inverse_eq σ, hA, hB, fun i j => ?_, fun i j => ?_, fun i j => ?_⟩
  · rw [hB', hA', h.rep_inv, Matrix.transpose_apply]
  · rw [← Matrix.one_apply, ← h1, Matrix.mul_apply]
    exact Finset.sum_congr rfl fun k _ => by rw [hA', hA', Matrix.transpose_apply]
  · rw [← Matrix.one_apply, ← h2, Matrix.mul_apply]
    exact Finset.sum_congr rfl fun k _ => by rw [hA', hA', Matrix.transpose_apply]

/-- **C25.** `apply_left(A,sigma)` on any set of columns (whole matrices, column blocks, 3-tensors with
middle index) multiplies these columns by `rho(sigma)` and leaves everything else unchanged; no table lookup
is out of range. -/
theorem C25_apply_left {K : Type} [DecidableEq K] (cols : List K) (hc : cols.Nodup) (a : Arr) (ha : IsPerm n a)
    (X : Nat → K → ℝ) :
    ∃ R A Y, mkIrrep p = some R ∧ R.eval a = some A ∧ R.applySigma cols a X = some Y ∧
      LeftMul R.d A cols X Y := by
  obtain ⟨σ, rfl⟩ := ha
  obtain ⟨R, hR, hl, h⟩ := exists_repr hn hp
  obtain ⟨A, hA, hA'⟩ := h.eval_eq σ
  exact ⟨R, A, _, hR, hA, h.applySigma_eq cols hc σ X, leftMul_act _ _ hA' _ _⟩

/-- **C25.** The strided version, on the columns `beg+j*stride .. end+j*stride-1` of a matrix with `J`
columns, for blocks that fit into the stride. -/
theorem C25_apply_left_strided (J beg end' stride : Nat) (hs : 0 < stride) (he : end' ≤ stride) (a : Arr)
    (ha : IsPerm n a) (X : Nat → Nat → ℝ) :
    ∃ R A Y cols, mkIrrep p = some R ∧ R.eval a = some A ∧
      R.applySigmaStrided J beg end' stride a X = some Y ∧ LeftMul R.d A cols X Y ∧
      ∀ k, k ∈ cols ↔ ∃ j < J / stride, beg + j * stride ≤ k ∧ k < end' + j * stride := by
  obtain ⟨σ, rfl⟩ := ha
  obtain ⟨R, hR, hl, h⟩ := exists_repr hn hp
  obtain ⟨A, hA, hA'⟩ := h.eval_eq σ
  exact ⟨R, A, _, _, hR, hA, h.applySigmaStrided_eq J beg end' stride (by omega) he σ X,
    leftMul_act _ _ hA' _ _, fun k => mem_stridedCols _ _ _ _ _⟩

/-- **C26.** `apply_left` with a contiguous cycle multiplies by the matrix of that cycle, in both
orientations. -/
theorem C26_apply_left_cycle {K : Type} [DecidableEq K] (cols : List K) (hc : cols.Nodup) (a b : Int)
    (ha : 1 ≤ a ∧ a ≤ n) (hb : 1 ≤ b ∧ b ≤ n) (X : Nat → K → ℝ) :
    ∃ R s A Y, mkIrrep p = some R ∧ contiguousCycle n a b = some s ∧ R.eval s = some A ∧
      R.applyCycle cols a b X = some Y ∧ LeftMul R.d A cols X Y := by
  obtain ⟨a, rfl⟩ : ∃ x : Nat, a = (x : Int) + 1 := ⟨(a - 1).toNat, by omega⟩
  obtain ⟨b, rfl⟩ : ∃ x : Nat, b = (x : Int) + 1 := ⟨(b - 1).toNat, by omega⟩
  obtain ⟨R, hR, hl, h⟩ := exists_repr hn hp
  by_cases hab : a < b
  · obtain ⟨A, hA, hA'⟩ := h.eval_eq (cyc ⟨a, by omega⟩ ⟨b, by omega⟩)
    refine ⟨R, _, A, _, hR, contiguousCycle_up ⟨a, by omega⟩ ⟨b, by omega⟩ (by rw [Fin.le_def]; simp only; omega), hA,
      ?_, leftMul_act _ _ hA' _ _⟩
    unfold IrrepObj.applyCycle
    rw [if_pos (by omega)]
    exact h.applyCycle_up cols hc ⟨a, by omega⟩ ⟨b, by omega⟩ (by rw [Fin.le_def]; simp only; omega) X
  · obtain ⟨A, hA, hA'⟩ := h.eval_eq (cyc ⟨b, by omega⟩ ⟨a, by omega⟩)⁻¹
    refine ⟨R, _, A, _, hR, contiguousCycle_down ⟨a, by omega⟩ ⟨b, by omega⟩ (by rw [Fin.le_def]; simp only; omega), hA,
      ?_, leftMul_act _ _ hA' _ _⟩
    unfold IrrepObj.applyCycle
    rw [if_neg (by omega)]
    exact h.applyCycle_down cols hc ⟨b, by omega⟩ ⟨a, by omega⟩ (by rw [Fin.le_def]; simp only; omega) X

/-- **C26.** `apply_left_inv` with an ascending contiguous cycle multiplies by the matrix of its inverse. -/
theorem C26_apply_left_inv_cycle {K : Type} [DecidableEq K] (cols : List K) (hc : cols.Nodup) (a b : Int)
    (ha : 1 ≤ a) (hab : a ≤ b) (hb : b ≤ n) (X : Nat → K → ℝ) :
    ∃ R s t A Y, mkIrrep p = some R ∧ contiguousCycle n a b = some s ∧ inverse s = some t ∧
      R.eval t = some A ∧ R.applyCycleInv cols a b X = some Y ∧ LeftMul R.d A cols X Y := by
  obtain ⟨a, rfl⟩ : ∃ x : Nat, a = (x : Int) + 1 := ⟨(a - 1).toNat, by omega⟩
  obtain ⟨b, rfl⟩ : ∃ x : Nat, b = (x : Int) + 1 := ⟨(b - 1).toNat, by omega⟩
  obtain ⟨R, hR, hl, h⟩ := exists_repr hn hp
  obtain ⟨A, hA, hA'⟩ := h.eval_eq (cyc ⟨a, by omega⟩ ⟨b, by omega⟩)⁻¹
  exact ⟨R, _, _, A, _, hR, contiguousCycle_up ⟨a, by omega⟩ ⟨b, by omega⟩ (by rw [Fin.le_def]; simp only; omega),
    inverse_eq _, hA, h.applyCycle_down cols hc ⟨a, by omega⟩ ⟨b, by omega⟩ (by rw [Fin.le_def]; simp only; omega) X,
    leftMul_act _ _ hA' _ _⟩

/-- **C26.** `apply_left` with a transposition multiplies by the matrix of that transposition. -/
theorem C26_apply_left_transposition {K : Type} [DecidableEq K] (cols : List K) (hc : cols.Nodup) (a b : Int)
    (ha : 1 ≤ a ∧ a ≤ n) (hb : 1 ≤ b ∧ b ≤ n) (X : Nat → K → ℝ) :
    ∃ R s A Y, mkIrrep p = some R ∧ transposition n a b = some s ∧ R.eval s = some A ∧
      R.applyTransposition cols a b X = some Y ∧ LeftMul R.d A cols X Y := by
  obtain ⟨a, rfl⟩ : ∃ x : Nat, a = (x : Int) + 1 := ⟨(a - 1).toNat, by omega⟩
  obtain ⟨b, rfl⟩ : ∃ x : Nat, b = (x : Int) + 1 := ⟨(b - 1).toNat, by omega⟩
  obtain ⟨R, hR, hl, h⟩ := exists_repr hn hp
  obtain ⟨A, hA, hA'⟩ := h.eval_eq (Equiv.swap ⟨a, by omega⟩ ⟨b, by omega⟩)
  exact ⟨R, _, A, _, hR, transposition_eq ⟨a, by omega⟩ ⟨b, by omega⟩, hA,
    h.applyTransposition_eq cols hc ⟨a, by omega⟩ ⟨b, by omega⟩ X, leftMul_act _ _ hA' _ _⟩

/-- **C62 (partial).** The column block version of `apply_left` with a contiguous cycle agrees with the matrix of
the cycle for ascending cycles. Missing: descending cycles, where it does nothing
(`C62_block_cycle_descending`). -/
theorem C62_block_cycle_partial {K : Type} [DecidableEq K] (cols : List K) (hc : cols.Nodup) (a b : Int)
    (ha : 1 ≤ a) (hab : a ≤ b) (hb : b ≤ n) (X : Nat → K → ℝ) :
    ∃ R s A Y, mkIrrep p = some R ∧ contiguousCycle n a b = some s ∧ R.eval s = some A ∧
      R.applyCycleBlock cols a b X = some Y ∧ LeftMul R.d A cols X Y := by
  obtain ⟨a, rfl⟩ : ∃ x : Nat, a = (x : Int) + 1 := ⟨(a - 1).toNat, by omega⟩
  obtain ⟨b, rfl⟩ : ∃ x : Nat, b = (x : Int) + 1 := ⟨(b - 1).toNat, by omega⟩
  obtain ⟨R, hR, hl, h⟩ := exists_repr hn hp
  obtain ⟨A, hA, hA'⟩ := h.eval_eq (cyc ⟨a, by omega⟩ ⟨b, by omega⟩)
  exact ⟨R, _, A, _, hR, contiguousCycle_up ⟨a, by omega⟩ ⟨b, by omega⟩ (by rw [Fin.le_def]; simp only; omega), hA,
      h.applyCycle_up cols hc ⟨a, by omega⟩ ⟨b, by omega⟩ (by rw [Fin.le_def]; simp only; omega) X, leftMul_act _ _ hA' _ _⟩

/-- **C27 (partial).** `transp(i,j)` is the matrix of the transposition if `i ≤ j+1`. Missing: `i > j+1`, where it
is wrong (`C27_transp_wrong`). -/
theorem C27_transp_partial (i j : Int) (hi : 1 ≤ i ∧ i ≤ n) (hj : 1 ≤ j ∧ j ≤ n) (hij : i ≤ j + 1) :
    ∃ R s A B, mkIrrep p = some R ∧ transposition n i j = some s ∧ R.eval s = some A ∧
      R.transp i j = some B ∧ ∀ x y : Fin R.d, B x y = A x y := by
  obtain ⟨a, rfl⟩ : ∃ x : Nat, i = (x : Int) + 1 := ⟨(i - 1).toNat, by omega⟩
  obtain ⟨b, rfl⟩ : ∃ x : Nat, j = (x : Int) + 1 := ⟨(j - 1).toNat, by omega⟩
  obtain ⟨R, hR, hl, h⟩ := exists_repr hn hp
  obtain ⟨A, hA, hA'⟩ := h.eval_eq (Equiv.swap ⟨a, by omega⟩ ⟨b, by omega⟩)
  refine ⟨R, _, A, _, hR, transposition_eq ⟨a, by omega⟩ ⟨b, by omega⟩, hA, ?_,
    fun x y => (h.identMat_act _ x y).trans (hA' x y).symm⟩
  have hnd : (List.range R.d).Nodup := List.nodup_range
  unfold IrrepObj.transp IrrepObj.applyCycle IrrepObj.applyCycleInv
  rcases lt_trichotomy a b with hab | rfl | hab
  · rw [if_pos (by omega)]
    have h1 := h.applyCycle_up _ hnd ⟨a, by omega⟩ ⟨b, by omega⟩ (by rw [Fin.le_def]; simp only; omega) IrrepObj.identMat
    unfold IrrepObj.applyCycleBlock at h1
    rw [h1]
    simp only [Option.bind_eq_bind, Option.bind_some]
    have h2 := h.applyCycle_down _ hnd ⟨a + 1, by omega⟩ ⟨b, by omega⟩ (by rw [Fin.le_def]; simp only; omega)
      (act (h.rep (cyc ⟨a, by omega⟩ ⟨b, by omega⟩)) (List.range R.d) IrrepObj.identMat)
    simp only [Nat.cast_add, Nat.cast_one] at h2
    rw [h2, swap_eq_cyc _ _ (by rw [Fin.lt_def]; simp only; omega), map_mul, act_mul]
  · rw [if_neg (by omega), forUp_empty (by omega)]
    simp only [Option.bind_eq_bind, Option.bind_some]
    rw [forUp_empty (by omega), Equiv.swap_self, show (Equiv.refl (Fin n)) = 1 from rfl, map_one, act_one]
  · obtain rfl : a = b + 1 := by omega
    rw [if_neg (by omega)]
    have g := (h.gen (List.range R.d) hnd).up (lo := (b : Int) + 1) (hi := ((b + 1 : Nat) : Int) + 1) b 1 (by omega) rfl
      (by push_cast; ring) IrrepObj.identMat
    rw [g]
    simp only [Option.bind_eq_bind, Option.bind_some]
    rw [forUp_empty (by omega)]
    congr 3
    rw [rrun_adj]
    show (adj n b * 1)⁻¹ = _
    rw [mul_one, adj_inv, Equiv.swap_comm]
    unfold adj
    rw [dif_pos (by omega)]

/-- **C29.** `JucysMurphy(k)` returns, in the order of the tableaux, the content of the entry `k`; the sum of the
matrices of the transpositions `(i k)`, `i<k`, is the diagonal matrix with these entries. -/
theorem C29_jucys_murphy (k : Nat) (h1 : 1 ≤ k) (hk : k ≤ n) :
    ∃ R L, mkIrrep p = some R ∧ R.jucysMurphy k = some L ∧ L.length = R.d ∧
      (∀ (i : Nat) T z, R.tableaux[i]? = some T → HasContent T k z → L[i]? = some (z : ℝ)) ∧
      ∃ (s : Fin (k - 1) → Arr) (A : Fin (k - 1) → Nat → Nat → ℝ),
        (∀ x : Fin (k - 1), transposition n ((x : Nat) + 1) k = some (s x) ∧ R.eval (s x) = some (A x)) ∧
        ∀ i j : Fin R.d, ∑ x, A x i j = if i = j then (L[(i : Nat)]?).getD 0 else 0 := by
  obtain ⟨R, hR, hl, h⟩ := exists_repr hn hp
  obtain ⟨k, rfl⟩ : ∃ k', k = k' + 1 := ⟨k - 1, by omega⟩
  obtain ⟨M, hM, hM'⟩ := h.jmMatrix_eq (k + 1) (by omega) hk
  simp only [Nat.add_sub_cancel] at hM' ⊢
  have hdiag : ∀ i : Fin R.d, M i i = ((h.eqv i).cont (k + 1) : ℝ) := fun i => by
    rw [hM', h.rep_jm k (by omega), if_pos rfl]
  have hL : ∀ i : Fin R.d, ((List.range R.d).map fun i => M i i)[(i : Nat)]? =
      some ((h.eqv i).cont (k + 1) : ℝ) := by
    intro i
    rw [List.getElem?_map, List.getElem?_range i.2, Option.map_some, hdiag]
  have hex : ∀ x : Fin k, ∃ A, R.eval (enc (Equiv.swap (⟨x, by omega⟩ : Fin n) ⟨k, by omega⟩)) = some A ∧
      ∀ i j : Fin R.d, A i j = h.rep (tr n x k) i j := by
    intro x
    obtain ⟨A, hA, hA'⟩ := h.eval_eq (Equiv.swap (⟨x, by omega⟩ : Fin n) ⟨k, by omega⟩)
    exact ⟨A, hA, by rw [tr_of (by omega) (by omega)]; exact hA'⟩
  choose A hA hA' using hex
  refine ⟨R, (List.range R.d).map fun i => M i i, hR, ?_, by simp, ?_,
    fun x => enc (Equiv.swap (⟨x, by omega⟩ : Fin n) ⟨k, by omega⟩), A, ?_, ?_⟩
  · unfold IrrepObj.jucysMurphy
    rw [hM]
    rfl
  · intro i T z hT hz
    have hi : i < R.d := by
      have := (List.getElem?_eq_some_iff.1 hT).1
      rw [h.tab, List.length_map] at this
      rw [h.d_eq]; exact this
    have h3 := h.tab_get ⟨i, hi⟩
    rw [hT, Option.some.injEq] at h3
    subst h3
    rw [hasContent_iff hp _ (by omega) hk] at hz
    rw [hz]
    exact hL ⟨i, hi⟩
  · intro x
    refine ⟨?_, hA x⟩
    have := transposition_eq (⟨x, by omega⟩ : Fin n) ⟨k, by omega⟩
    simp only at this
    push_cast
    exact this
  · intro i j
    refine (Finset.sum_congr rfl fun x _ => hA' x i j).trans ?_
    refine (Fin.sum_univ_eq_sum_range (fun x => h.rep (tr n x k) i j) k).trans ?_
    rw [h.rep_jm k (by omega), hL i]
    rfl

end

/-- **C28.** Restricted to the permutations fixing the last point, the representation of a partition of `n+1` is
block diagonal, and its blocks are the representations of the sub-partitions in the order of `parents`. -/
theorem C28_restriction_block_diagonal (n : Nat) (hn : 1 ≤ n) (p : List Nat) (hp : IsPartition (n + 1) p)
    (a : Arr) (ha : IsPerm n a) :
    ∃ R A ps S, mkIrrep p = some R ∧ R.eval (a ++ [some ((n : Int) + 1)]) = some A ∧
      IP.parents p = some ps ∧ ps.mapM mkIrrep = some S ∧ R.d = (S.map (·.d)).sum ∧
      ∃ B : Nat → Nat → Nat → ℝ, (∀ x Q, S[x]? = some Q → Q.eval a = some (B x)) ∧
        ∀ x y Q Q' i j, S[x]? = some Q → S[y]? = some Q' → i < Q.d → j < Q'.d →
          A (((S.take x).map (·.d)).sum + i) (((S.take y).map (·.d)).sum + j) = if x = y then B x i j else 0 := by
  classical
  obtain ⟨σ, rfl⟩ := ha
  obtain ⟨R, hR, hl, h⟩ := exists_repr (by omega) hp
  obtain ⟨A, hA, hA'⟩ := h.eval_eq (extend σ)
  rw [enc_extend] at hA
  have hsub : ∀ q, q ∈ subs p → IsPartition n q := fun q hq => ((mem_subs hp q).1 hq).1
  have hirr : ∀ q, ∃ Q B, q ∈ subs p → ∃ hq : IsPartition n q, mkIrrep q = some Q ∧ Q.d = (words n q).length ∧
      ∃ hr : Repr' hq Q, Q.eval (enc σ) = some B ∧ ∀ i j : Fin Q.d, B i j = hr.rep σ i j := by
    intro q
    by_cases hq : q ∈ subs p
    · obtain ⟨Q, hQ, _, hr⟩ := exists_repr hn (hsub q hq)
      obtain ⟨B, hB⟩ := hr.eval_eq σ
      exact ⟨Q, B, fun _ => ⟨hsub q hq, hQ, hr.d_eq, hr, hB⟩⟩
    · exact ⟨⟨0, 0, [], [], []⟩, fun _ _ => 0, fun h => absurd h hq⟩
  choose Q B hQB using hirr
  have hlen : ∀ l : List (List Nat), (∀ q ∈ l, q ∈ subs p) →
      ((l.map Q).map (·.d)).sum =
        (l.map fun q => ((fun q => (words n q).map (growRow q p :: ·)) q).length).sum := by
    intro l hl
    rw [List.map_map]
    congr 1
    apply List.map_congr_left
    intro q hq
    obtain ⟨_, _, e, _⟩ := hQB q (hl q hq)
    simp [e]
  refine ⟨R, A, subs p, (subs p).map Q, hR, hA, parents_eq hp (by omega), mapM_map _ _ _ fun q hq => ?_, ?_,
    fun x => B ((subs p)[x]?.getD []), ?_, ?_⟩
  · obtain ⟨_, e, _⟩ := hQB q hq; exact e
  · rw [h.d_eq, hlen _ fun q hq => hq]
    simp only [words, List.length_flatMap]
  · intro x Q' hx
    rw [List.getElem?_map, Option.map_eq_some_iff] at hx
    obtain ⟨q, hq, rfl⟩ := hx
    obtain ⟨_, _, _, _, e, _⟩ := hQB q (List.mem_of_getElem? hq)
    beta_reduce
    rw [hq]; exact e
  · intro x y Q1 Q2 i j hx hy hi hj
    rw [List.getElem?_map, Option.map_eq_some_iff] at hx hy
    obtain ⟨q, hq, rfl⟩ := hx
    obtain ⟨q', hq', rfl⟩ := hy
    have hmq := List.mem_of_getElem? hq
    have hmq' := List.mem_of_getElem? hq'
    obtain ⟨hqp, _, ed, hr, _, hB⟩ := hQB q hmq
    obtain ⟨hqp', _, ed', hr', _, hB'⟩ := hQB q' hmq'
    -- position of a word
    have hpos : ∀ (x q i) (hq : (subs p)[x]? = some q) (hi : i < (words n q).length),
        (words (n + 1) p)[(((subs p).map Q).take x |>.map (·.d)).sum + i]? =
          some (growRow q p :: (words n q)[i]) := by
      intro x q i hq hi
      rw [← List.map_take, hlen _ fun q hq => List.mem_of_mem_take hq]
      have := getElem?_flatMap_off (fun q => (words n q).map (growRow q p :: ·)) (subs p) x i q hq (by simpa using hi)
      rw [words, this]
      simp [hi]
    have hw := hpos x q i hq (by omega)
    have hw' := hpos y q' j hq' (by omega)
    obtain ⟨hlt, hv⟩ := List.getElem?_eq_some_iff.1 hw
    obtain ⟨hlt', hv'⟩ := List.getElem?_eq_some_iff.1 hw'
    obtain ⟨_, r, hb⟩ := (mem_subs hp q).1 hmq
    obtain ⟨_, r', hb'⟩ := (mem_subs hp q').1 hmq'
    have hg := growRow_eq hqp hp hb
    have hg' := growRow_eq hqp' hp hb'
    have e1 := hA' ⟨_, by rw [h.d_eq]; exact hlt⟩ ⟨_, by rw [h.d_eq]; exact hlt'⟩
    simp only at e1
    rw [e1, h.rep_apply]
    show rho hp (extend σ) (h.eqv _) (h.eqv _) = _
    have ew : h.eqv ⟨_, by rw [h.d_eq]; exact hlt⟩ = emb hp hqp hb ((words_nodup hqp).getEquiv _ ⟨i, by omega⟩) := by
      apply Subtype.ext
      refine hv.trans ?_
      rw [hg]
      rfl
    have ew' : h.eqv ⟨_, by rw [h.d_eq]; exact hlt'⟩ = emb hp hqp' hb' ((words_nodup hqp').getEquiv _ ⟨j, by omega⟩) := by
      apply Subtype.ext
      refine hv'.trans ?_
      rw [hg']
      rfl
    rw [ew, ew']
    by_cases hxy : x = y
    · subst hxy
      rw [hq, Option.some.injEq] at hq'
      subst hq'
      obtain rfl : r = r' := by rw [← hg, ← hg']
      rw [rho_emb, if_pos rfl]
      beta_reduce
      rw [hq]
      exact (hB ⟨i, hi⟩ ⟨j, hj⟩).symm
    · rw [if_neg hxy, rho_emb_ne]
      rintro rfl
      apply hxy
      have : q = q' := sub_unique hqp hqp' hb hb'
      subst this
      have hnd : (subs p).Nodup := (subs_pairwise p).imp fun hab => by
        rintro rfl; exact lexGreater_irrefl _ hab
      have hxl := (List.getElem?_eq_some_iff.1 hq).1
      exact (List.getElem?_inj hxl hnd).1 (hq.trans hq'.symm)

/-- **C28.** The partition `(n)` gives the trivial representation. -/
theorem C28_trivial (n : Nat) (hn : 1 ≤ n) (a : Arr) (ha : IsPerm n a) :
    ∃ R A, mkIrrep [n] = some R ∧ R.d = 1 ∧ R.eval a = some A ∧ A 0 0 = 1 := by
  obtain ⟨σ, rfl⟩ := ha
  have hp := isPartition_row hn
  obtain ⟨R, hR, hl, h⟩ := exists_repr hn hp
  obtain ⟨A, hA, hA'⟩ := h.eval_eq σ
  have hd : R.d = 1 := by
    rw [h.d_eq]
    have h1 := words_length_of_subsingleton hp (wd_subsingleton_of_cont hp _ (fun u m h1 h2 => cont_row hn u h1 h2))
    have h2 := List.length_pos_iff.2 (words_ne_nil hp)
    omega
  refine ⟨R, A, hR, hd, hA, ?_⟩
  have := hA' ⟨0, by omega⟩ ⟨0, by omega⟩
  simp only at this
  rw [this, h.rep_apply]
  exact rho_row hn σ _ _

/-- **C28.** The partition `(1,...,1)` gives the sign representation. -/
theorem C28_sign (n : Nat) (hn : 1 ≤ n) (σ : Equiv.Perm (Fin n)) :
    ∃ R A, mkIrrep (List.replicate n 1) = some R ∧ R.d = 1 ∧ R.eval (enc σ) = some A ∧
      A 0 0 = ((Equiv.Perm.sign σ : Int) : ℝ) := by
  have hp := isPartition_col n
  obtain ⟨R, hR, hl, h⟩ := exists_repr hn hp
  obtain ⟨A, hA, hA'⟩ := h.eval_eq σ
  have hd : R.d = 1 := by
    rw [h.d_eq]
    have h1 := words_length_of_subsingleton hp (wd_subsingleton_of_cont hp _ (fun u m h1 h2 => cont_col u h1 h2))
    have h2 := List.length_pos_iff.2 (words_ne_nil hp)
    omega
  refine ⟨R, A, hR, hd, hA, ?_⟩
  have := hA' ⟨0, by omega⟩ ⟨0, by omega⟩
  simp only at this
  rw [this, h.rep_apply]
  exact rho_col σ _ _

/-- **C27, negation.** For `i > j+1` the call `transp(i,j)` returns the matrix of the descending contiguous cycle
from `i` to `j` instead of the matrix of the transposition. -/
theorem C27_transp_wrong (n : Nat) (hn : 1 ≤ n) (p : List Nat) (hp : IsPartition n p) (i j : Int) (hi : i ≤ n)
    (hj : 1 ≤ j) (hij : i > j + 1) :
    ∃ R s A B, mkIrrep p = some R ∧ contiguousCycle n i j = some s ∧ R.eval s = some A ∧
      R.transp i j = some B ∧ ∀ x y : Fin R.d, B x y = A x y := by
  obtain ⟨a, rfl⟩ : ∃ x : Nat, i = (x : Int) + 1 := ⟨(i - 1).toNat, by omega⟩
  obtain ⟨b, rfl⟩ : ∃ x : Nat, j = (x : Int) + 1 := ⟨(j - 1).toNat, by omega⟩
  obtain ⟨R, hR, hl, h⟩ := exists_repr hn hp
  obtain ⟨A, hA, hA'⟩ := h.eval_eq (cyc ⟨b, by omega⟩ ⟨a, by omega⟩)⁻¹
  refine ⟨R, _, A, _, hR, contiguousCycle_down ⟨a, by omega⟩ ⟨b, by omega⟩ (by rw [Fin.le_def]; simp only; omega), hA,
    ?_, fun x y => (h.identMat_act _ x y).trans (hA' x y).symm⟩
  unfold IrrepObj.transp IrrepObj.applyCycle IrrepObj.applyCycleInv
  rw [if_neg (by omega), h.applyCycle_down _ List.nodup_range ⟨b, by omega⟩ ⟨a, by omega⟩
    (by rw [Fin.le_def]; simp only; omega) IrrepObj.identMat]
  simp only [Option.bind_eq_bind, Option.bind_some]
  rw [forUp_empty (by omega)]

/-- **C27, negation, witness.** In the sign representation of `S3`, `transp(3,1)` returns `(1)` while the matrix of
the transposition `(1 3)` is `(-1)`. -/
theorem C27_transp_wrong_witness :
    ∃ R s A B, mkIrrep [1, 1, 1] = some R ∧ transposition 3 3 1 = some s ∧ R.eval s = some A ∧
      R.transp 3 1 = some B ∧ A 0 0 = -1 ∧ B 0 0 = 1 := by
  obtain ⟨R, s, A, B, hR, hs, hA, hB, hAB⟩ :=
    C27_transp_wrong 3 (by omega) [1, 1, 1] (isPartition_col 3) 3 1 (by omega) (by omega) (by omega)
  obtain ⟨R', A', hR', hd, hA', h0⟩ := C28_sign 3 (by omega) (cyc 0 2)⁻¹
  obtain ⟨R'', A'', hR'', _, hA'', h0'⟩ := C28_sign 3 (by omega) (Equiv.swap 2 0)
  change mkIrrep [1, 1, 1] = _ at hR' hR''
  rw [hR, Option.some.injEq] at hR' hR''
  subst hR' hR''
  have e := contiguousCycle_down (n := 3) 2 0 (by decide)
  have e' : contiguousCycle 3 3 1 = some (enc (cyc (0 : Fin 3) 2)⁻¹) := e
  rw [hs, Option.some.injEq] at e'
  subst e'
  rw [hA, Option.some.injEq] at hA'
  subst hA'
  refine ⟨R, _, A'', B, hR, transposition_eq (n := 3) 2 0, hA'', hB, ?_, ?_⟩
  · rw [h0', Equiv.Perm.sign_swap (by decide)]; simp
  · have := hAB ⟨0, by omega⟩ ⟨0, by omega⟩
    simp only at this
    rw [this, h0, show Equiv.Perm.sign (cyc (0 : Fin 3) 2)⁻¹ = 1 by decide]; simp

/-- **C62, negation.** The column block version of `apply_left` with a descending contiguous cycle does nothing. -/
theorem C62_block_cycle_descending {K : Type} [DecidableEq K] (R : IrrepObj) (cols : List K) (a b : Int) (hab : b < a)
    (X : Nat → K → ℝ) : R.applyCycleBlock cols a b X = some X := by
  unfold IrrepObj.applyCycleBlock
  rw [forDown_empty (by omega)]

/-- **C62, negation, witness.** In the sign representation of `S2`, applying the cycle from 2 to 1 to the only column
of the matrix `(1)` should give `(-1)`; the block version leaves `(1)`, the version for whole matrices is right. -/
theorem C62_block_cycle_witness :
    ∃ R s A Y, mkIrrep [1, 1] = some R ∧ contiguousCycle 2 2 1 = some s ∧ R.eval s = some A ∧
      R.applyCycleBlock [0] 2 1 IrrepObj.identMat = some Y ∧ A 0 0 * IrrepObj.identMat 0 0 = -1 ∧ Y 0 0 = 1 ∧
      ∃ Y', R.applyCycle [0] 2 1 IrrepObj.identMat = some Y' ∧ Y' 0 0 = -1 := by
  obtain ⟨R, A, hR, hd, hA, h0⟩ := C28_sign 2 (by omega) (cyc 0 1)⁻¹
  have h0' : A 0 0 = -1 := by
    rw [h0, show Equiv.Perm.sign (cyc (0 : Fin 2) 1)⁻¹ = -1 by decide]; simp
  have e : contiguousCycle 2 2 1 = some (enc (cyc (0 : Fin 2) 1)⁻¹) := contiguousCycle_down (n := 2) 1 0 (by decide)
  obtain ⟨R', s, A', Y, hR', hs, hA', hY, hL⟩ := C26_apply_left_cycle 2 (by omega) [1, 1] (isPartition_col 2) [0]
    (by simp) 2 1 (by omega) (by omega) IrrepObj.identMat
  change mkIrrep [1, 1] = _ at hR
  rw [hR, Option.some.injEq] at hR'
  subst hR'
  have e' : contiguousCycle ((2 : Nat)) 2 1 = some s := hs
  rw [e, Option.some.injEq] at e'
  subst e'
  rw [hA, Option.some.injEq] at hA'
  subst hA'
  refine ⟨R, _, A, _, hR, e, hA, C62_block_cycle_descending R [0] 2 1 (by omega) _, ?_, ?_, Y, hY, ?_⟩
  · rw [h0']; simp [IrrepObj.identMat]
  · simp [IrrepObj.identMat]
  · rw [hL.1 0 0 (by omega) (by simp)]
    have : ∀ f : Fin R.d → ℝ, ∑ j, f j = f ⟨0, by omega⟩ := by
      intro f
      rw [Finset.sum_eq_single ⟨0, by omega⟩]
      · intro b _ hb; exact absurd (Fin.ext (by have := b.2; simp only; omega)) hb
      · simp
    rw [this]
    simp only
    rw [h0']; simp [IrrepObj.identMat]

/-! ## Concrete instances -/

private theorem h32 : IsPartition 5 [3, 2] := ⟨by decide, by decide, by decide⟩
private theorem hcyc : IsPerm 5 [some 2, some 1, some 4, some 5, some 3] := ⟨Equiv.swap 0 1 * cyc 2 4, by decide⟩
private theorem hcyc' : IsPerm 5 [some 3, some 5, some 1, some 4, some 2] :=
  ⟨Equiv.swap 0 2 * Equiv.swap 1 4, by decide⟩

/-- In the representation `[2,1]` of `S3` the upper left entry of the matrix of `(2 3)` is `-1/2` and the entry
beside it is `√3/2`. -/
example : ∃ R A, mkIrrep [2, 1] = some R ∧ R.eval [some 1, some 3, some 2] = some A ∧ A 0 0 = -1 / 2 ∧
    A 0 1 = √3 / 2 := by
  obtain ⟨R, hR, _, _, ⟨hnd, hT⟩, ρ, hY, hev⟩ := C23_irrep_is_homomorphism 3 (by omega) [2, 1] ⟨by decide, by decide, by decide⟩
  have ht : R.tableaux = [[[1, 2], [3]], [[1, 3], [2]]] := by
    have e : tableaux [2, 1] = some [[[1, 2], [3]], [[1, 3], [2]]] := by decide
    unfold mkIrrep at hR
    rw [e] at hR
    simp only [Option.bind_eq_bind, Option.bind_some, Option.bind_eq_some_iff, Option.some.injEq] at hR
    obtain ⟨_, _, rfl⟩ := hR
    rfl
  have hd : R.d = 2 := by rw [← hY.1, ht]; rfl
  obtain ⟨A, hA, hA'⟩ := hev (Equiv.swap 1 2)
  have c2 : HasContent [[1, 2], [3]] 2 1 := ⟨0, 1, rfl, by decide⟩
  have c3 : HasContent [[1, 2], [3]] 3 (-1) := ⟨1, 0, rfl, by decide⟩
  refine ⟨R, A, hR, hA, ?_, ?_⟩
  · have h1 := hA' ⟨0, by omega⟩ ⟨0, by omega⟩
    have h2 := hY.2 1 (by omega) ⟨0, by omega⟩ ⟨0, by omega⟩ _ _ _ _ (by rw [ht]; rfl) (by rw [ht]; rfl) c2 c3
    simp only at h1
    rw [h1]
    refine h2.trans ?_
    rw [if_pos rfl]
    norm_num
  · have h1 := hA' ⟨0, by omega⟩ ⟨1, by omega⟩
    have h2 := hY.2 1 (by omega) ⟨0, by omega⟩ ⟨1, by omega⟩ _ [[1, 3], [2]] _ _ (by rw [ht]; rfl) (by rw [ht]; rfl) c2 c3
    simp only at h1
    rw [h1]
    refine h2.trans ?_
    rw [if_neg (by simp), if_pos]
    · rw [show (1 - 1 / (((-1 : Int) : ℝ) - ((1 : Int) : ℝ)) ^ 2) = 3 / 2 ^ 2 by norm_num, Real.sqrt_div (by norm_num),
        Real.sqrt_sq (by norm_num)]
    · intro r c
      rcases r with _ | _ | r <;> rcases c with _ | _ | c <;> simp [cell]

example := C23_matrix_of_product 5 (by omega) _ h32 _ _ hcyc hcyc'
example := C24_irrep_orthogonal 5 (by omega) _ h32 _ hcyc
example := C25_apply_left 5 (by omega) _ h32 ([0, 1, 2, 3, 4] : List Nat) (by decide) _ hcyc fun i k => (i : ℝ) - k
example := C25_apply_left 5 (by omega) _ h32 [(2, 0), (2, 1), (7, 3)] (by decide) _ hcyc fun i (k : Nat × Nat) => (i : ℝ) - k.1 * k.2
example := C25_apply_left_strided 5 (by omega) _ h32 12 1 3 4 (by omega) (by omega) _ hcyc fun i k => (i : ℝ) - k
example := C26_apply_left_cycle 5 (by omega) _ h32 ([0, 1, 2] : List Nat) (by decide) 4 2 (by omega) (by omega) fun i k => (i : ℝ) - k
example := C26_apply_left_inv_cycle 5 (by omega) _ h32 ([0, 1, 2] : List Nat) (by decide) 2 4 (by omega) (by omega) (by omega) fun i k => (i : ℝ) - k
example := C26_apply_left_transposition 5 (by omega) _ h32 ([0, 1, 2] : List Nat) (by decide) 5 2 (by omega) (by omega) fun i k => (i : ℝ) - k
example := C62_block_cycle_partial 5 (by omega) _ h32 ([0, 1, 2] : List Nat) (by decide) 2 5 (by omega) (by omega) (by omega) fun i k => (i : ℝ) - k
example := C27_transp_partial 5 (by omega) _ h32 2 5 (by omega) (by omega) (by omega)
example := C27_transp_wrong 5 (by omega) _ h32 5 2 (by omega) (by omega) (by omega)
example := C29_jucys_murphy 5 (by omega) _ h32 4 (by omega) (by omega)
example := C28_restriction_block_diagonal 5 (by omega) [3, 2, 1] ⟨by decide, by decide, by decide⟩ _ hcyc
example := C28_trivial 5 (by omega) _ hcyc
example := C28_sign 5 (by omega) (Equiv.swap 0 1 * cyc 2 4)

end Snob.Props
