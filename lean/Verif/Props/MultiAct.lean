import Verif.Proofs.MultiAct
import Verif.Props.Irrep
import Verif.Proofs.ViewNorm
import Verif.Proofs.FFTUp

/-! # Property C103: acting on some of the copies in a `SnMultiPart` -/

namespace Snob.Props

open Snob Snob.Perm

section
variable (n : Nat) (hn : 1 ≤ n) (p : List Nat) (hp : IsPartition n p)
include hn hp

/-- **C103.** `apply_inplace(sigma,o,s)` multiplies the copies `o,...,o+s-1` by `rho(sigma)` and leaves the others as
they were. -/
theorem C103_apply_inplace (P : MPart) (hR : mkIrrep p = some P.irrep) (hd : P.d = P.irrep.d) (a : Arr) (ha : IsPerm n a)
    (o s : Nat) (hos : o + s ≤ P.N) :
    ∃ A P', P.irrep.eval a = some A ∧ P.applyInplace a o s = some P' ∧ ActsOnCopies A o s P P' := by
  obtain ⟨R, A, Y, h1, h2, h3, h4⟩ := C25_apply_left n hn p hp (List.range' (o * P.m) (s * P.m)) List.nodup_range' a ha
    P.toMatrix
  obtain rfl : P.irrep = R := Option.some.inj (hR.symm.trans h1)
  refine ⟨A, _, h2, ?_, MPart.acts_ofMatrix hd h4⟩
  rw [MPart.applyInplace, MPart.blockCols_eq hos]
  simp only [Option.bind_eq_bind, Option.bind_some, h3]

/-- **C103.** `apply_inplace(cyc,o,s)` for a contiguous cycle from `a` up to `b`. -/
theorem C103_cycle_inplace_partial (P : MPart) (hR : mkIrrep p = some P.irrep) (hd : P.d = P.irrep.d) (a b : Int)
    (ha : 1 ≤ a) (hab : a ≤ b) (hb : b ≤ n) (o s : Nat) (hos : o + s ≤ P.N) :
    ∃ x A P', contiguousCycle n a b = some x ∧ P.irrep.eval x = some A ∧ P.applyCycleInplace a b o s = some P' ∧
      ActsOnCopies A o s P P' := by
  obtain ⟨R, x, A, Y, h1, hx, h2, h3, h4⟩ := C62_block_cycle_partial n hn p hp (List.range' (o * P.m) (s * P.m))
    List.nodup_range' a b ha hab hb P.toMatrix
  obtain rfl : P.irrep = R := Option.some.inj (hR.symm.trans h1)
  refine ⟨x, A, _, hx, h2, ?_, MPart.acts_ofMatrix hd h4⟩
  rw [MPart.applyCycleInplace, MPart.blockCols_eq hos]
  simp only [Option.bind_eq_bind, Option.bind_some, h3]

/-- **C103.** `apply_inplace_inv(cyc,o,s)` for a contiguous cycle from `a` up to `b` multiplies by the matrix of the inverse
of the cycle. -/
theorem C103_cycle_inv_inplace_partial (P : MPart) (hR : mkIrrep p = some P.irrep) (hd : P.d = P.irrep.d) (a b : Int)
    (ha : 1 ≤ a) (hab : a ≤ b) (hb : b ≤ n) (o s : Nat) (hos : o + s ≤ P.N) :
    ∃ x y A P', contiguousCycle n a b = some x ∧ inverse x = some y ∧ P.irrep.eval y = some A ∧
      P.applyCycleInvInplace a b o s = some P' ∧ ActsOnCopies A o s P P' := by
  obtain ⟨R, x, y, A, Y, h1, hx, hy, h2, h3, h4⟩ := C26_apply_left_inv_cycle n hn p hp (List.range' (o * P.m) (s * P.m))
    List.nodup_range' a b ha hab hb P.toMatrix
  obtain rfl : P.irrep = R := Option.some.inj (hR.symm.trans h1)
  refine ⟨x, y, A, _, hx, hy, h2, ?_, MPart.acts_ofMatrix hd h4⟩
  rw [MPart.applyCycleInvInplace, MPart.blockCols_eq hos]
  simp only [Option.bind_eq_bind, Option.bind_some, h3]

/-- **C103.** The two are inverse to each other: after `apply_inplace(cyc,o,s)` and `apply_inplace_inv(cyc,o,s)` the
entries are as before. -/
theorem C103_there_and_back (P : MPart) (hR : mkIrrep p = some P.irrep) (hd : P.d = P.irrep.d) (a b : Int)
    (ha : 1 ≤ a) (hab : a ≤ b) (hb : b ≤ n) (o s : Nat) (hos : o + s ≤ P.N) :
    ∃ P' P'', P.applyCycleInplace a b o s = some P' ∧ P'.applyCycleInvInplace a b o s = some P'' ∧
      P''.N = P.N ∧ P''.d = P.d ∧ P''.m = P.m ∧
      ∀ i c k, i < P.d → c < P.N → k < P.m → P''.data i (c, k) = P.data i (c, k) := by
  obtain ⟨x, A, P', hx, hA, hP', e1, e2, e3, e4, e5⟩ := C103_cycle_inplace_partial n hn p hp P hR hd a b ha hab hb o s hos
  obtain ⟨x', y, B, P'', hx', hy, hB, hP'', f1, f2, f3, f4, f5⟩ := C103_cycle_inv_inplace_partial n hn p hp P'
    (by rw [e4, hR]) (by rw [e2, e4, hd]) a b ha hab hb o s (by omega)
  obtain rfl : x = x' := Option.some.inj (hx.symm.trans hx')
  have hxp : IsPerm n x := by
    obtain ⟨a, rfl⟩ : ∃ z : Nat, a = (z : Int) + 1 := ⟨(a - 1).toNat, by omega⟩
    obtain ⟨b, rfl⟩ : ∃ z : Nat, b = (z : Int) + 1 := ⟨(b - 1).toNat, by omega⟩
    rw [contiguousCycle_up ⟨a, by omega⟩ ⟨b, by omega⟩ (by rw [Fin.le_def]; simp only; omega), Option.some.injEq] at hx
    exact ⟨_, hx.symm⟩
  obtain ⟨R, y', A', B', hR', hy', hA', hB', htr, -, horth⟩ := C24_irrep_orthogonal n hn p hp x hxp
  obtain rfl : P.irrep = R := Option.some.inj (hR.symm.trans hR')
  obtain rfl : y = y' := Option.some.inj (hy.symm.trans hy')
  obtain rfl : A = A' := Option.some.inj (hA.symm.trans hA')
  rw [e4] at hB
  obtain rfl : B = B' := Option.some.inj (hB.symm.trans hB')
  refine ⟨P', P'', hP', hP'', f1.trans e1, f2.trans e2, f3.trans e3, fun i c k hi hc hk => ?_⟩
  rw [f5 i c k (by omega) (by omega) (by omega)]
  by_cases hm : o ≤ c ∧ c < o + s
  · rw [if_pos hm]
    have hj : ∀ j ∈ Finset.range P.d, B i j * P'.data j (c, k) =
        ∑ l ∈ Finset.range P.d, A j i * A j l * P.data l (c, k) := by
      intro j hj
      have hj := Finset.mem_range.1 hj
      have ht : B i j = A j i := htr ⟨i, by omega⟩ ⟨j, by omega⟩
      rw [e5 j c k hj hc hk, if_pos hm, ht, Finset.sum_range (fun l => A j i * A j l * P.data l (c, k)), Finset.mul_sum]
      exact Finset.sum_congr rfl fun l _ => by ring
    rw [← Finset.sum_range (fun j => B i j * P'.data j (c, k)), e2, Finset.sum_congr rfl hj, Finset.sum_comm,
      Finset.sum_eq_single i]
    · rw [← Finset.sum_mul]
      have := horth ⟨i, by omega⟩ ⟨i, by omega⟩
      rw [if_pos rfl, ← Finset.sum_range (fun j => A j i * A j i), ← hd] at this
      rw [this, one_mul]
    · intro l hl hli
      have hl := Finset.mem_range.1 hl
      rw [← Finset.sum_mul]
      have := horth ⟨i, by omega⟩ ⟨l, by omega⟩
      rw [if_neg (fun h => hli (Fin.mk.inj h).symm), ← Finset.sum_range (fun j => A j i * A j l), ← hd] at this
      rw [this, zero_mul]
    · intro h; exact absurd (Finset.mem_range.2 hi) h
  · rw [if_neg hm, e5 i c k hi hc hk, if_neg hm]

/-- **C103, what `apply` does.** If `(o+s)*m ≤ N`, `apply(sigma,o,s)` multiplies the columns `(c,0)` for
`o*m ≤ c < (o+s)*m` by `rho(sigma)` instead of all the columns of the copies `o,...,o+s-1`. -/
theorem C103_apply_columns (P : MPart) (hR : mkIrrep p = some P.irrep) (hd : P.d = P.irrep.d) (hm : 0 < P.m) (a : Arr)
    (ha : IsPerm n a) (o s : Nat) (hos : (o + s) * P.m ≤ P.N) :
    ∃ A P', P.irrep.eval a = some A ∧ P.apply a o s = some P' ∧ P'.N = P.N ∧ P'.d = P.d ∧ P'.m = P.m ∧
      P'.irrep = P.irrep ∧
      ∀ i c k, i < P.d → c < P.N → k < P.m →
        P'.data i (c, k) = if k = 0 ∧ o * P.m ≤ c ∧ c < (o + s) * P.m then ∑ j : Fin P.d, A i j * P.data j (c, k)
          else P.data i (c, k) := by
  obtain ⟨R, A, Y, h1, h2, h3, h4⟩ := C25_apply_left n hn p hp (MPart.pairs (List.range' (o * P.m) (s * P.m)))
    (List.Nodup.map (fun x y h => (Prod.mk.inj h).1) List.nodup_range') a ha P.data
  obtain rfl : P.irrep = R := Option.some.inj (hR.symm.trans h1)
  have hcols : ∀ c, c ∈ List.range' (o * P.m) (s * P.m) ↔ o * P.m ≤ c ∧ c < (o + s) * P.m := by
    intro c; rw [List.mem_range'_1, Nat.add_mul]
  obtain ⟨v, hv, hH⟩ := (MPart.holds_memory (P := P)).sigma hd hm (fun j hj => by
    have := ((hcols j).1 hj).2; omega) h3
  refine ⟨A, P.ofMemory v, h2, by rw [MPart.apply, hv]; rfl, rfl, rfl, rfl, rfl, fun i c k hi hc hk => ?_⟩
  show (if i < P.d ∧ c < P.N ∧ k < P.m then (v[P.addr3 i c k]?).getD 0 else _) = _
  rw [if_pos ⟨hi, hc, hk⟩, hH.2 i c k hi hc hk, Option.getD_some]
  by_cases h : k = 0 ∧ o * P.m ≤ c ∧ c < (o + s) * P.m
  · rw [if_pos h, h4.1 i (c, k) (by omega) (List.mem_map.2 ⟨c, (hcols c).2 h.2, by rw [h.1]⟩), hd]
  · rw [if_neg h, h4.2 i (c, k)]
    rintro ⟨-, h'⟩
    obtain ⟨j, hj, e⟩ := List.mem_map.1 h'
    obtain ⟨rfl, rfl⟩ := Prod.mk.inj e
    exact h ⟨rfl, (hcols j).1 hj⟩

/-- **C103 (partial).** `apply(sigma,o,s)` is right if every copy has one column. Missing: more than one column, where it
acts on the wrong ones (`C103_apply_columns`, `C103_apply_wrong`) or outside the memory (`C103_apply_undefined`). -/
theorem C103_apply_partial (P : MPart) (hR : mkIrrep p = some P.irrep) (hd : P.d = P.irrep.d) (hm : P.m = 1) (a : Arr)
    (ha : IsPerm n a) (o s : Nat) (hos : o + s ≤ P.N) :
    ∃ A P', P.irrep.eval a = some A ∧ P.apply a o s = some P' ∧ ActsOnCopies A o s P P' := by
  obtain ⟨A, P', h1, h2, e1, e2, e3, e4, e5⟩ := C103_apply_columns n hn p hp P hR hd (by omega) a ha o s (by rw [hm]; omega)
  refine ⟨A, P', h1, h2, e1, e2, e3, e4, fun i c k hi hc hk => ?_⟩
  rw [e5 i c k hi hc hk, hm, Nat.mul_one, Nat.mul_one]
  simp only [show k = 0 by omega, true_and]

/-- **C103, negation.** If `N < (o+s)*m`, `apply(sigma,o,s)` for a permutation other than the identity reads outside the
memory of the tensor. -/
theorem C103_apply_undefined (P : MPart) (hR : mkIrrep p = some P.irrep) (hd : P.d = P.irrep.d) (hm : 0 < P.m)
    (σ : Equiv.Perm (Fin n)) (hσ : σ ≠ 1) (o s : Nat) (hs : 0 < s) (hos : P.N < (o + s) * P.m) :
    P.apply (enc σ) o s = none := by
  obtain ⟨R, hR', hl, h⟩ := exists_repr hn hp
  obtain rfl : P.irrep = R := Option.some.inj (hR.symm.trans hR')
  have hd0 : 0 < P.irrep.d := h.d_pos
  rw [MPart.apply, MPart.sigmaF_none hd (by omega) hs hm hos h.n_eq hσ MPart.holds_memory.1]
  rfl

/-- **C103, negation.** In particular for all copies of two or more columns. -/
theorem C103_apply_all_undefined (P : MPart) (hR : mkIrrep p = some P.irrep) (hd : P.d = P.irrep.d) (hN : 0 < P.N)
    (hm : 2 ≤ P.m) (σ : Equiv.Perm (Fin n)) (hσ : σ ≠ 1) : P.apply (enc σ) 0 P.N = none :=
  C103_apply_undefined n hn p hp P hR hd (by omega) σ hσ 0 P.N hN
    (by have := Nat.mul_le_mul_left P.N hm; rw [Nat.zero_add]; omega)

omit p hp in
/-- **C103.** `SnMultiVec::apply_inplace_inv(cyc,o,s)` acts on the copies `o,...,o+s-1` of every part. -/
theorem C103_vec_inv_partial (o s : Nat) (V : List MPart)
    (hV : ∀ P ∈ V, ∃ q, IsPartition n q ∧ mkIrrep q = some P.irrep ∧ P.d = P.irrep.d ∧ o + s ≤ P.N) (a b : Int)
    (ha : 1 ≤ a) (hab : a ≤ b) (hb : b ≤ n) :
    ∃ x y V', contiguousCycle n a b = some x ∧ inverse x = some y ∧ MPart.vecInvInplace V a b o s = some V' ∧
      V'.length = V.length ∧ ∀ (t : Nat) (P : MPart), V[t]? = some P → ∃ P' A, V'[t]? = some P' ∧
        P.irrep.eval y = some A ∧ ActsOnCopies A o s P P' := by
  obtain ⟨_, x, y, _, _, _, hx, hy, _⟩ := C26_apply_left_inv_cycle n hn [n] (isPartition_row hn) ([] : List Nat) (by simp)
    a b ha hab hb (fun _ _ => 0)
  obtain ⟨V', h1, h2, h3⟩ := mapM_exists (fun P : MPart => P.applyCycleInvInplace a b o s) V
    (fun _ P P' => ∃ A, P.irrep.eval y = some A ∧ ActsOnCopies A o s P P') (fun t P ht => by
      obtain ⟨q, hq, hR, hd, hos⟩ := hV P (List.mem_of_getElem? ht)
      obtain ⟨x', y', A, P', hx', hy', hA, hP', hact⟩ := C103_cycle_inv_inplace_partial n hn q hq P hR hd a b ha hab hb o s hos
      obtain rfl : x = x' := Option.some.inj (hx.symm.trans hx')
      obtain rfl : y = y' := Option.some.inj (hy.symm.trans hy')
      exact ⟨P', hP', A, hA, hact⟩)
  refine ⟨x, y, V', hx, hy, h1, h2, fun t P ht => ?_⟩
  obtain ⟨P', hP', A, hA, hact⟩ := h3 t P ht
  exact ⟨P', A, hP', hA, hact⟩

end

/-- **C103, negation.** For a contiguous cycle from `a` down to `b` the versions for cycles do nothing. -/
theorem C103_cycle_descending (P : MPart) (a b : Int) (hab : b < a) (o s : Nat) (hos : o + s ≤ P.N) :
    (∃ P', P.applyCycleInplace a b o s = some P' ∧ ∀ i c k, c < P.N → k < P.m → P'.data i (c, k) = P.data i (c, k)) ∧
    ∃ P', P.applyCycleInvInplace a b o s = some P' ∧ ∀ i c k, c < P.N → k < P.m → P'.data i (c, k) = P.data i (c, k) := by
  have key : ∀ i c k, c < P.N → k < P.m → (P.ofMatrix P.toMatrix).data i (c, k) = P.data i (c, k) := by
    intro i c k hc hk
    obtain ⟨e1, e2⟩ := MPart.div_mod (c := c) hk
    show (if c < P.N ∧ k < P.m then P.toMatrix i (c * P.m + k) else _) = _
    rw [if_pos ⟨hc, hk⟩]
    simp only [MPart.toMatrix, e1, e2]
  refine ⟨⟨_, ?_, key⟩, ⟨_, ?_, key⟩⟩
  · rw [MPart.applyCycleInplace, MPart.blockCols_eq hos]
    simp only [Option.bind_eq_bind, Option.bind_some, C62_block_cycle_descending _ _ a b hab]
  · rw [MPart.applyCycleInvInplace, MPart.blockCols_eq hos]
    simp only [Option.bind_eq_bind, Option.bind_some, IrrepObj.applyCycleInv, forUp_empty (le_of_lt hab)]

/-- **C103, negation, witness.** Two copies of two columns of the sign representation of `S2`, all entries `1`:
`apply(sigma,0,1)` for the transposition changes the sign of an entry of copy 1 and not of the second column of copy 0. -/
theorem C103_apply_wrong :
    ∃ R P', mkIrrep [1, 1] = some R ∧
      MPart.apply ⟨2, R.d, 2, R, fun _ _ => 1⟩ (enc (Equiv.swap (0 : Fin 2) 1)) 0 1 = some P' ∧
      P'.data 0 (1, 0) = -1 ∧ P'.data 0 (0, 1) = 1 := by
  obtain ⟨R, A, hR, hd, hA, h0⟩ := C28_sign 2 (by omega) (Equiv.swap 0 1)
  change mkIrrep [1, 1] = _ at hR
  obtain ⟨A', P', h1, h2, -, -, -, -, h3⟩ := C103_apply_columns 2 (by omega) [1, 1] (isPartition_col 2)
    ⟨2, R.d, 2, R, fun _ _ => 1⟩ hR rfl (by simp) _ ⟨Equiv.swap 0 1, rfl⟩ 0 1 (by simp)
  obtain rfl : A = A' := Option.some.inj (hA.symm.trans h1)
  refine ⟨R, P', hR, h2, ?_, ?_⟩
  · rw [h3 0 1 0 (by simp [hd]) (by simp) (by simp), if_pos (by simp)]
    simp only [mul_one]
    rw [← Finset.sum_range (fun j => A 0 j), hd, Finset.sum_range_one, h0, Equiv.Perm.sign_swap (by decide)]
    simp
  · rw [h3 0 0 1 (by simp [hd]) (by simp) (by simp), if_neg (by simp)]

/-- Three copies of two columns of the two-dimensional representation of `S3`: `apply_inplace` on copies 1 and 2. -/
example : ∃ P : MPart, mkIrrep [2, 1] = some P.irrep ∧ P.d = P.irrep.d ∧ P.N = 3 ∧ P.m = 2 ∧
    ∃ A P', P.irrep.eval (enc (Equiv.swap (0 : Fin 3) 2)) = some A ∧
      P.applyInplace (enc (Equiv.swap (0 : Fin 3) 2)) 1 2 = some P' ∧
      P'.data 0 (0, 1) = P.data 0 (0, 1) ∧ P'.data 0 (2, 1) = ∑ j : Fin P.d, A 0 j * P.data j (2, 1) := by
  have hp : IsPartition 3 [2, 1] := ⟨by simp, by simp, rfl⟩
  obtain ⟨R, hR, -, h⟩ := exists_repr (by omega) hp
  have hd := h.d_pos
  obtain ⟨A, P', h1, h2, -, -, -, -, h3⟩ := C103_apply_inplace 3 (by omega) _ hp ⟨3, R.d, 2, R, fun i k => i + k.1 * 10 + k.2⟩ hR rfl
    _ ⟨Equiv.swap 0 2, rfl⟩ 1 2 (by simp)
  exact ⟨_, hR, rfl, rfl, rfl, A, P', h1, h2, by rw [h3 0 0 1 hd (by simp) (by simp), if_neg (by simp)],
    by rw [h3 0 2 1 hd (by simp) (by simp), if_pos (by simp)]⟩

end Snob.Props
