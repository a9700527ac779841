import Verif.Proofs.FFTBad
import Verif.Proofs.TwoRow
import Verif.Proofs.ViewNorm

/-! # The transforms with the action on tensor views: the inverse does not undo the forward transform -/

namespace Snob

open IP Snob.Perm
open scoped Nat

/-! ## Cycles -/

theorem iterDown_last' {S : Type} {body : Int → S → Option S} (k : Nat) :
    ∀ (i : Int) (s s' : S), iterDown body (k + 1) i s = some s' → ∃ s0, iterDown body k i s = some s0 ∧ body (i - k) s0 = some s' := by
  induction k with
  | zero =>
    intro i s s' h
    rw [iterDown, Option.bind_eq_some_iff] at h
    obtain ⟨s1, h1, h2⟩ := h
    obtain rfl := Option.some.inj h2
    exact ⟨s, rfl, by simpa using h1⟩
  | succ k ih =>
    intro i s s' h
    rw [iterDown, Option.bind_eq_some_iff] at h
    obtain ⟨s1, h1, h2⟩ := h
    obtain ⟨s0, h3, h4⟩ := ih _ _ _ h2
    refine ⟨s0, ?_, ?_⟩
    · rw [iterDown, h1]; exact h3
    · have e : i - ((k + 1 : Nat) : Int) = i - 1 - k := by push_cast; ring
      rw [e]; exact h4

section
variable {l : Nat} {p : List Nat} {hp : IsPartition (l + 1) p} {R : IrrepObj}

theorem Repr'.cycle_norm {n : Nat} {hp : IsPartition n p} (h : Repr' hp R) {cols : List (Nat × Nat)} (hc : cols.Nodup) {a b : Int} {A B : Nat → Nat × Nat → ℝ}
    (hB : cycleWith viewAct R cols a b A = some B) (k : Nat × Nat) (hk : k ∈ cols) : colNorm R.d B k ≤ colNorm R.d A k :=
  cycleWith_keep (fun A' => colNorm R.d A' k ≤ colNorm R.d A k)
    (fun _ _ _ hA hAB => (h.view_norm hc hAB k hk).trans hA) hB (le_refl _)

theorem cycle_out {cols : List (Nat × Nat)} {a b : Int} {A B : Nat → Nat × Nat → ℝ}
    (hB : cycleWith viewAct R cols a b A = some B) (k : Nat × Nat) (hk : k ∉ cols) (r : Nat) : B r k = A r k :=
  cycleWith_keep (fun A' => A' r k = A r k) (fun _ _ _ hA hAB => applyTauView_out hk hAB hA) hB rfl

theorem cycle_empty (ap : ViewAct) {cols : List (Nat × Nat)} (a : Int) (A : Nat → Nat × Nat → ℝ) :
    cycleWith ap R cols a a A = some A := by
  unfold cycleWith
  rw [if_neg (by omega), forUp_empty (by omega)]

/-- packed transpositions act as they should -/
theorem Repr'.iter_exact (h : Repr' hp R) {cols : List (Nat × Nat)} (hc : cols.Nodup) (j : Nat) (hj : j ≤ l)
    (hpk : ∀ t : Nat, l + 1 - j ≤ t → t < l + 1 → Packed R.d (R.partner t)) {A B : Nat → Nat × Nat → ℝ}
    (hB : iterDown (fun i A => viewAct R cols i A) j (l : Int) A = some B) : B = act (h.rep (slicePerm l j)) cols A := by
  induction j generalizing B with
  | zero =>
    obtain rfl := Option.some.inj hB
    rw [slicePerm_zero, map_one, act_one]
  | succ j ih =>
    obtain ⟨B0, h1, h2⟩ := iterDown_last' j _ _ _ hB
    have e := ih (by omega) (fun t ht1 ht2 => hpk t (by omega) ht2) h1
    have ht : (l : Int) - (j : Int) = ((l - j : Nat) : Int) := by omega
    rw [ht] at h2
    have := h.view_packed_one hc h2 (hpk _ (by omega) (by omega))
    rw [this, e, slicePerm_succ (by omega), map_mul, act_mul, h.rep_adj (by omega), show l - (j + 1) + 1 = l - j by omega]

theorem cycle_down_eq (ap : ViewAct) {cols : List (Nat × Nat)} {j : Nat} (A : Nat → Nat × Nat → ℝ) :
    cycleWith ap R cols (((l + 1 : Nat) : Int) - j) ((l + 1 : Nat) : Int) A = iterDown (fun i A => ap R cols i A) j (l : Int) A := by
  unfold cycleWith
  split
  · unfold forDown
    have e1 : (((l + 1 : Nat) : Int) - 1 - (((l + 1 : Nat) : Int) - (j : Int)) + 1).toNat = j := by omega
    have e2 : ((l + 1 : Nat) : Int) - 1 = (l : Int) := by omega
    rw [e1, e2]
  · rename_i hlt
    obtain rfl : j = 0 := by omega
    rw [forUp_empty (by omega)]
    rfl

/-- the first unpacked transposition loses something -/
theorem Repr'.cycle_strict (h : Repr' hp R) {cols : List (Nat × Nat)} (hc : cols.Nodup) (j : Nat) (hj : j + 1 ≤ l)
    (hpk : ∀ t : Nat, l + 1 - j ≤ t → t < l + 1 → Packed R.d (R.partner t)) (hun : ¬ Packed R.d (R.partner ((l - j : Nat) : Int)))
    {A B : Nat → Nat × Nat → ℝ} (hB : cycleWith viewAct R cols (((l + 1 : Nat) : Int) - ((j + 1 : Nat) : Int)) ((l + 1 : Nat) : Int) A = some B)
    (k : Nat × Nat) (hk : k ∈ cols) (hne : act (h.rep (slicePerm l (j + 1))) cols A 0 k ≠ 0)
    (hrot : colNorm R.d (act (h.rep (slicePerm l j)) cols A) k ≤ colNorm R.d A k) :
    colNorm R.d B k < colNorm R.d A k := by
  rw [cycle_down_eq] at hB
  obtain ⟨B0, h1, h2⟩ := iterDown_last' j _ _ _ hB
  obtain rfl := h.iter_exact hc j (by omega) hpk h1
  have ht : (l : Int) - (j : Int) = ((l - j : Nat) : Int) := by omega
  rw [ht] at h2
  have := h.view_norm_gap hc h2 hun k hk
  rw [slicePerm_succ (by omega), map_mul, act_mul, h.rep_adj (by omega), show l - (j + 1) + 1 = l - j by omega] at hne
  have h0 := mul_self_pos.2 hne
  linarith

end

/-! ## One slice of the loops -/

theorem slice_loop {N' newN M : Nat} {body : Int → (Nat → Nat × Nat → ℝ) → Option (Nat → Nat × Nat → ℝ)}
    (hout : ∀ (j : Nat) (A B : Nat → Nat × Nat → ℝ), j < N' → body j A = some B → ∀ x, x ∉ sliceCols newN N' M j → ∀ r, B r x = A r x)
    {A A' : Nat → Nat × Nat → ℝ} (h : forUp 0 (N' : Int) A body = some A') (hN : 0 < N') (s k : Nat) :
    ∃ A1 B1, body ((s % N' : Nat) : Int) A1 = some B1 ∧ (∀ r, A1 r (s, k) = A r (s, k)) ∧ ∀ r, A' r (s, k) = B1 r (s, k) := by
  have hlt := Nat.mod_lt s hN
  have := forUp_pres (fun j (X : Nat → Nat × Nat → ℝ) => if ((s % N' : Nat) : Int) < j then
      ∃ A1 B1, body ((s % N' : Nat) : Int) A1 = some B1 ∧ (∀ r, A1 r (s, k) = A r (s, k)) ∧ ∀ r, X r (s, k) = B1 r (s, k)
    else ∀ r, X r (s, k) = A r (s, k)) (by omega) h (by rw [if_neg (by omega)]; exact fun _ => rfl) (by
      intro i X Y hi1 hi2 hX hY
      obtain ⟨j, rfl⟩ := Int.eq_ofNat_of_zero_le hi1
      have hj : j < N' := by omega
      by_cases e : s % N' = j
      · rw [if_neg (by omega)] at hX
        rw [if_pos (by omega)]
        exact ⟨X, Y, by rw [e]; exact hY, hX, fun _ => rfl⟩
      · have ho := hout j X Y hj hY (s, k) (fun hm => e ((mem_sliceCols hj s k).1 hm).2.1)
        by_cases e' : s % N' < j
        · rw [if_pos (by omega)] at hX ⊢
          obtain ⟨A1, B1, a1, a2, a3⟩ := hX
          exact ⟨A1, B1, a1, a2, fun r => (ho r).trans (a3 r)⟩
        · rw [if_neg (by omega)] at hX ⊢
          exact fun r => (ho r).trans (hX r))
  rw [if_pos (by omega)] at this
  exact this

theorem twistUp_slice {l newN : Nat} {q Q : MPart} (h : twistUp viewAct (l + 1) newN q = some Q) (s k : Nat) :
    ∃ A1 B1, cycleWith viewAct q.irrep (sliceCols newN (l + 1) q.m (s % (l + 1))) (((l + 1 : Nat) : Int) - ((s % (l + 1) : Nat) : Int))
      ((l + 1 : Nat) : Int) A1 = some B1 ∧ (∀ r, A1 r (s, k) = q.data r (s, k)) ∧ ∀ r, Q.data r (s, k) = B1 r (s, k) := by
  obtain ⟨-, -, -, h⟩ := twistUp_some h
  have := slice_loop (newN := newN) (N' := l + 1) (M := q.m) (A := q.data) (A' := Q.data)
    (body := fun j A => cycleWith viewAct q.irrep (sliceCols newN (l + 1) q.m j.toNat) (((l + 1 : Nat) : Int) - j) ((l + 1 : Nat) : Int) A)
    (fun j A B hj hB x hx r => cycle_out hB x (by simpa using hx) r) h (by omega) s k
  simp only [Int.toNat_natCast] at this
  exact this

theorem twistDown_some {ap : ViewAct} {n N : Nat} {q Q : MPart} (h : twistDown ap n N q = some Q) :
    Q.irrep = q.irrep ∧ Q.m = q.m ∧ Q.N = q.N ∧ Q.d = q.d ∧
      forUp 0 ((n : Int) + 1) q.data (fun j A => cycleWith ap q.irrep (sliceCols N (n + 1) q.m j.toNat) ((n : Int) + 1) ((n : Int) + 1 - j) A) =
        some Q.data := by
  unfold twistDown at h
  simp only [Option.bind_eq_bind, Option.bind_eq_some_iff] at h
  obtain ⟨A, hA, h⟩ := h
  obtain rfl := Option.some.inj h
  exact ⟨rfl, rfl, rfl, rfl, hA⟩

theorem twistDown_slice {l N : Nat} {q Q : MPart} (h : twistDown viewAct l N q = some Q) (s k : Nat) :
    ∃ A1 B1, cycleWith viewAct q.irrep (sliceCols N (l + 1) q.m (s % (l + 1))) ((l : Int) + 1) ((l : Int) + 1 - ((s % (l + 1) : Nat) : Int)) A1 = some B1 ∧
      (∀ r, A1 r (s, k) = q.data r (s, k)) ∧ ∀ r, Q.data r (s, k) = B1 r (s, k) := by
  obtain ⟨-, -, -, -, h⟩ := twistDown_some h
  have e : (l : Int) + 1 = ((l + 1 : Nat) : Int) := by push_cast; rfl
  have := slice_loop (newN := N) (N' := l + 1) (M := q.m) (A := q.data) (A' := Q.data)
    (body := fun j A => cycleWith viewAct q.irrep (sliceCols N (l + 1) q.m j.toNat) ((l : Int) + 1) ((l : Int) + 1 - j) A)
    (fun j A B hj hB x hx r => cycle_out hB x (by simpa using hx) r) (by rw [← e]; exact h) (by omega) s k
  simp only [Int.toNat_natCast] at this
  exact this

section
variable {l : Nat} {p : List Nat} {hp : IsPartition (l + 1) p}

theorem colNorm_congr {d : Nat} {K : Type} {A B : Nat → K → ℝ} {k : K} (h : ∀ r, A r k = B r k) : colNorm d A k = colNorm d B k := by
  unfold colNorm
  exact Finset.sum_congr rfl fun r _ => by rw [h r]

theorem twistUp_norm {newN : Nat} {q Q : MPart} (hq : Repr' hp q.irrep) (h : twistUp viewAct (l + 1) newN q = some Q) {s k : Nat}
    (hs : s < newN * (l + 1)) (hk : k < q.m) : colNorm q.irrep.d Q.data (s, k) ≤ colNorm q.irrep.d q.data (s, k) := by
  obtain ⟨A1, B1, h1, h2, h3⟩ := twistUp_slice h s k
  rw [colNorm_congr h3, ← colNorm_congr h2]
  exact hq.cycle_norm (sliceCols_nodup (by omega)) h1 _ ((mem_sliceCols (Nat.mod_lt _ (by omega)) s k).2 ⟨hs, rfl, hk⟩)

theorem twistUp_zero_slice {newN : Nat} {q Q : MPart} (h : twistUp viewAct (l + 1) newN q = some Q) {s : Nat} (hs : s % (l + 1) = 0) (k r : Nat) :
    Q.data r (s, k) = q.data r (s, k) := by
  obtain ⟨A1, B1, h1, h2, h3⟩ := twistUp_slice h s k
  rw [hs] at h1
  simp only [Nat.cast_zero, sub_zero] at h1
  rw [cycle_empty] at h1
  obtain rfl := Option.some.inj h1
  rw [h3, h2]

theorem twistDown_norm {N : Nat} {q Q : MPart} (hq : Repr' hp q.irrep) (h : twistDown viewAct l N q = some Q) {s k : Nat}
    (hs : s < N * (l + 1)) (hk : k < q.m) : colNorm q.irrep.d Q.data (s, k) ≤ colNorm q.irrep.d q.data (s, k) := by
  obtain ⟨A1, B1, h1, h2, h3⟩ := twistDown_slice h s k
  rw [colNorm_congr h3, ← colNorm_congr h2]
  exact hq.cycle_norm (sliceCols_nodup (by omega)) h1 _ ((mem_sliceCols (Nat.mod_lt _ (by omega)) s k).2 ⟨hs, rfl, hk⟩)

theorem twistDown_zero_slice {N : Nat} {q Q : MPart} (h : twistDown viewAct l N q = some Q) {s : Nat} (hs : s % (l + 1) = 0) (k r : Nat) :
    Q.data r (s, k) = q.data r (s, k) := by
  obtain ⟨A1, B1, h1, h2, h3⟩ := twistDown_slice h s k
  rw [hs] at h1
  simp only [Nat.cast_zero, sub_zero] at h1
  rw [cycle_empty] at h1
  obtain rfl := Option.some.inj h1
  rw [h3, h2]

/-- the length of a column in terms of words -/
theorem Repr'.colNorm_eq {R : IrrepObj} (h : Repr' hp R) {K : Type} (A : Nat → K → ℝ) (k : K) :
    colNorm R.d A k = ∑ u : Wd (l + 1) p, A (rowIx (l + 1) p u.1) k * A (rowIx (l + 1) p u.1) k := by
  unfold colNorm
  rw [Finset.sum_range (fun r => A r k * A r k), ← Equiv.sum_comp h.eqv]
  refine Finset.sum_congr rfl fun i _ => ?_
  rw [h.eqv_rowIx]

theorem Repr'.entry_le {R : IrrepObj} (h : Repr' hp R) {K : Type} (A : Nat → K → ℝ) (k : K) (u : Wd (l + 1) p) :
    A (rowIx (l + 1) p u.1) k * A (rowIx (l + 1) p u.1) k ≤ colNorm R.d A k := by
  rw [h.colNorm_eq]
  exact Finset.single_le_sum (f := fun u : Wd (l + 1) p => A (rowIx (l + 1) p u.1) k * A (rowIx (l + 1) p u.1) k)
    (fun _ _ => mul_self_nonneg _) (Finset.mem_univ u)

end

end Snob
