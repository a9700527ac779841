import Verif.Proofs.ViewFlat
import Verif.Props.FFTFive

/-! # Property C120: the tables of the tensor action stay in their memory -/

namespace Snob.Props

open Snob Snob.Perm Snob.IP
open scoped Nat

theorem tables_match {p : List Nat} {R : IrrepObj} (h : mkIrrep p = some R) : R.d = R.tableaux.length := by
  unfold mkIrrep at h
  simp only [Option.bind_eq_bind, Option.bind_eq_some_iff] at h
  obtain ⟨ts, -, yor, -, h⟩ := h
  obtain rfl := Option.some.inj h
  rfl

/-- **C120.** Writing past the end of a row of the tables matters only if it happens: wherever the tables with checked rows give a
result, so do the tables in memory, and it is the same. -/
theorem C120_same {p : List Nat} {R : IrrepObj} (h : mkIrrep p = some R) {K : Type} [DecidableEq K] (cols : List K) (tau : Int) (X Y : Nat → K → ℝ)
    (hY : R.applyTauView cols tau X = some Y) : R.applyTauFlat cols tau X = some Y := flat_of_view (tables_match h) hY

/-- **C120.** Full statement: the action on tensor views writes only inside its tables, for every partition. This is false
(`C120_outside`). What holds: it is true for `n≤5`, and the tables are then used row by row. -/
theorem C120_inside_partial (n : Nat) (hn : 1 ≤ n) (h5 : n ≤ 5) (p : List Nat) (hp : IsPartition n p) :
    ∃ R, mkIrrep p = some R ∧ ∀ {K : Type} [DecidableEq K] (cols : List K) (tau : Int) (X : Nat → K → ℝ), 1 ≤ tau → tau < n →
      ∃ Y, R.applyTauFlat cols tau X = some Y ∧ R.applyTauView cols tau X = some Y := by
  obtain ⟨R, hR, -, h⟩ := exists_repr hn hp
  refine ⟨R, hR, fun {K} _ cols tau X h1 h2 => ?_⟩
  obtain ⟨tabs, e1, e2⟩ := SmallIrrep.tables ⟨n, p, hp, hn, h5, h⟩
  have hlt : (tau - 1).toNat < tabs.length := by rw [e2, h.n_eq]; omega
  have hv : ∃ Y, R.applyTauView cols tau X = some Y := by
    unfold IrrepObj.applyTauView
    rw [if_pos ⟨h1, by rw [h.n_eq]; exact h2⟩, e1]
    simp only [List.getElem?_eq_getElem hlt]
    exact ⟨_, rfl⟩
  obtain ⟨Y, hY⟩ := hv
  exact ⟨Y, C120_same hR cols tau X Y hY, hY⟩

/-- **C120.** For the shape `[3,2,1]` every call leaves the block of memory of the tables. -/
theorem C120_outside :
    ∃ R, mkIrrep [3, 2, 1] = some R ∧ ∀ (cols : List (Nat × Nat)) (tau : Int) (X : Nat → Nat × Nat → ℝ), R.applyTauFlat cols tau X = none := by
  obtain ⟨R, hR, _⟩ := exists_repr (n := 6) (by omega) isPartition_321
  exact ⟨R, hR, fun cols tau X => flatAct_fails R hR cols tau X⟩

/-- **C120.** So for `n≥6` and `m≤3` (`m=1`: functions on `Sn`) the forward transform leaves the block. -/
theorem C120_fft_outside (n m : Nat) (hm : 1 ≤ m) (hm3 : m ≤ 3) (hn : 6 ≤ n) (f : Nat → ℝ) : fftFlat n m f = none := by
  unfold fftFlat
  cases h : fftLevels n m with
  | none => rfl
  | some Ls => exact fftWith_321_of flatAct_fails (by omega) hm3 hn h _ f

/-- **C120.** And so does the inverse transform of a vector of the right shape. -/
theorem C120_ifft_outside (n : Nat) (hn : 6 ≤ n) (ws : List VPart) (hs : HasShape allCols (partitions n) ws) : ifftFlat n 1 ws = none := by
  unfold ifftFlat
  cases h : fftLevels n 1 with
  | none => rfl
  | some Ls =>
    rw [Option.bind_eq_bind, Option.bind_some]
    refine ifftWith_321_of flatAct_fails (by omega) (by omega) hn h ?_
    obtain ⟨h1, h2⟩ := hs
    have hpos : 0 < (partitions n).length := List.length_pos_of_mem ((mem_partitions n (by omega) [n]).2 (isPartition_row (by omega)))
    rcases Nat.eq_or_lt_of_le hn with e | e
    · subst e
      obtain ⟨i, hi⟩ := List.mem_iff_getElem?.1 ((mem_partitions 6 (by omega) [3, 2, 1]).2 isPartition_321)
      have hlt : i < ws.length := by rw [h1]; exact (List.getElem?_eq_some_iff.1 hi).1
      exact ⟨ws[i], List.getElem_mem hlt, Or.inl (h2 i _ _ hi (List.getElem?_eq_getElem hlt)).1⟩
    · exact ⟨ws[0]'(by omega), List.getElem_mem _, Or.inr e⟩

/-- **C120.** For `n≤5` the transforms with the tables in memory are those of C37, C38 and C40. -/
theorem C120_fft_partial (n m : Nat) (hm : 1 ≤ m) (hn : m < n ∨ m = 1 ∧ n = 1) (h5 : n ≤ 5) (f : Nat → ℝ) :
    ∃ ws, fftFlat n m f = some ws ∧ fftSnSm n m f = some ws := by
  obtain ⟨ws, h1, -⟩ := fft_some n m hm hn h5 f
  refine ⟨ws, ?_, h1⟩
  obtain ⟨Ls, e1, e2, e3⟩ := fftLevels_ok hm (show m ≤ n by omega)
  unfold fftSnSm at h1
  unfold fftFlat
  rw [e1, Option.bind_eq_bind, Option.bind_some] at h1 ⊢
  refine Extends.fft (S := SmallIrrep) (ap := viewAct) (ap' := flatAct) ?_
    (fun L hL => chain_small hm e3 (le_refl m) (by omega) L (List.mem_of_mem_tail hL)) h1
  rintro R ⟨k, p, hp, k1, -, hR⟩ cols tau A B h
  exact flat_of_view (by rw [hR.tab, hR.d_eq, List.length_map]) h

/-- **C120.** Likewise for the inverse transform. -/
theorem C120_ifft_partial (n m : Nat) (hm : 1 ≤ m) (hn : m < n ∨ m = 1 ∧ n = 1) (h5 : n ≤ 5) (ws : List VPart)
    (hs : HasShape (cosetCols m) (cosetShapes m n) ws) :
    ∃ Ls g, fftLevels n m = some Ls ∧ ifftFlat n m ws = some (snsmSize n m, g) ∧ ifftWith viewAct Ls ws = some (snsmSize n m, g) := by
  obtain ⟨Ls, g, h1, -, h2⟩ := ifft_some n m hm hn h5 hs
  obtain ⟨Ls', e1, e2, e3⟩ := fftLevels_ok hm (show m ≤ n by omega)
  obtain rfl : Ls' = Ls := Option.some.inj (e1.symm.trans h1)
  refine ⟨Ls', g, h1, ?_, h2⟩
  unfold ifftFlat
  rw [e1, Option.bind_eq_bind, Option.bind_some]
  refine Extends.ifft (S := SmallIrrep) (ap := viewAct) (ap' := flatAct) ?_
    (chain_small hm e3 (le_refl m) (by omega)) (shape_small (by omega) h5 hs) h2
  rintro R ⟨k, p, hp, k1, -, hR⟩ cols tau A B h
  exact flat_of_view (by rw [hR.tab, hR.d_eq, List.length_map]) h

/-- **C120.** At `n=5` memory is not left, and what the transform returns is nevertheless wrong. -/
theorem C120_five_wrong :
    ∃ c < snSize 5, ∃ ws, fftFlat 5 1 (fun e => if e = c then 1 else 0) = some ws ∧ HasShape allCols (partitions 5) ws ∧
      ¬ IsTransform (snSize 5) (fun c => element 5 c) (fun e => if e = c then 1 else 0) allCols ws := by
  obtain ⟨c, hc, ws, h1, h2, h3⟩ := C37_fft_silently_wrong
  obtain ⟨ws', k1, k2⟩ := C120_fft_partial 5 1 (by omega) (by omega) (by omega) (fun e => if e = c then 1 else 0)
  rw [← fft_eq_snsm] at k2
  obtain rfl : ws' = ws := Option.some.inj (k2.symm.trans h1)
  exact ⟨c, hc, ws', k1, h2, h3⟩

/-- **C120.** The repair: if `computeYORtensors` wrote each rotation to the next free slot of its row, nothing would be written outside a
row, and the forward transform would be the Fourier transform and `inv_snsm` its inverse, for all `n` and `m` (`m=1`: functions on
`Sn`). -/
theorem C120_next_free (n m : Nat) (hm : 1 ≤ m) (hn : m < n ∨ m = 1 ∧ n = 1) (f : Nat → ℝ) :
    ∃ Ls ws, fftLevels n m = some Ls ∧ fftWith nextAct Ls (n ! / m !) f = some ws ∧ HasShape (cosetCols m) (cosetShapes m n) ws ∧
      IsTransform (snsmSize n m) (fun c => snsmElement n m c) f (cosetCols m) ws ∧
      ∃ g, ifftWith nextAct Ls ws = some (snsmSize n m, g) ∧ ∀ e < snsmSize n m, g e = f e := by
  obtain ⟨Ls, ws, h1, -, h3, h4, h5, h6⟩ := forward_of_act nextAct n m hm hn (fun k _ _ => nextAct_ok m k) f
  exact ⟨Ls, ws, h1, h3, h4, h5, h6⟩

/-- **C120.** With the repair the action on tensor views is the action on matrices, for every partition. -/
theorem C120_next_free_action (n : Nat) (hn : 1 ≤ n) (p : List Nat) (hp : IsPartition n p) :
    ∃ R, mkIrrep p = some R ∧ ∀ (cols : List (Nat × Nat)), cols.Nodup → ∀ (X : Nat → Nat × Nat → ℝ) (tau : Nat), 1 ≤ tau → tau < n →
      ∃ Y, R.applyTau cols tau X = some Y ∧ nextAct R cols tau X = some Y := by
  obtain ⟨R, hR, _, h⟩ := exists_repr hn hp
  exact ⟨R, hR, fun cols hc X tau h1 h2 => ⟨_, applyTau_eq (h.slotSpec h1 h2) cols hc X, h.next_act cols hc h1 h2 X⟩⟩

/-! ### examples -/

example := C120_inside_partial 5 (by omega) (by omega) [3, 2] isPartition_32
example (f : Nat → ℝ) := C120_fft_outside 7 2 (by omega) (by omega) (by omega) f
example (f : Nat → ℝ) := C120_fft_partial 5 2 (by omega) (by omega) (by omega) f
example := C120_next_free_action 6 (by omega) [3, 2, 1] isPartition_321
example (f : Nat → ℝ) := C120_next_free 9 4 (by omega) (by omega) f

end Snob.Props
