import Verif.Proofs.FFTBad
import Verif.Proofs.FFTLift
import Verif.Proofs.SnCosets
import Verif.Proofs.TwoRow
import Verif.Proofs.FFTLossEnd
import Verif.Proofs.FFTLin

/-! # Properties C37, C38, C40: the fast Fourier transform -/

namespace Snob.Props

open Snob Snob.Perm Snob.IP
open scoped Nat

/-- all columns of an irrep -/
abbrev allCols (R : IrrepObj) : List Nat := List.range R.d

/-- the columns of an irrep whose tableaux have `1..m` in the first row -/
noncomputable abbrev cosetCols (m : Nat) (R : IrrepObj) : List Nat := startCols m R.tableaux

/-- the partitions of `n` with a first row of length at least `m`, in listing order -/
abbrev cosetShapes (m n : Nat) : List (List Nat) := (partitions n).filter fun p => decide (m ≤ row p 0)

theorem hasShape_one {n : Nat} (hn : 1 ≤ n) (ws : List VPart) :
    HasShape (cosetCols 1) (cosetShapes 1 n) ws ↔ HasShape allCols (partitions n) ws := by
  have e : cosetShapes 1 n = partitions n := PL_one n hn
  rw [e]
  unfold HasShape
  refine and_congr_right fun _ => forall_congr' fun i => forall_congr' fun p => forall_congr' fun W => ?_
  refine forall_congr' fun hi => forall_congr' fun _ => and_congr_right fun hmk => and_congr_right fun _ => ?_
  obtain ⟨R, hR, -, h⟩ := exists_repr hn ((mem_partitions n hn p).1 (List.mem_of_getElem? hi))
  obtain rfl : R = W.irrep := Option.some.inj (hR.symm.trans hmk)
  show W.m = (startCols 1 W.irrep.tableaux).length ↔ _
  rw [h.startCols_one hn]

theorem isTransform_one {n : Nat} (hn : 1 ≤ n) {f : Nat → ℝ} {ws : List VPart}
    (hs : HasShape allCols (partitions n) ws)
    (h : IsTransform (snsmSize n 1) (fun c => snsmElement n 1 c) f (cosetCols 1) ws) :
    IsTransform (snSize n) (fun c => element n c) f allCols ws := by
  intro W hW
  have hsz : snsmSize n 1 = snSize n := by simp [snsmSize, snSize]
  obtain ⟨ρ, h1, h2⟩ := h W hW
  rw [hsz] at h1 h2
  obtain ⟨i, hi⟩ := List.mem_iff_getElem?.1 hW
  have hi' : i < (partitions n).length := by rw [← hs.1]; exact (List.getElem?_eq_some_iff.1 hi).1
  obtain ⟨hmk, -, -⟩ := hs.2 i _ W (List.getElem?_eq_getElem hi') hi
  obtain ⟨R, hR, -, hr⟩ := exists_repr hn ((mem_partitions n hn _).1 (List.getElem_mem hi'))
  obtain rfl : R = W.irrep := Option.some.inj (hR.symm.trans hmk)
  have hcol : cosetCols 1 W.irrep = allCols W.irrep := hr.startCols_one hn
  refine ⟨ρ, fun c hc => ?_, by rw [← hcol]; exact h2⟩
  obtain ⟨s, t, a1, a2⟩ := h1 c hc
  refine ⟨s, t, ?_, a2⟩
  rw [← a1]
  show element n c = snsmElement n 1 c
  rw [snsmElement_eq n 1 hn c (by rw [hsz]; exact hc), element_eq n c hc]
  simp

theorem isTransform_of_one {n : Nat} (hn : 1 ≤ n) {f : Nat → ℝ} {ws : List VPart}
    (hs : HasShape allCols (partitions n) ws)
    (h : IsTransform (snsmSize n 1) (fun c => element n c) f allCols ws) :
    IsTransform (snsmSize n 1) (fun c => snsmElement n 1 c) f (cosetCols 1) ws := by
  intro W hW
  have hsz : snsmSize n 1 = snSize n := by simp [snsmSize, snSize]
  obtain ⟨ρ, h1, h2⟩ := h W hW
  obtain ⟨i, hi⟩ := List.mem_iff_getElem?.1 hW
  have hi' : i < (partitions n).length := by rw [← hs.1]; exact (List.getElem?_eq_some_iff.1 hi).1
  obtain ⟨hmk, -, -⟩ := hs.2 i _ W (List.getElem?_eq_getElem hi') hi
  obtain ⟨R, hR, -, hr⟩ := exists_repr hn ((mem_partitions n hn _).1 (List.getElem_mem hi'))
  obtain rfl : R = W.irrep := Option.some.inj (hR.symm.trans hmk)
  have hcol : cosetCols 1 W.irrep = allCols W.irrep := hr.startCols_one hn
  refine ⟨ρ, fun c hc => ?_, by rw [hcol]; exact h2⟩
  obtain ⟨s, t, a1, a2⟩ := h1 c hc
  refine ⟨s, t, ?_, a2⟩
  rw [← a1]
  show snsmElement n 1 c = element n c
  rw [snsmElement_eq n 1 hn c hc, element_eq n c (by rw [← snSize, ← hsz]; exact hc)]
  simp

section
variable (ap : ViewAct) (n m : Nat) (hm : 1 ≤ m) (hn : m < n ∨ m = 1 ∧ n = 1)
  (hap : ∀ k, m < k → k ≤ n → ActOk ap m k)
include hm hn hap

theorem forward_of_act (f : Nat → ℝ) :
    ∃ Ls ws, fftLevels n m = some Ls ∧ Ls.length = n - m + 1 ∧ fftWith ap Ls (n ! / m !) f = some ws ∧
      HasShape (cosetCols m) (cosetShapes m n) ws ∧
      IsTransform (snsmSize n m) (fun c => snsmElement n m c) f (cosetCols m) ws ∧
      ∃ g, ifftWith ap Ls ws = some (snsmSize n m, g) ∧ ∀ e < snsmSize n m, g e = f e := by
  obtain ⟨Ls, ws, h1, h2, h3, h4, h5⟩ := fft_spec (ap := ap) f hm hn hap
  obtain ⟨Ls', g, k1, k2, k3⟩ := ifftWith_eq (ap := ap) f hm (by omega) hap h4 (fun _ => h5)
  obtain rfl : Ls' = Ls := Option.some.inj (k1.symm.trans h1)
  exact ⟨Ls', ws, h1, h2, h3, h4.hasShape hm (by omega) h5, h4.isTransform hm (by omega) h5, g, k2, k3⟩

theorem backward_of_act (ws : List VPart) (hs : HasShape (cosetCols m) (cosetShapes m n) ws) :
    ∃ Ls g ws', fftLevels n m = some Ls ∧ Ls.length = n - m + 1 ∧ ifftWith ap Ls ws = some (snsmSize n m, g) ∧
      fftWith ap Ls (n ! / m !) g = some ws' ∧ SameVec ws ws' := by
  obtain ⟨Ls, g, h1, h2, h3, h4⟩ := ifft_spec (ap := ap) hm hn hap hs
  obtain ⟨Ls', ws', k1, k2, k3, k4, k5⟩ := fft_spec (ap := ap) g hm hn hap
  obtain rfl : Ls' = Ls := Option.some.inj (k1.symm.trans h1)
  exact ⟨Ls', g, ws', h1, h2, h3, k3, h4.same hm (by omega) k4 (fun i p W a b => (hs.2 i p W a b).1) k5⟩

end

/-! ## C37, C38: the transform on `Sn` -/

section
variable (n : Nat) (hn : 1 ≤ n)
include hn

/-- **C37.** With the action of the irreps used for matrices in place of the one for tensor views (C32), for every `n`
and every `f` the forward transform has one part per partition, in listing order, and its part at `ρ` is the sum of the
`f(s) ρ(s⁻¹)`. -/
theorem C37_fft_reference (f : Nat → ℝ) :
    ∃ Ls ws, fftLevels n 1 = some Ls ∧ fftWith matAct Ls (snSize n) f = some ws ∧
      HasShape allCols (partitions n) ws ∧ IsTransform (snSize n) (fun c => element n c) f allCols ws := by
  obtain ⟨Ls, ws, h1, -, h3, h4, h5, -⟩ := forward_of_act matAct n 1 (by omega) (by omega) (fun k _ _ => matAct_ok 1 k) f
  rw [hasShape_one hn] at h4
  exact ⟨Ls, ws, h1, by simpa [snSize] using h3, h4, isTransform_one hn h4 h5⟩

/-- **C37.** Full statement: for every `n` and every `f`, `ClausenFFT(n)(f)` is the Fourier transform of `f`. This is
false for every `n≥5` (`C37_fft_wrong`, `C37_fft_undefined`), since the transform uses the action on tensor views.
What holds: it is true for `n≤4`. -/
theorem C37_fft_partial (h4 : n ≤ 4) (f : Nat → ℝ) :
    ∃ ws, fft n f = some ws ∧
      HasShape allCols (partitions n) ws ∧ IsTransform (snSize n) (fun c => element n c) f allCols ws := by
  obtain ⟨Ls, ws, h1, -, h3, h4, h5, -⟩ := forward_of_act viewAct n 1 (by omega) (by omega)
    (fun k _ _ => viewAct_ok (by omega) (by omega)) f
  rw [hasShape_one hn] at h4
  refine ⟨ws, ?_, h4, isTransform_one hn h4 h5⟩
  unfold fft
  rw [h1]
  simpa using h3

/-- **C38.** With the action of the irreps used for matrices, `inv` undoes the forward transform. -/
theorem C38_inverse_after_forward_reference (f : Nat → ℝ) :
    ∃ Ls ws g, fftLevels n 1 = some Ls ∧ Ls.length = n ∧ fftWith matAct Ls (snSize n) f = some ws ∧
      ifftWith matAct Ls ws = some (snSize n, g) ∧ ∀ e < snSize n, g e = f e := by
  obtain ⟨Ls, ws, h1, h2, h3, -, -, g, h6, h7⟩ := forward_of_act matAct n 1 (by omega) (by omega) (fun k _ _ => matAct_ok 1 k) f
  have hsz : snsmSize n 1 = snSize n := by simp [snsmSize, snSize]
  rw [hsz] at h6 h7
  exact ⟨Ls, ws, g, h1, by omega, by simpa [snSize] using h3, h6, h7⟩

/-- **C38.** With the action of the irreps used for matrices, the forward transform undoes `inv`. -/
theorem C38_forward_after_inverse_reference (ws : List VPart) (hs : HasShape allCols (partitions n) ws) :
    ∃ Ls g ws', fftLevels n 1 = some Ls ∧ ifftWith matAct Ls ws = some (snSize n, g) ∧
      fftWith matAct Ls (snSize n) g = some ws' ∧ SameVec ws ws' := by
  rw [← hasShape_one hn] at hs
  obtain ⟨Ls, g, ws', h1, -, h3, h4, h5⟩ := backward_of_act matAct n 1 (by omega) (by omega) (fun k _ _ => matAct_ok 1 k) ws hs
  have hsz : snsmSize n 1 = snSize n := by simp [snsmSize, snSize]
  rw [hsz] at h3
  exact ⟨Ls, g, ws', h1, h3, by simpa [snSize] using h4, h5⟩

/-- **C38.** Full statement: `inv` undoes the forward transform for every `n`. This is false for every `n≥5`
(`C38_inverse_after_forward_wrong`; for `n≥6` both are undefined). What holds: it is true for `n≤4`. -/
theorem C38_inverse_after_forward_partial (h4 : n ≤ 4) (f : Nat → ℝ) :
    ∃ ws g, fft n f = some ws ∧ ifft n ws = some (n, snSize n, g) ∧ ∀ e < snSize n, g e = f e := by
  obtain ⟨Ls, ws, h1, h2, h3, -, -, g, h6, h7⟩ := forward_of_act viewAct n 1 (by omega) (by omega)
    (fun k _ _ => viewAct_ok (by omega) (by omega)) f
  have hsz : snsmSize n 1 = snSize n := by simp [snsmSize, snSize]
  rw [hsz] at h6 h7
  refine ⟨ws, g, ?_, ?_, h7⟩
  · unfold fft; rw [h1]; simpa using h3
  · unfold ifft; rw [h1]; simp [h6]; omega

/-- **C38.** Full statement: the forward transform undoes `inv` for every `n`. This is false for every `n≥5`
(`C38_forward_after_inverse_wrong`). What holds: it is true for `n≤4`. -/
theorem C38_forward_after_inverse_partial (h4 : n ≤ 4) (ws : List VPart) (hs : HasShape allCols (partitions n) ws) :
    ∃ g ws', ifft n ws = some (n, snSize n, g) ∧ fft n g = some ws' ∧ SameVec ws ws' := by
  rw [← hasShape_one hn] at hs
  obtain ⟨Ls, g, ws', h1, h2, h3, h4, h5⟩ := backward_of_act viewAct n 1 (by omega) (by omega)
    (fun k _ _ => viewAct_ok (by omega) (by omega)) ws hs
  have hsz : snsmSize n 1 = snSize n := by simp [snsmSize, snSize]
  rw [hsz] at h3
  refine ⟨g, ws', ?_, ?_, h5⟩
  · unfold ifft; rw [h1]; simp [h3]; omega
  · unfold fft; rw [h1]; simpa using h4

end

/-! ## C40: the transform on `Sn/Sm` -/

section
variable (n m : Nat) (hm : 1 ≤ m) (hn : m < n)
include hm hn

/-- **C40.** With the action of the irreps used for matrices, the transform on `Sn/Sm` consists of the columns with
`1..m` in the first row of the sums of `f(c) ρ(x(c)⁻¹)` over the coset representatives, for the shapes that have such
columns, and `inv_snsm` undoes it. -/
theorem C40_fft_snsm_reference (f : Nat → ℝ) :
    ∃ Ls ws g, fftLevels n m = some Ls ∧ fftWith matAct Ls (snsmSize n m) f = some ws ∧
      HasShape (cosetCols m) (cosetShapes m n) ws ∧
      IsTransform (snsmSize n m) (fun c => snsmElement n m c) f (cosetCols m) ws ∧
      ifftWith matAct Ls ws = some (snsmSize n m, g) ∧ ∀ e < snsmSize n m, g e = f e := by
  obtain ⟨Ls, ws, h1, -, h3, h4, h5, g, h6, h7⟩ := forward_of_act matAct n m hm (Or.inl hn) (fun k _ _ => matAct_ok m k) f
  exact ⟨Ls, ws, g, h1, h3, h4, h5, h6, h7⟩

/-- **C40.** With the action of the irreps used for matrices, every vector of the right shape is the transform of what
`inv_snsm` returns. -/
theorem C40_inv_snsm_reference (ws : List VPart) (hs : HasShape (cosetCols m) (cosetShapes m n) ws) :
    ∃ Ls g ws', fftLevels n m = some Ls ∧ ifftWith matAct Ls ws = some (snsmSize n m, g) ∧
      fftWith matAct Ls (snsmSize n m) g = some ws' ∧ SameVec ws ws' := by
  obtain ⟨Ls, g, ws', h1, -, h3, h4, h5⟩ := backward_of_act matAct n m hm (Or.inl hn) (fun k _ _ => matAct_ok m k) ws hs
  exact ⟨Ls, g, ws', h1, h3, h4, h5⟩

/-- **C40.** Full statement: for all `1≤m≤n` the transform of a function on `Sn/Sm` consists of the columns of the
Fourier transform with `1..m` in the first row, and `inv_snsm` undoes it. Both are false for every `n≥5` and `m≤n-2`
(`C40_fft_snsm_wrong`, `C40_inverse_after_forward_wrong`; for `m≤3` and `n≥6` the transform is undefined for every
function, `C40_fft_snsm_undefined`), and for `m=n` the part has the wrong irrep (`C40_label_n_eq_m`). What holds: it is true for `n≤4` and for `m=n-1`. -/
theorem C40_fft_snsm_partial (h : n ≤ 4 ∨ n = m + 1) (f : Nat → ℝ) :
    ∃ ws g, fftSnSm n m f = some ws ∧
      HasShape (cosetCols m) (cosetShapes m n) ws ∧
      IsTransform (snsmSize n m) (fun c => snsmElement n m c) f (cosetCols m) ws ∧
      ifftSnSm n m ws = some ((n, m), snsmSize n m, g) ∧ ∀ e < snsmSize n m, g e = f e := by
  obtain ⟨Ls, ws, h1, -, h3, h4, h5, g, h6, h7⟩ := forward_of_act viewAct n m hm (Or.inl hn)
    (fun k _ _ => viewAct_ok (by omega) (by omega)) f
  refine ⟨ws, g, ?_, h4, h5, ?_, h7⟩
  · unfold fftSnSm; rw [h1]; simpa using h3
  · unfold ifftSnSm; rw [h1]; simp [h6]

/-- **C40.** As `C40_fft_snsm_partial`, for the other composition, which is false for every `n≥5` and `m≤n-2`
(`C40_forward_after_inverse_wrong`). -/
theorem C40_inv_snsm_partial (h : n ≤ 4 ∨ n = m + 1) (ws : List VPart) (hs : HasShape (cosetCols m) (cosetShapes m n) ws) :
    ∃ g ws', ifftSnSm n m ws = some ((n, m), snsmSize n m, g) ∧ fftSnSm n m g = some ws' ∧ SameVec ws ws' := by
  obtain ⟨Ls, g, ws', h1, h2, h3, h4, h5⟩ := backward_of_act viewAct n m hm (Or.inl hn)
    (fun k _ _ => viewAct_ok (by omega) (by omega)) ws hs
  refine ⟨g, ws', ?_, ?_, h5⟩
  · unfold ifftSnSm; rw [h1]; simp [h3]
  · unfold fftSnSm; rw [h1]; simpa using h4

end

/-! ## The transform on `Sn/Sm` in terms of the transform on `Sn` -/

/-- **C40.** The transform on `Sn/Sm` of `f` consists of columns of the transform on `Sn` of the function that takes
the value of `f` at the coset of every group element, divided by `m!`; the columns left out are zero. -/
theorem C40_columns_of_lift (n m : Nat) (hm : 1 ≤ m) (hn : m ≤ n) (f fl : Nat → ℝ)
    (hfl : ∀ e < snSize n, ∃ (s : Arr) (c : Nat), element n e = some s ∧ snsmIndex n m s = some (c : Int) ∧ fl e = f c)
    (ws wl : List VPart) (hs : HasShape (cosetCols m) (cosetShapes m n) ws)
    (ht : IsTransform (snsmSize n m) (fun c => snsmElement n m c) f (cosetCols m) ws)
    (hsl : HasShape allCols (partitions n) wl) (htl : IsTransform (snSize n) (fun c => element n c) fl allCols wl) :
    ∀ V ∈ wl,
      (∀ W ∈ ws, W.irrep = V.irrep → ∀ i < W.d, ∀ k j : Nat, (cosetCols m W.irrep)[k]? = some j →
        V.data i j = (m ! : ℝ) * W.data i k) ∧
      ∀ i < V.d, ∀ j < V.m, j ∉ cosetCols m V.irrep → V.data i j = 0 := by
  have hfl' : ∀ e < n !, fl e = f (e / m !) := by
    intro e he
    obtain ⟨s, c, h1, h2, h3⟩ := hfl e he
    rw [element_eq n e he] at h1
    obtain rfl := Option.some.inj h1
    rw [snsmIndex_elem n m hn e he] at h2
    have : e / m ! = c := by exact_mod_cast Option.some.inj h2
    rw [h3, this]
  intro V hV
  obtain ⟨i0, hi0⟩ := List.mem_iff_getElem?.1 hV
  have hi1 : i0 < (partitions n).length := by rw [← hsl.1]; exact (List.getElem?_eq_some_iff.1 hi0).1
  obtain ⟨hmk, hVd, hVm⟩ := hsl.2 i0 _ V (List.getElem?_eq_getElem hi1) hi0
  have hp := (mem_partitions n (by omega) _).1 (List.getElem_mem hi1)
  obtain ⟨R, hR, -, hrep⟩ := exists_repr (by omega) hp
  obtain rfl : R = V.irrep := Option.some.inj (hR.symm.trans hmk)
  have hVm' : V.m = V.irrep.d := by rw [hVm]; simp [allCols]
  have hVe : ∀ i (hi : i < V.irrep.d) j (hj : j < V.irrep.d), V.data i j =
      ∑ e ∈ Finset.range (n !), f (e / m !) * rho hp (elem n e)⁻¹ (hrep.eqv ⟨i, hi⟩) (hrep.eqv ⟨j, hj⟩) := by
    intro i hi j hj
    rw [htl.entry (g := fun c => elem n c) (fun c hc => element_eq n c hc) hV hrep (by rw [hVd]; exact hi) hi
      (k := j) (j := j) (by rw [List.getElem?_range hj]) hj]
    refine Finset.sum_congr rfl fun e he => ?_
    rw [hfl' e (Finset.mem_range.1 he)]
  constructor
  · intro W hW hWV i hi k j hk
    have hrepW : Repr' hp W.irrep := by rw [hWV]; exact hrep
    obtain ⟨a, ha⟩ := List.mem_iff_getElem?.1 hW
    have ha1 : a < (cosetShapes m n).length := by rw [← hs.1]; exact (List.getElem?_eq_some_iff.1 ha).1
    obtain ⟨-, hWd, -⟩ := hs.2 a _ W (List.getElem?_eq_getElem ha1) ha
    have hi' : i < W.irrep.d := by rw [← hWd]; exact hi
    obtain ⟨hj, hg, -⟩ := hrepW.startCols_get hn hk
    have hiV : i < V.irrep.d := by rw [← hWV]; exact hi'
    have hjV : j < V.irrep.d := by rw [← hWV]; exact hj
    have e1 := hVe i hiV j hjV
    have e2 := ht.entry (g := fun c => elem n (c * m !)) (fun c hc => snsmElement_eq n m hn c hc) hW hrepW hi hi' hk hj
    have e3 : ∀ b (hb : b < V.irrep.d) (hb' : b < W.irrep.d), hrepW.eqv ⟨b, hb'⟩ = hrep.eqv ⟨b, hb⟩ := fun b hb hb' => rfl
    rw [e3 i hiV hi', e3 j hjV hj] at e2
    rw [e3 j hjV hj] at hg
    rw [e1, e2]
    exact lift_good hm hn hp f _ _ hg
  · intro i hi j hj hjn
    have hi' : i < V.irrep.d := by rw [← hVd]; exact hi
    have hj' : j < V.irrep.d := by rw [← hVm']; exact hj
    rw [hVe i hi' j hj']
    refine lift_bad hm hn hp f _ _ ?_
    by_contra hg
    rw [Bool.not_eq_false] at hg
    refine hjn ?_
    have hjw : j < (words n (partitions n)[i0]).length := by rw [← hrep.d_eq]; exact hj'
    show j ∈ startCols m V.irrep.tableaux
    classical
    unfold startCols
    rw [List.mem_filter, List.mem_range, hrep.tab, List.length_map, decide_eq_true_iff]
    refine ⟨hjw, toTab (words n (partitions n)[i0])[j], by rw [List.getElem?_map, List.getElem?_eq_getElem hjw]; rfl, ?_⟩
    exact (startsWith_iff hp hn ⟨_, List.getElem_mem hjw⟩).2 hg

/-! ## Where the code fails -/

/-- **C37.** For `n≥6` the forward transform writes outside the rotation tables for every function. -/
theorem C37_fft_undefined (n : Nat) (hn : 6 ≤ n) (f : Nat → ℝ) : fft n f = none := by
  unfold fft
  cases h : fftLevels n 1 with
  | none => rfl
  | some Ls => exact fftWith_321 (by omega) (by omega) hn h _ f

/-- **C40.** For `n≥5` and `1≤m≤n-2` the result, if there is any, is not the Fourier transform: it fails for a function
that is not zero at a single coset. -/
theorem C40_fft_snsm_wrong (n m : Nat) (hm : 1 ≤ m) (hmn : m + 2 ≤ n) (hn : 5 ≤ n) :
    ∃ c < snsmSize n m, ∀ ws, fftSnSm n m (fun e => if e = c then 1 else 0) = some ws →
      ¬ (HasShape (cosetCols m) (cosetShapes m n) ws ∧
        IsTransform (snsmSize n m) (fun c => snsmElement n m c) (fun e => if e = c then 1 else 0) (cosetCols m) ws) := by
  obtain ⟨l, rfl⟩ : ∃ l, n = l + 1 := ⟨n - 1, by omega⟩
  have hq : 0 < l ! / m ! := Nat.div_pos (Nat.factorial_le (by omega)) (Nat.factorial_pos m)
  have hsz : snsmSize (l + 1) m = (l + 1) * (l ! / m !) := by
    unfold snsmSize
    rw [Nat.factorial_succ, Nat.mul_div_assoc _ (Nat.factorial_dvd_factorial (by omega))]
  have hc : (l - 1) * (l ! / m !) < snsmSize (l + 1) m := by
    rw [hsz]; exact Nat.mul_lt_mul_of_pos_right (by omega) hq
  refine ⟨(l - 1) * (l ! / m !), hc, ?_⟩
  rintro ws hws ⟨hs, ht⟩
  unfold fftSnSm at hws
  rw [Option.bind_eq_bind, Option.bind_eq_some_iff] at hws
  obtain ⟨Ls, hLs, hws⟩ := hws
  have h4 : 4 ≤ l + 1 := by omega
  have hp := isPartition_two h4
  have hmem : [l + 1 - 2, 2] ∈ cosetShapes m (l + 1) := (mem_PL (by omega) _).2 ⟨hp, by simp; omega⟩
  obtain ⟨i, hi⟩ := List.mem_iff_getElem?.1 hmem
  have hlt : i < ws.length := by rw [hs.1]; exact (List.getElem?_eq_some_iff.1 hi).1
  obtain ⟨hmk, hd, hWm⟩ := hs.2 i _ _ hi (List.getElem?_eq_getElem hlt)
  obtain ⟨R, hR, hlam, hrep⟩ := exists_repr (by omega) hp
  generalize hW : ws[i] = W at *
  have hWmem : W ∈ ws := by rw [← hW]; exact List.getElem_mem hlt
  obtain rfl : R = W.irrep := Option.some.inj (hR.symm.trans hmk)
  have hdpos : 0 < W.irrep.d := by rw [hrep.d_eq]; exact List.length_pos_iff.2 (words_ne_nil hp)
  -- the column of the first tableau
  have htop : hrep.eqv ⟨0, hdpos⟩ = topW h4 := by
    apply Subtype.ext
    have h1 := rowIx_topW h4
    have h2 : (words (l + 1) [l + 1 - 2, 2]).idxOf (topWord (l + 1)) = 0 := h1
    have h3 := List.getElem_idxOf (List.idxOf_lt_length_of_mem (topWord_mem h4))
    simp only [h2] at h3
    exact h3
  have hcol : ∃ k : Nat, (cosetCols m W.irrep)[k]? = some 0 := by
    refine List.mem_iff_getElem?.1 ?_
    show 0 ∈ startCols m W.irrep.tableaux
    classical
    have hjw : 0 < (words (l + 1) [l + 1 - 2, 2]).length := by rw [← hrep.d_eq]; exact hdpos
    unfold startCols
    rw [List.mem_filter, List.mem_range, hrep.tab, List.length_map, decide_eq_true_iff]
    refine ⟨hjw, toTab (words (l + 1) [l + 1 - 2, 2])[0], by rw [List.getElem?_map, List.getElem?_eq_getElem hjw]; rfl, ?_⟩
    refine (startsWith_iff hp (by omega) ⟨_, List.getElem_mem hjw⟩).2 ?_
    have h1 : (words (l + 1) [l + 1 - 2, 2])[0] = (topW h4).1 := congrArg Subtype.val htop
    simp only [h1]
    exact topW_good h4 (by omega)
  obtain ⟨k, hk⟩ := hcol
  have hkm : k < W.m := by rw [hWm]; exact (List.getElem?_eq_some_iff.1 hk).1
  have hzero := row_lost (m := m) (by omega) (by omega) hp (tau := 2) (by omega) (by omega)
    (fun R hR => by rw [hR.packed_words (by omega) (by omega)]; exact not_packed_two hn) hLs _
    (f := fun e => if e = (l - 1) * (l ! / m !) then 1 else 0) (fun e he => by
      rw [if_neg]
      rintro rfl
      refine he ?_
      rw [Nat.add_sub_cancel, Nat.mul_div_cancel _ hq]; omega) hws W hWmem hlam k hkm
  have h1 := ht.entry (g := fun c => elem (l + 1) (c * m !)) (fun c hc => snsmElement_eq (l + 1) m (by omega) c hc) hWmem hrep (i := 0)
    (by rw [hd]; exact hdpos) hdpos hk hdpos
  rw [hzero, Finset.sum_eq_single ((l - 1) * (l ! / m !))] at h1
  · have h2 := elem_succ (m := m) (l := l) (t := l - 1) (e := 0) (by omega) hq
    rw [Nat.add_zero ((l - 1) * (l ! / m !)), Nat.zero_mul, elem_zero, extend_one, one_mul] at h2
    rw [if_pos rfl, one_mul, h2, inv_inv, htop] at h1
    exact corner_ne h4 (l - 1) (by omega) (by omega) h1.symm
  · intro b _ hb; rw [if_neg hb, zero_mul]
  · intro hb; exact absurd (Finset.mem_range.2 hc) hb

/-- **C37.** For `n≥5` the result, if there is any, is not the Fourier transform: it fails for a function that is not
zero at a single group element. -/
theorem C37_fft_wrong (n : Nat) (hn : 5 ≤ n) : ∃ c < snSize n, ∀ ws, fft n (fun e => if e = c then 1 else 0) = some ws →
    ¬ (HasShape allCols (partitions n) ws ∧
      IsTransform (snSize n) (fun c => element n c) (fun e => if e = c then 1 else 0) allCols ws) := by
  have hsz : snsmSize n 1 = snSize n := by simp [snsmSize, snSize]
  obtain ⟨c, hc, h⟩ := C40_fft_snsm_wrong n 1 (by omega) (by omega) hn
  refine ⟨c, by rw [← hsz]; exact hc, fun ws hws => ?_⟩
  rintro ⟨hs, ht⟩
  have hs' := (hasShape_one (by omega) ws).2 hs
  refine h ws ?_ ⟨hs', ?_⟩
  · unfold fft at hws
    unfold fftSnSm
    rw [Option.bind_eq_bind, Option.bind_eq_some_iff] at hws ⊢
    obtain ⟨Ls, hLs, hws⟩ := hws
    exact ⟨Ls, hLs, by simpa [snSize] using hws⟩
  · rw [← hsz] at ht
    exact isTransform_of_one (by omega) hs ht

/-- **C40.** For `n≥5` and `1≤m≤n-2`, `inv_snsm` does not undo the forward transform: there is a coset such that the
function with value one there and zero elsewhere comes back, if at all, with a value less than one. -/
theorem C40_inverse_after_forward_wrong (n m : Nat) (hm : 1 ≤ m) (hmn : m + 2 ≤ n) (hn : 5 ≤ n) :
    ∃ c < snsmSize n m, ∀ ws k N g, fftSnSm n m (fun e => if e = c then 1 else 0) = some ws → ifftSnSm n m ws = some (k, N, g) →
      g c < 1 := by
  obtain ⟨l, rfl⟩ : ∃ l, n = l + 1 := ⟨n - 1, by omega⟩
  obtain ⟨c, hc, h⟩ := fft_loss (m := m) (l0 := l) hm (by omega) hn
  refine ⟨c, hc, fun ws k N g h1 h2 => ?_⟩
  unfold fftSnSm at h1
  unfold ifftSnSm at h2
  simp only [Option.bind_eq_bind, Option.bind_eq_some_iff] at h1 h2
  obtain ⟨Ls, hLs, h1⟩ := h1
  obtain ⟨Ls', hLs', r, h2, h3⟩ := h2
  obtain rfl : Ls = Ls' := Option.some.inj (hLs.symm.trans hLs')
  obtain ⟨N', g'⟩ := r
  obtain ⟨-, h4⟩ := Prod.mk.inj (Option.some.inj h3)
  obtain ⟨rfl, rfl⟩ := Prod.mk.inj h4
  exact ((h Ls ws hLs h1).2.2 N' g' h2).2

/-- **C38.** For `n≥5`, `inv` does not undo the forward transform: there is a group element such that the function with
value one there and zero elsewhere comes back, if at all, with a value less than one. -/
theorem C38_inverse_after_forward_wrong (n : Nat) (hn : 5 ≤ n) :
    ∃ c < snSize n, ∀ ws k N g, fft n (fun e => if e = c then 1 else 0) = some ws → ifft n ws = some (k, N, g) → g c < 1 := by
  obtain ⟨l, rfl⟩ : ∃ l, n = l + 1 := ⟨n - 1, by omega⟩
  obtain ⟨c, hc, h⟩ := fft_loss (m := 1) (l0 := l) (by omega) (by omega) hn
  rw [Nat.factorial_one, Nat.div_one] at hc h
  refine ⟨c, hc, fun ws k N g h1 h2 => ?_⟩
  unfold fft at h1
  unfold ifft at h2
  simp only [Option.bind_eq_bind, Option.bind_eq_some_iff] at h1 h2
  obtain ⟨Ls, hLs, h1⟩ := h1
  obtain ⟨Ls', hLs', r, h2, h3⟩ := h2
  obtain rfl : Ls = Ls' := Option.some.inj (hLs.symm.trans hLs')
  obtain ⟨N', g'⟩ := r
  obtain ⟨-, h4⟩ := Prod.mk.inj (Option.some.inj h3)
  obtain ⟨rfl, rfl⟩ := Prod.mk.inj h4
  exact ((h Ls ws hLs h1).2.2 N' g' h2).2

/-- **C40.** For `n≥5` and `1≤m≤n-2`, the forward transform does not undo `inv_snsm`: some vector of the right shape
does not come back. -/
theorem C40_forward_after_inverse_wrong (n m : Nat) (hm : 1 ≤ m) (hmn : m + 2 ≤ n) (hn : 5 ≤ n) :
    ∃ ws, HasShape (cosetCols m) (cosetShapes m n) ws ∧
      ∀ k N g ws', ifftSnSm n m ws = some (k, N, g) → fftSnSm n m g = some ws' → ¬ SameVec ws ws' := by
  obtain ⟨l, rfl⟩ : ∃ l, n = l + 1 := ⟨n - 1, by omega⟩
  obtain ⟨Ls, hLs, -, -⟩ := fftLevels_ok hm (show m ≤ l + 1 by omega)
  by_contra hcon
  refine ifft_loss (m := m) (l0 := l) hm (by omega) hn hLs fun ws hs => ?_
  by_contra h
  refine hcon ⟨ws, hs, fun k N g ws' h1 h2 h3 => h ?_⟩
  unfold ifftSnSm at h1
  unfold fftSnSm at h2
  rw [hLs] at h1 h2
  simp only [Option.bind_eq_bind, Option.bind_some, Option.bind_eq_some_iff] at h1 h2
  obtain ⟨r, h1, h4⟩ := h1
  obtain ⟨N', g'⟩ := r
  obtain ⟨-, h5⟩ := Prod.mk.inj (Option.some.inj h4)
  obtain ⟨rfl, rfl⟩ := Prod.mk.inj h5
  exact ⟨N', g', ws', h1, h2, h3⟩

/-- **C38.** For every `n≥5` the forward transform does not undo `inv`: some vector of the right shape does not come
back. -/
theorem C38_forward_after_inverse_wrong (n : Nat) (hn : 5 ≤ n) :
    ∃ ws, HasShape allCols (partitions n) ws ∧
      ∀ k N g ws', ifft n ws = some (k, N, g) → fft n g = some ws' → ¬ SameVec ws ws' := by
  obtain ⟨ws, h1, h2⟩ := C40_forward_after_inverse_wrong n 1 (by omega) (by omega) hn
  refine ⟨ws, (hasShape_one (by omega) ws).1 h1, fun k N g ws' h3 h4 => ?_⟩
  unfold ifft at h3
  unfold fft at h4
  simp only [Option.bind_eq_bind, Option.bind_eq_some_iff] at h3 h4
  obtain ⟨Ls, hLs, r, h3, h5⟩ := h3
  obtain ⟨Ls', hLs', h4⟩ := h4
  obtain rfl : Ls = Ls' := Option.some.inj (hLs.symm.trans hLs')
  obtain ⟨N', g'⟩ := r
  obtain ⟨-, h6⟩ := Prod.mk.inj (Option.some.inj h5)
  obtain ⟨rfl, rfl⟩ := Prod.mk.inj h6
  refine h2 (n, 1) N' g' ws' ?_ ?_
  · unfold ifftSnSm; rw [hLs]; simp [h3]
  · unfold fftSnSm; rw [hLs]; simpa using h4

/-- **C38.** For `n≥6` the inverse transform writes outside the rotation tables for every vector of the right shape. -/
theorem C38_inverse_undefined (n : Nat) (hn : 6 ≤ n) (ws : List VPart) (hs : HasShape allCols (partitions n) ws) : ifft n ws = none := by
  unfold ifft
  cases h : fftLevels n 1 with
  | none => rfl
  | some Ls =>
    rw [Option.bind_eq_bind, Option.bind_some, ifftWith_321 (by omega) (by omega) hn h]
    · rfl
    · have hne : 0 < (partitions n).length :=
        List.length_pos_iff.2 fun e => by
          have := (mem_partitions n (by omega) [n]).2 (isPartition_row (by omega))
          rw [e] at this; simp at this
      by_cases e : 6 < n
      · exact ⟨ws[0]'(by rw [hs.1]; exact hne), List.getElem_mem _, Or.inr e⟩
      · obtain rfl : n = 6 := by omega
        have hmem : [3, 2, 1] ∈ partitions 6 := (mem_partitions 6 (by omega) _).2 isPartition_321
        obtain ⟨i, hi⟩ := List.mem_iff_getElem?.1 hmem
        have hlt : i < ws.length := by rw [hs.1]; exact (List.getElem?_eq_some_iff.1 hi).1
        exact ⟨ws[i], List.getElem_mem _, Or.inl (hs.2 i _ _ hi (List.getElem?_eq_getElem hlt)).1⟩

/-- **C40.** For `m≤3` and `n≥6` the transform on `Sn/Sm` writes outside the rotation tables for every function. -/
theorem C40_fft_snsm_undefined (n m : Nat) (hm : m ≤ 3) (hn : 6 ≤ n) (f : Nat → ℝ) : fftSnSm n m f = none := by
  unfold fftSnSm
  cases h : fftLevels n m with
  | none => rfl
  | some Ls =>
    refine fftWith_321 ?_ hm hn h _ f
    by_contra h0
    unfold fftLevels at h
    rw [if_neg (by omega)] at h
    cases h

/-- **C40.** For `m=n` the only part carries the irrep of `S1` instead of the trivial irrep of `Sn`. -/
theorem C40_label_n_eq_m (n : Nat) (hn : 2 ≤ n) (f : Nat → ℝ) :
    ∃ W, fftSnSm n n f = some [W] ∧ W.irrep.lambda = [1] ∧ W.irrep.n = 1 ∧ W.data 0 0 = f 0 := by
  obtain ⟨Ls, e1, e2, -⟩ := fftLevels_ok (m := n) (n := n) (by omega) (le_refl n)
  obtain ⟨R, hR, hl, hrep⟩ := exists_repr (n := 1) (by omega) (isPartition_row (n := 1) (by omega))
  obtain ⟨L, rfl⟩ : ∃ L, Ls = [L] := by
    rcases Ls with _ | ⟨L, _ | _⟩
    · simp at e2
    · exact ⟨L, rfl⟩
    · simp at e2
  refine ⟨⟨1, 1, R, fun _ _ => f 0⟩, ?_, hl, hrep.n_eq, rfl⟩
  unfold fftSnSm fftWith MPart.ofFunction
  rw [e1, hR, Nat.div_self (Nat.factorial_pos n)]
  rfl

/-! ## C64: the Python name `inv_snsm` -/

theorem label_lt {m : Nat} (hm : 2 ≤ m) (d : Nat) : (d + 2)! * m ! < (m + (d + 1))! := by
  induction d with
  | zero =>
    show 2 * m ! < (m + 1)!
    rw [Nat.factorial_succ]
    exact Nat.mul_lt_mul_of_pos_right (by omega) (Nat.factorial_pos m)
  | succ d ih =>
    rw [show m + (d + 1 + 1) = (m + (d + 1)) + 1 by omega, Nat.factorial_succ (m + (d + 1)), show d + 1 + 2 = (d + 2) + 1 by omega,
      Nat.factorial_succ (d + 2), Nat.mul_assoc]
    exact Nat.mul_lt_mul_of_le_of_lt (by omega) ih (by omega)

/-- **C64.** Full statement: Python's `inv_snsm` returns a function on `Sn/Sm`, with as many values as the group it is
labelled with has elements. This is false for `m≥2`: whenever the inverse transform of a function that came from the
forward transform ends, here for `n≤4` and for `n=m+1`, the values are those of the function, but the label is `S_{n-m+1}`,
and the number of values is not the order of that group. -/
theorem C64_py_inv_snsm_label (n m : Nat) (hm : 2 ≤ m) (hn : m < n) (h : n ≤ 4 ∨ n = m + 1) (f : Nat → ℝ) :
    ∃ ws g k N, fftSnSm n m f = some ws ∧ pyInvSnSm n m ws = some (k, N, g) ∧ (∀ e < snsmSize n m, g e = f e) ∧
      N = snsmSize n m ∧ k = n - m + 1 ∧ k < n ∧ snSize k < N := by
  obtain ⟨Ls, ws, h1, h2, h3, -, -, g, h6, h7⟩ := forward_of_act viewAct n m (by omega) (Or.inl hn)
    (fun k _ _ => viewAct_ok (by omega) (by omega)) f
  refine ⟨ws, g, n - m + 1, snsmSize n m, ?_, ?_, h7, rfl, rfl, by omega, ?_⟩
  · unfold fftSnSm; rw [h1]; simpa using h3
  · unfold pyInvSnSm; rw [h1]; simp [h6, h2]
  · unfold snSize snsmSize
    have h8 := label_lt hm (n - m - 1)
    rw [show n - m - 1 + 2 = n - m + 1 by omega, show m + (n - m - 1 + 1) = n by omega] at h8
    obtain ⟨x, hx⟩ := Nat.factorial_dvd_factorial (show m ≤ n by omega)
    rw [hx, Nat.mul_div_cancel_left _ (Nat.factorial_pos m)]
    rw [hx, Nat.mul_comm] at h8
    exact Nat.lt_of_mul_lt_mul_left h8

/-- **C64.** What holds: for `m=1` the label and the number of values are those of `Sn`. -/
theorem C64_py_inv_snsm_partial (n : Nat) (hn : 1 ≤ n) (h4 : n ≤ 4) (f : Nat → ℝ) :
    ∃ ws g, fftSnSm n 1 f = some ws ∧ pyInvSnSm n 1 ws = some (n, snSize n, g) ∧ ∀ e < snSize n, g e = f e := by
  obtain ⟨Ls, ws, h1, h2, h3, -, -, g, h6, h7⟩ := forward_of_act viewAct n 1 (by omega) (by omega)
    (fun k _ _ => viewAct_ok (by omega) (by omega)) f
  have hsz : snsmSize n 1 = snSize n := by simp [snsmSize, snSize]
  rw [hsz] at h6 h7
  refine ⟨ws, g, ?_, ?_, h7⟩
  · unfold fftSnSm; rw [h1]; simpa using h3
  · unfold pyInvSnSm; rw [h1]; simp [h6]; omega

/-! ### examples -/

example := C37_fft_reference 7 (by omega) (fun e => (e : ℝ) ^ 2)
example := C37_fft_partial 4 (by omega) (by omega) (fun e => (e : ℝ) - 3)
example := C38_inverse_after_forward_reference 9 (by omega) (fun e => (e : ℝ) ^ 2)
example : ∃ ws g, fft 3 (fun e => (e : ℝ)) = some ws ∧ ifft 3 ws = some (3, 6, g) ∧ g 4 = 4 := by
  obtain ⟨ws, g, h1, h2, h3⟩ := C38_inverse_after_forward_partial 3 (by omega) (by omega) (fun e => (e : ℝ))
  exact ⟨ws, g, h1, h2, (h3 4 (by decide)).trans (by norm_num)⟩
-- every transform has the right shape, so that the inverse applies to all of them
example : ∃ Ls g ws ws', fftLevels 6 1 = some Ls ∧ ifftWith matAct Ls ws = some (720, g) ∧
    fftWith matAct Ls 720 g = some ws' ∧ SameVec ws ws' := by
  obtain ⟨_, ws, _, _, h, _⟩ := C37_fft_reference 6 (by omega) (fun e => (e : ℝ))
  obtain ⟨Ls, g, ws', h1, h2, h3, h4⟩ := C38_forward_after_inverse_reference 6 (by omega) ws h
  exact ⟨Ls, g, ws, ws', h1, h2, h3, h4⟩
example := C40_fft_snsm_reference 7 3 (by omega) (by omega) (fun e => (e : ℝ))
example : ∃ ws g, fftSnSm 10 9 (fun e => (e : ℝ)) = some ws ∧ ifftSnSm 10 9 ws = some ((10, 9), 10, g) ∧ g 7 = 7 := by
  obtain ⟨ws, g, h1, -, -, h2, h3⟩ := C40_fft_snsm_partial 10 9 (by omega) (by omega) (Or.inr rfl) (fun e => (e : ℝ))
  exact ⟨ws, g, h1, h2, (h3 7 (by decide)).trans (by norm_num)⟩
example : fft 6 (fun _ => 0) = none := C37_fft_undefined 6 (by omega) _
-- at a single group element of `S5`, and at a single coset of `S8/S5`, where no shape is `[3,2,1]`
example := C37_fft_wrong 5 (by omega)
example := C38_inverse_after_forward_wrong 5 (by omega)
example := C38_forward_after_inverse_wrong 5 (by omega)
example := C40_forward_after_inverse_wrong 9 7 (by omega) (by omega) (by omega)
example := C40_inverse_after_forward_wrong 8 5 (by omega) (by omega) (by omega)
example : ∃ c < 336, ∀ ws, fftSnSm 8 5 (fun e => if e = c then 1 else 0) = some ws →
    ¬ (HasShape (cosetCols 5) (cosetShapes 5 8) ws ∧
      IsTransform 336 (fun c => snsmElement 8 5 c) (fun e => if e = c then 1 else 0) (cosetCols 5) ws) :=
  C40_fft_snsm_wrong 8 5 (by omega) (by omega) (by omega)
example := C40_label_n_eq_m 5 (by omega) (fun e => (e : ℝ) + 1)
-- on `S3/S2` the Python function is labelled `S2` and has three values
example : ∃ ws g, fftSnSm 3 2 (fun e => (e : ℝ)) = some ws ∧ pyInvSnSm 3 2 ws = some (2, 3, g) := by
  obtain ⟨ws, g, k, N, h1, h2, -, rfl, rfl, -⟩ := C64_py_inv_snsm_label 3 2 (by omega) (by omega) (Or.inl (by omega)) (fun e => (e : ℝ))
  exact ⟨ws, g, h1, h2⟩

end Snob.Props
