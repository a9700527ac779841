import Verif.Proofs.FFTDefined
import Verif.Props.FloatIFFT

/-! # Properties C37, C38, C40, C111, C112: the transforms for `n≤5` return something, right or wrong -/

namespace Snob.Props

open Snob Snob.Perm Snob.IP
open scoped Nat

theorem chain_small {m : Nat} (hm : 0 < m) {l : Nat} {Ls : List LevelT} (hC : ChainOk m l Ls) (hl : m ≤ l) (h5 : l + Ls.length ≤ 6) :
    ∀ L ∈ Ls, ∀ p ∈ L.parts, SmallIrrep p.irrep := by
  have key : ∀ {l : Nat} {L : LevelT}, LevelOk m l L → m ≤ l → l ≤ 5 → ∀ p ∈ L.parts, SmallIrrep p.irrep := by
    intro l L hL hml hl p hp
    obtain ⟨i, hi⟩ := List.mem_iff_getElem?.1 hp
    have h1 : p.irrep.lambda ∈ PL m l := by rw [← hL.keys]; exact List.mem_map_of_mem (f := fun p : PartT => p.irrep.lambda) hp
    have hpart := ((mem_PL (by omega) _).1 h1).1
    obtain ⟨R, hR, -, hrep⟩ := exists_repr (by omega) hpart
    obtain rfl : R = p.irrep := Option.some.inj (hR.symm.trans (hL.part i p hi).2.1)
    exact ⟨l, _, hpart, by omega, hl, hrep⟩
  induction hC with
  | last hL =>
    intro L' hL'
    rw [List.mem_singleton] at hL'
    subst hL'
    exact key hL hl (by simp only [List.length_singleton] at h5; omega)
  | step hL _ _ ih =>
    simp only [List.length_cons] at h5 ih
    intro L hLm
    rcases List.mem_cons.1 hLm with rfl | hLm
    · exact key hL hl (by omega)
    · exact ih (by omega) (by omega) L hLm

theorem shape_small {m n : Nat} (hn : 1 ≤ n) (h5 : n ≤ 5) {ws : List VPart} (hs : HasShape (cosetCols m) (cosetShapes m n) ws) :
    ∀ W ∈ ws, SmallIrrep W.irrep := by
  intro W hW
  obtain ⟨i, hi⟩ := List.mem_iff_getElem?.1 hW
  have hlt : i < (cosetShapes m n).length := by rw [← hs.1]; exact (List.getElem?_eq_some_iff.1 hi).1
  obtain ⟨h1, -⟩ := hs.2 i _ W (List.getElem?_eq_getElem hlt) hi
  have hmem : (cosetShapes m n)[i] ∈ PL m n := List.getElem_mem hlt
  have hpart := ((mem_PL (by omega) _).1 hmem).1
  obtain ⟨R, hR, -, hrep⟩ := exists_repr hn hpart
  obtain rfl : R = W.irrep := Option.some.inj (hR.symm.trans h1)
  exact ⟨n, _, hpart, hn, h5, hrep⟩

theorem shape_of_forall₂ {sel : IrrepObj → List Nat} {shapes : List (List Nat)} {ws ws' : List VPart} (hs : HasShape sel shapes ws)
    (h : List.Forall₂ (fun W W' : VPart => W.irrep = W'.irrep ∧ W.d = W'.d ∧ W.m = W'.m) ws ws') : HasShape sel shapes ws' := by
  refine ⟨by rw [← h.length_eq]; exact hs.1, fun i p W' h1 h2 => ?_⟩
  have hlt : i < ws.length := by rw [h.length_eq]; exact (List.getElem?_eq_some_iff.1 h2).1
  obtain ⟨W'', e1, e2, e3, e4⟩ := forall₂_getElem? h (List.getElem?_eq_getElem hlt)
  obtain rfl : W'' = W' := Option.some.inj (e1.symm.trans h2)
  rw [← e2, ← e3, ← e4]
  exact hs.2 i p _ h1 (List.getElem?_eq_getElem hlt)

section
variable (n m : Nat) (hm : 1 ≤ m) (hn : m < n ∨ m = 1 ∧ n = 1) (h5 : n ≤ 5)
include hm hn h5

theorem forward_small (f : Nat → ℝ) :
    ∃ Ls ws0, fftLevels n m = some Ls ∧ (∀ L ∈ Ls, ∀ p ∈ L.parts, SmallIrrep p.irrep) ∧
      fftWith guardAct Ls (n ! / m !) f = some ws0 ∧ HasShape (cosetCols m) (cosetShapes m n) ws0 := by
  obtain ⟨Ls, ws, h1, -, h3, h4, -, -⟩ := forward_of_act guardAct n m hm hn (fun k _ _ => guardAct_ok m k) f
  obtain ⟨Ls', e1, e2, e3⟩ := fftLevels_ok hm (show m ≤ n by omega)
  obtain rfl : Ls' = Ls := Option.some.inj (e1.symm.trans h1)
  exact ⟨Ls', ws, h1, chain_small hm e3 (le_refl m) (by omega), h3, h4⟩

theorem backward_small {ws : List VPart} (hs : HasShape (cosetCols m) (cosetShapes m n) ws) :
    ∃ Ls g, fftLevels n m = some Ls ∧ Ls.length = n - m + 1 ∧ (∀ L ∈ Ls, ∀ p ∈ L.parts, SmallIrrep p.irrep) ∧
      ifftWith guardAct Ls ws = some (snsmSize n m, g) := by
  obtain ⟨Ls, g, ws', h1, h2, h3, -, -⟩ := backward_of_act guardAct n m hm hn (fun k _ _ => guardAct_ok m k) ws hs
  obtain ⟨Ls', e1, e2, e3⟩ := fftLevels_ok hm (show m ≤ n by omega)
  obtain rfl : Ls' = Ls := Option.some.inj (e1.symm.trans h1)
  exact ⟨Ls', g, h1, h2, chain_small hm e3 (le_refl m) (by omega), h3⟩

theorem fft_some (f : Nat → ℝ) : ∃ ws, fftSnSm n m f = some ws ∧ HasShape (cosetCols m) (cosetShapes m n) ws := by
  obtain ⟨Ls, ws0, h1, h2, h3, h4⟩ := forward_small n m hm hn h5 f
  obtain ⟨ws, h6, h7⟩ := fftWith_same viewAct_follows (f' := f) (fun L hL => h2 L (List.mem_of_mem_tail hL)) h3
  exact ⟨ws, by unfold fftSnSm; rw [h1]; exact h6, shape_of_forall₂ h4 h7⟩

theorem ifft_some {ws : List VPart} (hs : HasShape (cosetCols m) (cosetShapes m n) ws) :
    ∃ Ls g, fftLevels n m = some Ls ∧ Ls.length = n - m + 1 ∧ ifftWith viewAct Ls ws = some (snsmSize n m, g) := by
  obtain ⟨Ls, g0, h1, h2, h3, h4⟩ := backward_small n m hm hn h5 hs
  obtain ⟨g, h6⟩ := ifftWith_same viewAct_follows h3 (shape_small (by omega) h5 hs) h4
  exact ⟨Ls, g, h1, h2, h6⟩

theorem ffft_some (F : Rounding) (ord : Nat → SumTree) (f : Nat → ℝ) :
    ∃ ws, F.fftSnSm ord n m f = some ws ∧ HasShape (cosetCols m) (cosetShapes m n) ws := by
  obtain ⟨Ls, ws0, h1, h2, h3, h4⟩ := forward_small n m hm hn h5 f
  obtain ⟨ws, h6, h7⟩ := ffftWith_same (F := F) (ord := ord) (fviewAct_follows F) (f' := f) (fun L hL => h2 L (List.mem_of_mem_tail hL)) h3
  exact ⟨ws, by unfold Rounding.fftSnSm; rw [h1]; exact h6, shape_of_forall₂ h4 h7⟩

theorem fifft_some (F : Rounding) {ws : List VPart} (hs : HasShape (cosetCols m) (cosetShapes m n) ws) :
    ∃ g, F.ifftSnSm n m ws = some (snsmSize n m, g) := by
  obtain ⟨Ls, g0, h1, h2, h3, h4⟩ := backward_small n m hm hn h5 hs
  obtain ⟨g, h6⟩ := fifftWith_same (F := F) (fviewAct_follows F) h3 (shape_small (by omega) h5 hs) h4
  exact ⟨g, by unfold Rounding.ifftSnSm; rw [h1]; exact h6⟩

end

theorem fft_eq_snsm (n : Nat) (f : Nat → ℝ) : fft n f = fftSnSm n 1 f := by
  unfold fft fftSnSm
  rw [Nat.factorial_one, Nat.div_one]

theorem ffft_eq_snsm (F : Rounding) (ord : Nat → SumTree) (n : Nat) (f : Nat → ℝ) : F.fft ord n f = F.fftSnSm ord n 1 f := by
  unfold Rounding.fft Rounding.fftSnSm
  rw [Nat.factorial_one, Nat.div_one]

section
variable (n : Nat) (hn : 1 ≤ n) (h5 : n ≤ 5)
include hn h5

/-- **C37.** For `n≤5` the forward transform returns a vector with one part of the right size for each partition; for `n≥6` it never
returns (`C37_fft_undefined`). -/
theorem C37_fft_defined (f : Nat → ℝ) : ∃ ws, fft n f = some ws ∧ HasShape allCols (partitions n) ws := by
  obtain ⟨ws, h1, h2⟩ := fft_some n 1 (le_refl 1) (by omega) h5 f
  exact ⟨ws, by rw [fft_eq_snsm]; exact h1, (hasShape_one hn ws).1 h2⟩

/-- **C38.** For `n≤5`, `inv` of a vector of the right shape returns a function with `n!` values. -/
theorem C38_inverse_defined (ws : List VPart) (hs : HasShape allCols (partitions n) ws) : ∃ g, ifft n ws = some (n, snSize n, g) := by
  obtain ⟨Ls, g, h1, h2, h3⟩ := ifft_some n 1 (le_refl 1) (by omega) h5 ((hasShape_one hn ws).2 hs)
  have hsz : snsmSize n 1 = snSize n := by simp [snsmSize, snSize]
  refine ⟨g, ?_⟩
  unfold ifft
  rw [h1, Option.bind_eq_bind, Option.bind_some, h3, h2, hsz, show n - 1 + 1 = n by omega]
  rfl

/-- **C111.** For `n≤5` the forward transform in `float` returns a vector of the right shape, with any rounding and any order of the
additions. -/
theorem C111_fft_defined (F : Rounding) (ord : Nat → SumTree) (f : Nat → ℝ) :
    ∃ ws, F.fft ord n f = some ws ∧ HasShape allCols (partitions n) ws := by
  obtain ⟨ws, h1, h2⟩ := ffft_some n 1 (le_refl 1) (by omega) h5 F ord f
  exact ⟨ws, by rw [ffft_eq_snsm]; exact h1, (hasShape_one hn ws).1 h2⟩

/-- **C112.** For `n≤5`, `inv` in `float` of a vector of the right shape returns a function with `n!` values. -/
theorem C112_inverse_defined (F : Rounding) (ws : List VPart) (hs : HasShape allCols (partitions n) ws) :
    ∃ g, F.ifft n ws = some (snSize n, g) := by
  obtain ⟨g, h1⟩ := fifft_some n 1 (le_refl 1) (by omega) h5 F ((hasShape_one hn ws).2 hs)
  have hsz : snsmSize n 1 = snSize n := by simp [snsmSize, snSize]
  rw [hsz] at h1
  exact ⟨g, h1⟩

end

section
variable (n m : Nat) (hm : 1 ≤ m) (hn : m < n) (h5 : n ≤ 5)
include hm hn h5

/-- **C40.** For `1≤m<n≤5` the forward transform on `Sn/Sm` returns a vector of the right shape. -/
theorem C40_fft_snsm_defined (f : Nat → ℝ) : ∃ ws, fftSnSm n m f = some ws ∧ HasShape (cosetCols m) (cosetShapes m n) ws :=
  fft_some n m hm (Or.inl hn) h5 f

/-- **C40.** For `1≤m<n≤5`, `inv_snsm` of a vector of the right shape returns a function with one value per coset. -/
theorem C40_inv_snsm_defined (ws : List VPart) (hs : HasShape (cosetCols m) (cosetShapes m n) ws) :
    ∃ g, ifftSnSm n m ws = some ((n, m), snsmSize n m, g) := by
  obtain ⟨Ls, g, h1, h2, h3⟩ := ifft_some n m hm (Or.inl hn) h5 hs
  refine ⟨g, ?_⟩
  unfold ifftSnSm
  rw [h1, Option.bind_eq_bind, Option.bind_some, h3]
  rfl

end

/-- **C37, C38.** At `n=5` the transforms fail silently: for some group element the function with value one there and zero elsewhere
has a transform of the right shape which is not its Fourier transform. -/
theorem C37_fft_silently_wrong :
    ∃ c < snSize 5, ∃ ws, fft 5 (fun e => if e = c then 1 else 0) = some ws ∧ HasShape allCols (partitions 5) ws ∧
      ¬ IsTransform (snSize 5) (fun c => element 5 c) (fun e => if e = c then 1 else 0) allCols ws := by
  obtain ⟨c, hc, h⟩ := C37_fft_wrong 5 (le_refl 5)
  obtain ⟨ws, h1, h2⟩ := C37_fft_defined 5 (by omega) (le_refl 5) (fun e => if e = c then 1 else 0)
  exact ⟨c, hc, ws, h1, h2, fun h3 => h ws h1 ⟨h2, h3⟩⟩

/-- **C38.** At `n=5`, for some group element the function with value one there and zero elsewhere comes back from the forward
transform and `inv`, with `120` values, but with a value less than one there. -/
theorem C38_round_trip_silently_wrong :
    ∃ c < snSize 5, ∃ ws g, fft 5 (fun e => if e = c then 1 else 0) = some ws ∧ ifft 5 ws = some (5, 120, g) ∧ g c < 1 := by
  obtain ⟨c, hc, h⟩ := C38_inverse_after_forward_wrong 5 (le_refl 5)
  obtain ⟨ws, h1, h2⟩ := C37_fft_defined 5 (by omega) (le_refl 5) (fun e => if e = c then 1 else 0)
  obtain ⟨g, h3⟩ := C38_inverse_defined 5 (by omega) (le_refl 5) ws h2
  exact ⟨c, hc, ws, g, h1, h3, h ws _ _ g h1 h3⟩

/-- **C111.** At `n=5` the forward transform in `float` fails silently: for some group element and every order of the additions, the
function with value one there and zero elsewhere has a result of the right shape, with a column at a distance of at least a third from
the column of its Fourier transform. -/
theorem C111_fft_silently_wrong (ord : Nat → SumTree) (hord : ∀ k, 2 ≤ k → k ≤ 5 → (ord k).Covers k) :
    ∃ c < snSize 5, ∃ ws ws', HasShape allCols (partitions 5) ws ∧
      IsTransform (snSize 5) (fun c => element 5 c) (fun e => if e = c then 1 else 0) allCols ws ∧
      Rounding.ieee.fft ord 5 (fun e => if e = c then 1 else 0) = some ws' ∧ HasShape allCols (partitions 5) ws' ∧
      ∀ ε : ℝ, ε < 1 / 3 → ¬ NearVec ε ws ws' := by
  obtain ⟨c, hc, h⟩ := C111_fft_wrong 5 (le_refl 5)
  obtain ⟨ws', h1, h2⟩ := C111_fft_defined 5 (by omega) (le_refl 5) Rounding.ieee ord (fun e => if e = c then 1 else 0)
  obtain ⟨-, ws, -, -, h3, h4⟩ := C37_fft_reference 5 (by omega) (fun e => if e = c then 1 else 0)
  refine ⟨c, hc, ws, ws', h3, h4, h1, h2, fun ε hε hn => ?_⟩
  have := h ord hord ws ws' ε h3 h4 h1 hn
  norm_num at this
  linarith

/-! ### examples -/

example (f : Nat → ℝ) := C37_fft_defined 5 (by omega) (by omega) f
example (f : Nat → ℝ) := C40_fft_snsm_defined 5 2 (by omega) (by omega) (by omega) f
example : ∃ ws g, fftSnSm 5 2 (fun c => (c : ℝ)) = some ws ∧ ifftSnSm 5 2 ws = some ((5, 2), 60, g) := by
  obtain ⟨ws, h1, h2⟩ := C40_fft_snsm_defined 5 2 (by omega) (by omega) (by omega) (fun c => (c : ℝ))
  obtain ⟨g, h3⟩ := C40_inv_snsm_defined 5 2 (by omega) (by omega) (by omega) ws h2
  exact ⟨ws, g, h1, h3⟩
example : ∃ ws g, Rounding.ieee.fft inOrderOf 5 (fun c => (c : ℝ)) = some ws ∧ Rounding.ieee.ifft 5 ws = some (120, g) := by
  obtain ⟨ws, h1, h2⟩ := C111_fft_defined 5 (by omega) (by omega) Rounding.ieee inOrderOf (fun c => (c : ℝ))
  obtain ⟨g, h3⟩ := C112_inverse_defined 5 (by omega) (by omega) Rounding.ieee ws h2
  exact ⟨ws, g, h1, h3⟩
example := C111_fft_silently_wrong inOrderOf fun k h _ => inOrderOf_covers k (by omega)

end Snob.Props
