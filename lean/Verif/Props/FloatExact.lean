import Verif.Props.Float
import Verif.Props.LetterWeights
import Verif.Model.FloatFn
import Verif.Model.FloatVec
import Verif.Props.FloatFFT

/-! # Property C145: without rounding, what is computed in floating point is what is computed exactly

The error bounds of C110 to C114 begin with calls that succeed exactly. Here also the calls that fail are the same.
`Rounding.exact` rounds nothing; the order in which the slices of a tensor are added is arbitrary. -/

namespace Snob.Props

open Snob

section
variable {K : Type} [DecidableEq K]

theorem exact_tensorLoop (ts : List Tab) (tau : Nat) (is : List Nat) (st : TensorSt) :
    Rounding.exact.tensorLoop ts tau is st = tensorLoop ts tau is st := by
  induction is generalizing st with
  | nil => rfl
  | cons i is ih =>
    have e : Rounding.exact.tensorBody ts tau i st = tensorBody ts tau i st := rfl
    unfold Rounding.tensorLoop tensorLoop
    rw [e]
    exact congrArg _ (funext fun st => ih st)

theorem exact_tensors (n : Nat) (ts : List Tab) : Rounding.exact.computeYORtensors n ts = computeYORtensors n ts := by
  unfold Rounding.computeYORtensors computeYORtensors
  simp only [exact_tensorLoop]

theorem exact_scaleSlice (i : Nat) (c1 : ℝ) (cols : List K) (A : Nat → K → ℝ) :
    Rounding.exact.scaleSlice i c1 cols A = IrrepObj.scaleRow i c1 cols A := by
  induction cols generalizing A with
  | nil => rfl
  | cons k ks ih => exact ih _

theorem exact_givensSlices (i j : Nat) (c1 c2 : ℝ) (cols : List K) (A : Nat → K → ℝ) :
    Rounding.exact.givensSlices i j c1 c2 cols A = IrrepObj.mixRows i j c1 c2 cols A := by
  induction cols generalizing A with
  | nil => rfl
  | cons k ks ih => exact ih _

theorem exact_applyTauView (R : IrrepObj) (cols : List K) (tau : Int) (A : Nat → K → ℝ) :
    Rounding.exact.applyTauView R cols tau A = R.applyTauView cols tau A := by
  unfold Rounding.applyTauView IrrepObj.applyTauView
  simp only [exact_tensors, exact_scaleSlice, exact_givensSlices]
  rfl

end

theorem exact_viewAct : Rounding.exact.viewAct = viewAct :=
  funext fun R => funext fun cols => funext fun tau => funext fun A => exact_applyTauView R cols tau A

section
variable {ord : Nat → SumTree} (hord : ∀ c, 1 ≤ c → (ord c).Covers c)
include hord

theorem exact_sum {n : Nat} (hn : 1 ≤ n) (x : Nat → ℝ) : (ord n).sum Rounding.exact.s x = ((List.range n).map x).sum := by
  have h := (hord n hn).err (u := 0) (r := Rounding.exact.s) (fun x => by simp [Rounding.exact]) le_rfl x
  simp only [add_zero, one_pow, sub_self, zero_mul, abs_nonpos_iff] at h
  rw [sub_eq_zero.1 h, list_range_sum]

theorem exact_reduce (P : MPart) : Rounding.exact.reduce ord P = P.reduce := by
  unfold Rounding.reduce MPart.reduce
  by_cases h : IP.getn P.irrep.lambda = 0
  · simp only [h, if_true]
  · simp only [h, if_false, exact_sum hord (Nat.one_le_iff_ne_zero.2 h), zero_add]
    rfl

end

theorem exact_blockLoop (v : List MPart) (bs : List BlockT) (P : MPart) : Rounding.exact.blockLoop v bs P = blockLoop v bs P := by
  induction bs generalizing P with
  | nil => rfl
  | cons b bs ih =>
    unfold Rounding.blockLoop blockLoop
    have e : ∀ M, Rounding.exact.addToBlock P b.ioffs b.joffs M = P.addToBlock b.ioffs b.joffs M := fun M => rfl
    simp only [e, ih]

theorem exact_levelUp {ord : Nat → SumTree} (hord : ∀ c, 1 ≤ c → (ord c).Covers c) (ap : ViewAct) (L : LevelT) (v : List MPart) :
    Rounding.exact.levelUp ap ord L v = L.uptransform ap v := by
  have e : Rounding.exact.reduce ord = MPart.reduce := funext fun P => exact_reduce hord P
  unfold Rounding.levelUp LevelT.uptransform Rounding.partUp PartT.uptransform
  simp only [exact_blockLoop, e]

theorem exact_upLoop {ord : Nat → SumTree} (hord : ∀ c, 1 ≤ c → (ord c).Covers c) (ap : ViewAct) (Ls : List LevelT) (v : List MPart) :
    Rounding.exact.upLoop ap ord Ls v = upLoop ap Ls v := by
  induction Ls generalizing v with
  | nil => rfl
  | cons L Ls ih =>
    unfold Rounding.upLoop upLoop
    rw [exact_levelUp hord]
    exact congrArg _ (funext fun v => ih v)

theorem exact_unblockLoop (n : Nat) (part : MPart) (qs : List BlockT) (R : List MPart) :
    Rounding.exact.unblockLoop n part qs R = unblockLoop n part qs R := by
  induction qs generalizing R with
  | nil => rfl
  | cons q qs ih =>
    unfold Rounding.unblockLoop unblockLoop
    have e : ∀ M : MPart, Rounding.exact.addBlockTo part q.ioffs q.joffs M
        (Rounding.exact.s (Rounding.exact.s part.irrep.d / Rounding.exact.s ((M.irrep.d * (n + 1) : Nat) : ℝ))) =
        part.addBlockTo q.ioffs q.joffs M ((part.irrep.d : ℝ) / (M.irrep.d * (n + 1))) := by
      intro M
      rw [show Rounding.exact.s (Rounding.exact.s part.irrep.d / Rounding.exact.s ((M.irrep.d * (n + 1) : Nat) : ℝ)) =
        (part.irrep.d : ℝ) / (M.irrep.d * (n + 1)) by simp [Rounding.exact]]
      rfl
    simp only [e, ih]

theorem exact_unpartLoop (n : Nat) (ps : List PartT) (parts R : List MPart) :
    Rounding.exact.unpartLoop n ps parts R = unpartLoop n ps parts R := by
  induction ps generalizing parts R with
  | nil => rfl
  | cons p ps ih =>
    cases parts with
    | nil => rfl
    | cons part parts =>
      unfold Rounding.unpartLoop unpartLoop
      simp only [exact_unblockLoop, ih]

theorem exact_downLoop (ap : ViewAct) (Ls : List LevelT) (v : List MPart) : Rounding.exact.downLoop ap Ls v = downLoop ap Ls v := by
  induction Ls with
  | nil => rfl
  | cons L Ls ih =>
    cases Ls with
    | nil => rfl
    | cons L' Ls =>
      unfold Rounding.downLoop downLoop
      rw [ih]
      refine congrArg _ (funext fun v => ?_)
      unfold Rounding.levelDown LevelT.downtransform
      simp only [exact_unpartLoop]

/-- **C145.** The transforms with any action on the parts, such as the one used for matrices. -/
theorem C145_action {ord : Nat → SumTree} (hord : ∀ c, 1 ≤ c → (ord c).Covers c) (ap : ViewAct) (levels : List LevelT) :
    (∀ N f, Rounding.exact.fftWith ap ord levels N f = fftWith ap levels N f) ∧
    ∀ w, Rounding.exact.ifftWith ap levels w = ifftWith ap levels w := by
  refine ⟨fun N f => ?_, fun w => ?_⟩
  · unfold Rounding.fftWith fftWith
    simp only [exact_upLoop hord]
  · unfold Rounding.ifftWith ifftWith
    simp only [exact_downLoop]

/-- **C145.** The transforms on `Sn` and `Sn/Sm` and their inverses, whatever the order of the sums: the same results, and they
fail for the same arguments. -/
theorem C145_transforms {ord : Nat → SumTree} (hord : ∀ c, 1 ≤ c → (ord c).Covers c) (n m : Nat) :
    (∀ f, Rounding.exact.fft ord n f = fft n f) ∧ (∀ f, Rounding.exact.fftSnSm ord n m f = fftSnSm n m f) ∧
    (∀ w, Rounding.exact.ifft n w = (ifft n w).map Prod.snd) ∧ ∀ w, Rounding.exact.ifftSnSm n m w = (ifftSnSm n m w).map Prod.snd := by
  have h1 : ∀ levels N f, Rounding.exact.fftWith Rounding.exact.viewAct ord levels N f = fftWith viewAct levels N f :=
    fun levels N f => by rw [exact_viewAct, (C145_action hord _ _).1]
  have h2 : ∀ levels w, Rounding.exact.ifftWith Rounding.exact.viewAct levels w = ifftWith viewAct levels w :=
    fun levels w => by rw [exact_viewAct, (C145_action hord _ _).2]
  refine ⟨fun f => ?_, fun f => ?_, fun w => ?_, fun w => ?_⟩
  · unfold Rounding.fft fft
    simp only [h1]
  · unfold Rounding.fftSnSm fftSnSm
    simp only [h1]
  · unfold Rounding.ifft ifft
    simp only [h2]
    rcases fftLevels n 1 with _ | L
    · rfl
    · change ifftWith viewAct L w = ((ifftWith viewAct L w).bind fun r => some (L.length, r)).map Prod.snd
      rcases ifftWith viewAct L w with _ | r <;> rfl
  · unfold Rounding.ifftSnSm ifftSnSm
    simp only [h2]
    rcases fftLevels n m with _ | L
    · rfl
    · change ifftWith viewAct L w = ((ifftWith viewAct L w).bind fun r => some ((n, m), r)).map Prod.snd
      rcases ifftWith viewAct L w with _ | r <;> rfl

/-- **C145.** Convolution of functions on a group. -/
theorem C145_convolve {E : Type} (I : GroupI E) (f g : Cells ℝ) : Rounding.exact.convolve I f g = I.convolve f g := rfl

/-- **C145.** The actions of permutations, cycles, inverse cycles and transpositions on vectors, and addition of vectors. -/
theorem C145_vectors (v w : SnVec) (sigma : Arr) (a b : Int) :
    Rounding.exact.vecApply v sigma = v.apply sigma ∧ Rounding.exact.vecCycle v a b = v.applyCycle a b ∧
    Rounding.exact.vecCycleInv v a b = v.applyCycleInv a b ∧ Rounding.exact.vecTransposition v a b = v.applyTransposition a b ∧
    Rounding.exact.vecAdd v w = v.add w := by
  refine ⟨?_, ?_, ?_, ?_, ?_⟩
  · unfold Rounding.vecApply SnVec.apply Rounding.partApply VPart.apply
    simp only [C106_exact.2.1]
  · unfold Rounding.vecCycle SnVec.applyCycle Rounding.partCycle VPart.applyCycle
    simp only [exact_applyCycle]
  · unfold Rounding.vecCycleInv SnVec.applyCycleInv Rounding.partCycleInv VPart.applyCycleInv Rounding.applyCycleInv IrrepObj.applyCycleInv
    simp only [exact_applyTau]
  · unfold Rounding.vecTransposition SnVec.applyTransposition Rounding.partTransposition VPart.applyTransposition Rounding.applyTransposition
      IrrepObj.applyTransposition
    simp only [exact_applyTau]
  · have e : ∀ v w, Rounding.exact.vecAddLoop v w = SnVec.addLoop v w := by
      intro v
      induction v with
      | nil => intro w; cases w <;> rfl
      | cons P v ih =>
        intro w
        cases w with
        | nil => rfl
        | cons Q w =>
          unfold Rounding.vecAddLoop SnVec.addLoop
          have e1 : Rounding.exact.partAdd P Q = P.add Q := rfl
          simp only [e1, ih]
    unfold Rounding.vecAdd SnVec.add
    simp only [e]

/-! ### examples -/

-- two orders of summation give the same transform of a function on `S4`
example (f : Nat → ℝ) : Rounding.exact.fft inOrderOf 4 f = fft 4 f := (C145_transforms inOrderOf_covers 4 1).1 f
example (f : Nat → ℝ) (ord : Nat → SumTree) (h : ∀ c, 1 ≤ c → (ord c).Covers c) :
    Rounding.exact.fft ord 4 f = Rounding.exact.fft inOrderOf 4 f :=
  ((C145_transforms h 4 1).1 f).trans ((C145_transforms inOrderOf_covers 4 1).1 f).symm
-- the transform on `S6` as coded is undefined in both
example : fft 6 (fun _ => 0) = none :=
  ((C145_transforms inOrderOf_covers 6 1).1 _).symm.trans (C111_fft_undefined _ _ 6 (by omega) _)
-- addition of vectors with different numbers of parts fails in both
example (P : VPart) : Rounding.exact.vecAdd [P] [] = none := (C145_vectors [P] [] [] 0 0).2.2.2.2.trans rfl

end Snob.Props
