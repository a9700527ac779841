import Verif.Model.FFT

/-!
The tables of the tensor action once more, `Sn/SnIrrepObj.hpp:454-486`, now laid out in memory.

`Model/View.lean` stops when an entry is written outside its row of the table. A tensor of dimensions `(n-1,d/2+1,2)` is
one block of memory in which the rows follow each other (cnine, not part of the repository), and unless the checks of
cnine are compiled in, an entry written past the end of a row lands in the next row. Here this is what happens; only
writing past the end of the block is `none`.

Simplification: the two entries of `YORgivensIndices` and the two of `YORgivensCoeffs` with the same first two indices are
one slot; the four are at the same place in blocks of the same dimensions.
-/

namespace Snob

/-- Sn/SnIrrepObj.hpp:458-459: the slots in a row. -/
def rowLen (d : Nat) : Nat := d / 2 + 1

/-- Sn/SnIrrepObj.hpp:461-484: the loop over `tau`. `mem` is the block; `YORgivensIndices->set(tau-1,k,..)` is slot
`(tau-1)*rowLen+k` of it, so the loop for `tau` works on what is left of the block from the beginning of its row. The
result also has the rows of `YORdiagIndices` and `YORdiagCoeffs` up to `YORndiags`. -/
noncomputable def flatLoop (ts : List Tab) : List Nat → List GSlot → Option (List GSlot × List (List (Nat × ℝ)))
  | [], mem => some (mem, [])
  | tau :: taus, mem => do
    let off := (tau - 1) * rowLen ts.length
    let st ← tensorLoop ts tau (List.range ts.length) ⟨[], mem.drop off, List.replicate ts.length false⟩
    let r ← flatLoop ts taus (mem.take off ++ st.givens)
    some (r.1, st.diag :: r.2)

/-- Sn/SnIrrepObj.hpp:454-486 `computeYORtensors`, with the blocks filled with zeros by lines 458 and 459. -/
noncomputable def computeYORflat (n : Nat) (ts : List Tab) : Option (List GSlot × List (List (Nat × ℝ))) :=
  flatLoop ts (List.range' 1 (n - 1)) (List.replicate ((n - 1) * rowLen ts.length) GSlot.zero)

variable {K : Type} [DecidableEq K]

/-- Sn/SnIrrepObj.hpp:234-243 `apply_left(T,tau)` for a tensor view, with the tables in memory. -/
noncomputable def IrrepObj.applyTauFlat (R : IrrepObj) (cols : List K) (tau : Int) (A : Nat → K → ℝ) : Option (Nat → K → ℝ) :=
  if 1 ≤ tau ∧ tau < R.n then do
    let r ← computeYORflat R.n R.tableaux
    let diag ← r.2[(tau - 1).toNat]?
    let A1 := diag.foldl (fun A (x : Nat × ℝ) => scaleRow x.1 x.2 cols A) A
    let row := (r.1.drop ((tau - 1).toNat * rowLen R.tableaux.length)).take ((R.d - diag.length) / 2)
    some (row.foldl (fun A (g : GSlot) => mixRows g.i g.j g.c1 g.c2 cols A) A1)
  else none

/-- Sn/SnIrrepObj.hpp:234-243 as the action in the transforms. -/
noncomputable def flatAct : ViewAct := fun R cols tau A => R.applyTauFlat cols tau A

/-- Sn/ClausenFFTObj.hpp:80-87 the forward transform on `Sn/Sm` (`m=1`: on `Sn`), with the tables in memory. -/
noncomputable def fftFlat (n m : Nat) (f : Nat → ℝ) : Option (List VPart) := do
  let levels ← fftLevels n m
  fftWith flatAct levels (Nat.factorial n / Nat.factorial m) f

/-- Sn/ClausenFFTObj.hpp:90-103 the values that `inv_snsm(w)` (`m=1`: `inv(w)`) returns, with the tables in memory. -/
noncomputable def ifftFlat (n m : Nat) (w : List VPart) : Option (Nat × (Nat → ℝ)) := do
  let levels ← fftLevels n m
  ifftWith flatAct levels w

/-! ### a repair

Not in the repository: `computeYORtensors` with lines 474-478 writing to the next free slot of the row, that is with the
number of rotations written so far in place of `i-ix`. -/

/-- Sn/SnIrrepObj.hpp:466-482 repaired. Each rotation sets one mark, so the number of marks is the number of rotations. -/
noncomputable def tensorBodyNext (ts : List Tab) (tau : Nat) (i : Nat) (st : TensorSt) : Option TensorSt :=
  match st.done[i]?, ts[i]? with
  | some true, _ => some st
  | some false, some T =>
    match Tab.applyTransp T tau (tau + 1) with
    | none => none
    | some (T', delta) =>
      if delta = 1 ∨ delta = -1 then some { st with diag := st.diag ++ [(i, (delta : ℝ))] }
      else if delta = 0 then none
      else
        let j := tabIndex ts T'
        let k := st.done.count true
        if 0 ≤ j ∧ j.toNat < st.done.length ∧ k < st.givens.length then
          some { st with
            givens := st.givens.set k ⟨i, j.toNat, 1 / (delta : ℝ), √(1 - 1 / ((delta : ℝ) * delta))⟩
            done := st.done.set j.toNat true }
        else none
  | _, _ => none

/-- Sn/SnIrrepObj.hpp:465 with the repaired body. -/
noncomputable def tensorLoopNext (ts : List Tab) (tau : Nat) : List Nat → TensorSt → Option TensorSt
  | [], st => some st
  | i :: is, st => (tensorBodyNext ts tau i st).bind (tensorLoopNext ts tau is)

/-- Sn/SnIrrepObj.hpp:454-486 with the repaired body; writing outside a row is `none`. -/
noncomputable def computeYORnext (n : Nat) (ts : List Tab) : Option (List TensorSt) :=
  (List.range' 1 (n - 1)).mapM fun tau =>
    tensorLoopNext ts tau (List.range ts.length)
      ⟨[], List.replicate (ts.length / 2 + 1) GSlot.zero, List.replicate ts.length false⟩

/-- Sn/SnIrrepObj.hpp:234-243 with the repaired tables. -/
noncomputable def nextAct : ViewAct := fun R cols tau A =>
  if 1 ≤ tau ∧ tau < R.n then do
    let tabs ← computeYORnext R.n R.tableaux
    let st ← tabs[(tau - 1).toNat]?
    let A1 := st.diag.foldl (fun A (x : Nat × ℝ) => IrrepObj.scaleRow x.1 x.2 cols A) A
    some ((st.givens.take ((R.d - st.diag.length) / 2)).foldl
      (fun A (g : GSlot) => IrrepObj.mixRows g.i g.j g.c1 g.c2 cols A) A1)
  else none

end Snob
