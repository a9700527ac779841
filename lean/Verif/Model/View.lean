import Verif.Model.Irrep

/-!
Model of the action of an irrep on the first index of a tensor view, `Sn/SnIrrepObj.hpp:196-268`, and of
its tables, `Sn/SnIrrepObj.hpp:454-486`.

Simplifications: exact real numbers; a view is a function `A i k` of the first index and of the pair `k`
of the other two, restricted to the list `cols` of pairs in the view. Writing a table outside its declared
size is `none`. `cnine::ScaleSomeSlicesFn` and `cnine::GivensSomeSlicesFn` are not part of the repository;
they are taken to do, slice by slice in order, what the older code in the comment at lines 245-267 does.
-/

namespace Snob

/-- One entry of `YORgivensIndices` and `YORgivensCoeffs` (Sn/SnIrrepObj.hpp:52-53). -/
structure GSlot where
  i : Nat
  j : Nat
  c1 : ℝ
  c2 : ℝ

/-- Contents of a table filled with zeros. -/
noncomputable def GSlot.zero : GSlot := ⟨0, 0, 0, 0⟩

/-- Sn/SnIrrepObj.hpp:49-53: the tables of one transposition, `diag` being the first `YORndiags` entries
of `YORdiagIndices` and `YORdiagCoeffs`, and `done` (line 464). -/
structure TensorSt where
  diag : List (Nat × ℝ)
  givens : List GSlot
  done : List Bool

/-- Sn/SnIrrepObj.hpp:466-482: the body of the loop over the tableaux. -/
noncomputable def tensorBody (ts : List Tab) (tau : Nat) (i : Nat) (st : TensorSt) : Option TensorSt :=
  match st.done[i]?, ts[i]? with
  | some true, _ => some st
  | some false, some T =>
    match Tab.applyTransp T tau (tau + 1) with
    | none => none
    | some (T', delta) =>
      if delta = 1 ∨ delta = -1 then some { st with diag := st.diag ++ [(i, (delta : ℝ))] }
      else if delta = 0 then none
      else
        let j := tabIndex ts T'
        let k := i - st.diag.length
        if 0 ≤ j ∧ j.toNat < st.done.length ∧ k < st.givens.length then
          some { st with
            givens := st.givens.set k ⟨i, j.toNat, 1 / (delta : ℝ), √(1 - 1 / ((delta : ℝ) * delta))⟩
            done := st.done.set j.toNat true }
        else none
  | _, _ => none

/-- Sn/SnIrrepObj.hpp:465: the loop over the tableaux `i` in the given list. -/
noncomputable def tensorLoop (ts : List Tab) (tau : Nat) : List Nat → TensorSt → Option TensorSt
  | [], st => some st
  | i :: is, st => (tensorBody ts tau i st).bind (tensorLoop ts tau is)

/-- Sn/SnIrrepObj.hpp:454-486 `computeYORtensors`: the tables for `tau=1,..,n-1`. -/
noncomputable def computeYORtensors (n : Nat) (ts : List Tab) : Option (List TensorSt) :=
  (List.range' 1 (n - 1)).mapM fun tau =>
    tensorLoop ts tau (List.range ts.length)
      ⟨[], List.replicate (ts.length / 2 + 1) GSlot.zero, List.replicate ts.length false⟩

variable {K : Type} [DecidableEq K]

namespace IrrepObj

/-- Sn/SnIrrepObj.hpp:234-243 `apply_left(T,tau)` for a tensor view. -/
noncomputable def applyTauView (R : IrrepObj) (cols : List K) (tau : Int) (A : Nat → K → ℝ) :
    Option (Nat → K → ℝ) :=
  if 1 ≤ tau ∧ tau < R.n then
    match computeYORtensors R.n R.tableaux with
    | none => none
    | some tabs =>
      match tabs[(tau - 1).toNat]? with
      | none => none
      | some st =>
        let A1 := st.diag.foldl (fun A (x : Nat × ℝ) => scaleRow x.1 x.2 cols A) A
        some ((st.givens.take ((R.d - st.diag.length) / 2)).foldl
          (fun A (g : GSlot) => mixRows g.i g.j g.c1 g.c2 cols A) A1)
  else none

/-- Sn/SnIrrepObj.hpp:213-221 `apply_left(A,cyc)` for a tensor view. -/
noncomputable def applyCycleView (R : IrrepObj) (cols : List K) (a b : Int) (A : Nat → K → ℝ) :
    Option (Nat → K → ℝ) :=
  if a < b then forDown (b - 1) a A fun i A => applyTauView R cols i A
  else forUp b a A fun i A => applyTauView R cols i A

/-- Sn/SnIrrepObj.hpp:198-210 `apply_left(A,sigma)` for a tensor view. -/
noncomputable def applySigmaView (R : IrrepObj) (cols : List K) (sigma : Arr) (A : Nat → K → ℝ) :
    Option (Nat → K → ℝ) :=
  if sigma.length = R.n then do
    let s ← shifts R.n sigma
    forUp 2 ((R.n : Int) + 1) A fun i A => do
      let b ← rd s (i - 1)
      forDown (i - 1) b A fun a A => applyTauView R cols a A
  else none

/-- Sn/SnIrrepObj.hpp:224-231 `apply_left(A,Transposition)` for a tensor view. -/
noncomputable def applyTranspositionView (R : IrrepObj) (cols : List K) (x y : Int) (A : Nat → K → ℝ) :
    Option (Nat → K → ℝ) := do
  let a := min x y
  let b := max x y
  let A ← forDown (b - 1) a A fun i A => applyTauView R cols i A
  forUp (a + 1) b A fun i A => applyTauView R cols i A

end IrrepObj

end Snob
