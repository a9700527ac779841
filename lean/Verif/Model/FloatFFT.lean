import Verif.Model.Float
import Verif.Model.FFT

/-!
The fast Fourier transform with rounding: the definitions of `Verif.Model.FFT` with the numbers rounded where the code
stores or computes a `float` or a `double` (see `Verif.Model.Float` for the meaning of `F.s` and `F.d`).

Simplifications: as in `Verif.Model.FFT` and `Verif.Model.Float`. The operations of `cnine`, which are not part of the
repository, are taken to compute in `float`: a product and a sum are rounded one after the other, the two products of
a rotation are rounded before they are added, and `reduce2_destructively_into` adds the `n` slices in some order. That
order is an argument, `ord n`, of the transforms.
-/

namespace Snob

/-- An order in which numbers are added: a tree with the positions of the numbers as its leaves. -/
inductive SumTree where
  | leaf (t : Nat)
  | node (a b : SumTree)

namespace SumTree

/-- the positions, from left to right -/
def leaves : SumTree → List Nat
  | leaf t => [t]
  | node a b => a.leaves ++ b.leaves

/-- the sum with rounding `r` after each addition -/
noncomputable def sum (r : ℝ → ℝ) (x : Nat → ℝ) : SumTree → ℝ
  | leaf t => x t
  | node a b => r (a.sum r x + b.sum r x)

/-- one after the other: Sn/SnMultiPart.hpp:232-236, the comment -/
def inOrder : Nat → SumTree
  | 0 => leaf 0
  | n + 1 => node (inOrder n) (leaf (n + 1))

end SumTree

namespace Rounding

variable (F : Rounding)

/-- Sn/SnIrrepObj.hpp:466-482: the body of the loop over the tableaux. The coefficients are computed in `double` and
stored in tensors of `float`; `delta` itself is a small integer. -/
noncomputable def tensorBody (ts : List Tab) (tau : Nat) (i : Nat) (st : TensorSt) : Option TensorSt :=
  match st.done[i]?, ts[i]? with
  | some true, _ => some st
  | some false, some T =>
    match Tab.applyTransp T tau (tau + 1) with
    | none => none
    | some (T', delta) =>
      if delta = 1 ∨ delta = -1 then some { st with diag := st.diag ++ [(i, (delta : ℝ))] }
      else if delta = 0 then none
      else
        let j := tabIndex ts T'
        let k := i - st.diag.length
        if 0 ≤ j ∧ j.toNat < st.done.length ∧ k < st.givens.length then
          some { st with
            givens := st.givens.set k ⟨i, j.toNat, F.s (F.d (1 / (delta : ℝ))),
              F.s (F.d √(F.d (1 - F.d (1 / ((delta : ℝ) * delta)))))⟩
            done := st.done.set j.toNat true }
        else none
  | _, _ => none

/-- Sn/SnIrrepObj.hpp:465: the loop over the tableaux `i` in the given list. -/
noncomputable def tensorLoop (ts : List Tab) (tau : Nat) : List Nat → TensorSt → Option TensorSt
  | [], st => some st
  | i :: is, st => (F.tensorBody ts tau i st).bind (tensorLoop ts tau is)

/-- Sn/SnIrrepObj.hpp:454-486 `computeYORtensors`. -/
noncomputable def computeYORtensors (n : Nat) (ts : List Tab) : Option (List TensorSt) :=
  (List.range' 1 (n - 1)).mapM fun tau =>
    F.tensorLoop ts tau (List.range ts.length)
      ⟨[], List.replicate (ts.length / 2 + 1) GSlot.zero, List.replicate ts.length false⟩

section
variable {K : Type} [DecidableEq K]

/-- `cnine::ScaleSomeSlicesFn` for one slice (Sn/SnIrrepObj.hpp:240). -/
noncomputable def scaleSlice (i : Nat) (c1 : ℝ) : List K → (Nat → K → ℝ) → (Nat → K → ℝ)
  | [], A => A
  | k :: ks, A => scaleSlice i c1 ks (setv A i k (F.s (c1 * A i k)))

/-- `cnine::GivensSomeSlicesFn` for one pair of slices (Sn/SnIrrepObj.hpp:242). -/
noncomputable def givensSlices (i i2 : Nat) (c1 c2 : ℝ) : List K → (Nat → K → ℝ) → (Nat → K → ℝ)
  | [], A => A
  | k :: ks, A =>
    let t := A i k
    let A1 := setv A i k (F.s (F.s (c1 * t) + F.s (c2 * A i2 k)))
    givensSlices i i2 c1 c2 ks (setv A1 i2 k (F.s (F.s (-c1 * A1 i2 k) + F.s (c2 * t))))

/-- Sn/SnIrrepObj.hpp:234-243 `apply_left(T,tau)` for a tensor view. -/
noncomputable def applyTauView (R : IrrepObj) (cols : List K) (tau : Int) (A : Nat → K → ℝ) :
    Option (Nat → K → ℝ) :=
  if 1 ≤ tau ∧ tau < R.n then
    match F.computeYORtensors R.n R.tableaux with
    | none => none
    | some tabs =>
      match tabs[(tau - 1).toNat]? with
      | none => none
      | some st =>
        let A1 := st.diag.foldl (fun A (x : Nat × ℝ) => F.scaleSlice x.1 x.2 cols A) A
        some ((st.givens.take ((R.d - st.diag.length) / 2)).foldl
          (fun A (g : GSlot) => F.givensSlices g.i g.j g.c1 g.c2 cols A) A1)
  else none

end

/-- Sn/SnIrrepObj.hpp:234-243, the action the transforms use. -/
noncomputable def viewAct : ViewAct := fun R cols tau A => F.applyTauView R cols tau A

/-- Sn/SnIrrepObj.hpp:166-191, the action used for matrices, with the tables of 430-452. -/
noncomputable def matAct : ViewAct := fun R cols tau A => do
  let R' ← F.mkIrrep R.lambda
  F.applyTau R' cols tau A

/-- Sn/SnMultiPart.hpp:187-189 `add_to_block_multi(ioffs,joffs,M)`. -/
noncomputable def addToBlock (P : MPart) (ioffs joffs : Nat) (M : MPart) : Option MPart :=
  if M.N = P.N ∧ ioffs + M.d ≤ P.d ∧ joffs + M.m ≤ P.m then
    some { P with data := (fun i k =>
      if ioffs ≤ i ∧ i < ioffs + M.d ∧ joffs ≤ k.2 ∧ k.2 < joffs + M.m then
        F.s (P.data i k + M.data (i - ioffs) (k.1, k.2 - joffs))
      else P.data i k) }
  else none

/-- Sn/SnMultiPart.hpp:201-205 `add_block_to_multi(ioffs,joffs,M,c)`: the new `M`. -/
noncomputable def addBlockTo (P : MPart) (ioffs joffs : Nat) (M : MPart) (c : ℝ) : Option MPart :=
  if M.N = P.N ∧ ioffs + M.d ≤ P.d ∧ joffs + M.m ≤ P.m then
    some { M with data := fun i k => F.s (M.data i k + F.s (c * P.data (i + ioffs) (k.1, k.2 + joffs))) }
  else none

/-- Sn/SnMultiPart.hpp:223-240 `reduce()`: the slices, added in the order `ord n`, go into a tensor filled with
zeros. -/
noncomputable def reduce (ord : Nat → SumTree) (P : MPart) : Option MPart :=
  let n := IP.getn P.irrep.lambda
  if n = 0 then none else
    some { P with
      N := P.N / n
      data := fun i k => F.s (0 + (ord n).sum F.s fun t => P.data i (k.1 * n + t, k.2)) }

/-- Sn/ClausenFFTpartTmplt.hpp:62-64: the loop over the blocks. -/
noncomputable def blockLoop (v : List MPart) : List BlockT → MPart → Option MPart
  | [], P => some P
  | b :: bs, P => do
    let M ← v[b.subix]?
    let P ← F.addToBlock P b.ioffs b.joffs M
    blockLoop v bs P

/-- Sn/ClausenFFTpartTmplt.hpp:60-66 `uptransform(v)`. -/
noncomputable def partUp (p : PartT) (v : List MPart) : Option MPart := do
  let N ← vecN v
  F.blockLoop v p.blocks (MPart.zero N p.irrep p.m)

/-- Sn/ClausenFFTvecTmplt.hpp:98-118 `uptransform(v)`, with the action `ap`. -/
noncomputable def levelUp (ap : ViewAct) (ord : Nat → SumTree) (L : LevelT) (v : List MPart) : Option (List MPart) := do
  let N ← vecN v
  let w ← L.parts.mapM fun p => do
    let q ← F.partUp p v
    twistUp ap L.n (N / L.n) q
  w.mapM (F.reduce ord)

/-- Sn/ClausenFFTObj.hpp:55-58, 82-85: the loop over the levels after the first. -/
noncomputable def upLoop (ap : ViewAct) (ord : Nat → SumTree) : List LevelT → List MPart → Option (List MPart)
  | [], v => some v
  | L :: Ls, v => (F.levelUp ap ord L v).bind (upLoop ap ord Ls)

/-- Sn/ClausenFFTObj.hpp:53-60 and 80-87 `operator()(f)` for a function of `N` values, with the action `ap`. -/
noncomputable def fftWith (ap : ViewAct) (ord : Nat → SumTree) (levels : List LevelT) (N : Nat) (f : Nat → ℝ) :
    Option (List VPart) := do
  let P ← MPart.ofFunction N f
  let v ← F.upLoop ap ord levels.tail [P]
  v.mapM MPart.toPart

/-- Sn/ClausenFFTvecTmplt.hpp:145-148: the loop over the blocks of one part. The `int` denominator is converted to
`float`. -/
noncomputable def unblockLoop (n : Nat) (part : MPart) : List BlockT → List MPart → Option (List MPart)
  | [], R => some R
  | q :: qs, R => do
    let M ← R[q.subix]?
    let M' ← F.addBlockTo part q.ioffs q.joffs M (F.s (F.s part.irrep.d / F.s ((M.irrep.d * (n + 1) : Nat) : ℝ)))
    unblockLoop n part qs (R.set q.subix M')

/-- Sn/ClausenFFTvecTmplt.hpp:143-151: the loop over the parts of the next level. -/
noncomputable def unpartLoop (n : Nat) : List PartT → List MPart → List MPart → Option (List MPart)
  | [], _, R => some R
  | _ :: _, [], _ => none
  | p :: ps, part :: parts, R => do
    let R ← F.unblockLoop n part p.blocks R
    unpartLoop n ps parts R

/-- Sn/ClausenFFTvecTmplt.hpp:121-154 `downtransform(V)` of the level `L` whose `next` is `L'`. -/
noncomputable def levelDown (ap : ViewAct) (L L' : LevelT) (V : List MPart) : Option (List MPart) := do
  let N ← vecN V
  let VV ← V.mapM fun q => twistDown ap L.n N (q.broadcast (L.n + 1))
  F.unpartLoop L.n L'.parts VV (L.parts.map fun p => MPart.zero (N * (L.n + 1)) p.irrep p.m)

/-- Sn/ClausenFFTObj.hpp:73-75, 98-100: the loop over the levels, last one first. -/
noncomputable def downLoop (ap : ViewAct) : List LevelT → List MPart → Option (List MPart)
  | L :: L' :: Ls, v => do
    let v ← downLoop ap (L' :: Ls) v
    F.levelDown ap L L' v
  | _, v => some v

/-- Sn/ClausenFFTObj.hpp:63-77 `inv(w)` and 90-103 `inv_snsm(w)`, with the action `ap`. -/
noncomputable def ifftWith (ap : ViewAct) (levels : List LevelT) (w : List VPart) : Option (Nat × (Nat → ℝ)) := do
  let L ← levels.getLast?
  if dimsOk L.parts w then do
    let v ← F.downLoop ap levels (w.map MPart.ofPart)
    let P ← v.head?
    some (P.d * P.N * P.m, fun e => P.data (e / (P.N * P.m)) (e / P.m % P.N, e % P.m))
  else none

/-- Sn/ClausenFFTObj.hpp:53-60 the forward transform on `Sn` as coded. -/
noncomputable def fft (ord : Nat → SumTree) (n : Nat) (f : Nat → ℝ) : Option (List VPart) := do
  let levels ← fftLevels n 1
  F.fftWith F.viewAct ord levels (Nat.factorial n) f

/-- Sn/ClausenFFTObj.hpp:63-77 `inv(w)` as coded: the number of values and the values. -/
noncomputable def ifft (n : Nat) (w : List VPart) : Option (Nat × (Nat → ℝ)) := do
  let levels ← fftLevels n 1
  F.ifftWith F.viewAct levels w

/-- Sn/ClausenFFTObj.hpp:80-87 the forward transform on `Sn/Sm` as coded. -/
noncomputable def fftSnSm (ord : Nat → SumTree) (n m : Nat) (f : Nat → ℝ) : Option (List VPart) := do
  let levels ← fftLevels n m
  F.fftWith F.viewAct ord levels (Nat.factorial n / Nat.factorial m) f

/-- Sn/ClausenFFTObj.hpp:90-103 `inv_snsm(w)` as coded: the number of values and the values. -/
noncomputable def ifftSnSm (n m : Nat) (w : List VPart) : Option (Nat × (Nat → ℝ)) := do
  let levels ← fftLevels n m
  F.ifftWith F.viewAct levels w

end Rounding

end Snob
