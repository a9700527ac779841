import Verif.Model.FFT

/-!
The transforms of `Model/FFT.lean` once more, with a counter of the operations on `float`: an addition, a subtraction, a
multiplication or a division of two `float`s counts 1; assignments, the change of a sign and work with integers count 0.

Simplifications, besides those of `Model/FFT.lean`: only the work on the values of the function counts, not the making of
the tables of the irreps (`computeYOR`, `computeYORtensors`), which happens once for an irrep. The functions of `cnine` are
not part of the repository; `add_to_block_multi` is taken to do one addition for each entry of the block,
`add_block_to_multi` one multiplication and one addition for each entry, and the reduction of `n` slices `n-1` additions
for each entry of the result.
-/

namespace Snob

/-- A computation that may be undefined, with the number of operations it does. -/
def Cnt (α : Type) : Type := Option (α × Nat)

namespace Cnt

variable {α β : Type}

/-- One computation after another: the operations add up. -/
def andThen (x : Cnt α) (f : α → Cnt β) : Cnt β :=
  match x with
  | none => none
  | some (a, k) =>
    match f a with
    | none => none
    | some (b, l) => some (b, k + l)

instance : Monad Cnt where
  pure a := some (a, 0)
  bind := andThen

/-- `k` operations. -/
def tick (k : Nat) : Cnt Unit := some ((), k)

/-- A computation without operations on `float`. -/
def free (x : Option α) : Cnt α :=
  match x with
  | none => none
  | some a => some (a, 0)

/-- The result without the counter. -/
def value (x : Cnt α) : Option α :=
  match x with
  | none => none
  | some (a, _) => some a

end Cnt

variable {S : Type}

/-- `iterUp` of `Model/Mem.lean` with a counter. -/
def iterUpC (body : Int → S → Cnt S) : Nat → Int → S → Cnt S
  | 0, _, s => pure s
  | k + 1, i, s => do
    let s ← body i s
    iterUpC body k (i + 1) s

/-- `for(int i=lo; i<hi; i++) body`. -/
def forUpC (lo hi : Int) (s : S) (body : Int → S → Cnt S) : Cnt S :=
  iterUpC body (hi - lo).toNat lo s

/-- `iterDown` of `Model/Mem.lean` with a counter. -/
def iterDownC (body : Int → S → Cnt S) : Nat → Int → S → Cnt S
  | 0, _, s => pure s
  | k + 1, i, s => do
    let s ← body i s
    iterDownC body k (i - 1) s

/-- `for(int i=hi; i>=lo; i--) body`. -/
def forDownC (hi lo : Int) (s : S) (body : Int → S → Cnt S) : Cnt S :=
  iterDownC body (hi - lo + 1).toNat hi s

/-- The loop over the elements of a list, collecting the results. -/
def eachC {α β : Type} (f : α → Cnt β) : List α → Cnt (List β)
  | [] => pure []
  | x :: xs => do
    let y ← f x
    let ys ← eachC f xs
    pure (y :: ys)

variable {K : Type} [DecidableEq K]

namespace IrrepObj

/-- Sn/SnIrrepObj.hpp:179-180 (also 325-327, 386-387): one multiplication for each column. -/
noncomputable def scaleRowC (i : Nat) (c1 : ℝ) : List K → (Nat → K → ℝ) → Cnt (Nat → K → ℝ)
  | [], A => pure A
  | k :: ks, A => do
    Cnt.tick 1
    scaleRowC i c1 ks (setv A i k (c1 * A i k))

/-- Sn/SnIrrepObj.hpp:183-187 (also 329-334, 389-393): for each column four multiplications and two additions. -/
noncomputable def mixRowsC (i i2 : Nat) (c1 c2 : ℝ) : List K → (Nat → K → ℝ) → Cnt (Nat → K → ℝ)
  | [], A => pure A
  | k :: ks, A => do
    let t := A i k
    Cnt.tick 3
    let A1 := setv A i k (c1 * t + c2 * A i2 k)
    Cnt.tick 3
    mixRowsC i i2 c1 c2 ks (setv A1 i2 k (-c1 * A1 i2 k + c2 * t))

/-- Sn/SnIrrepObj.hpp:174-189, the body of the loop over the rows. -/
noncomputable def tauBodyC (R : IrrepObj) (cols : List K) (tau : Int) (i : Nat)
    (st : (Nat → K → ℝ) × List Bool) : Cnt ((Nat → K → ℝ) × List Bool) :=
  match st.2[i]? with
  | none => Cnt.free none
  | some true => pure st
  | some false =>
    match R.slot tau i with
    | none => Cnt.free none
    | some s =>
      if s.t = -1 then do
        let A ← scaleRowC i s.c1 cols st.1
        pure (A, st.2)
      else if 0 ≤ s.t ∧ s.t.toNat < R.d then do
        let A ← mixRowsC i s.t.toNat s.c1 s.c2 cols st.1
        pure (A, st.2.set s.t.toNat true)
      else Cnt.free none

/-- Sn/SnIrrepObj.hpp:173: the loop over the rows. -/
noncomputable def tauLoopC (R : IrrepObj) (cols : List K) (tau : Int) :
    List Nat → (Nat → K → ℝ) × List Bool → Cnt ((Nat → K → ℝ) × List Bool)
  | [], st => pure st
  | i :: is, st => do
    let st ← tauBodyC R cols tau i st
    tauLoopC R cols tau is st

/-- Sn/SnIrrepObj.hpp:166-191 `apply_left(A,tau)`. -/
noncomputable def applyTauC (R : IrrepObj) (cols : List K) (tau : Int) (A : Nat → K → ℝ) : Cnt (Nat → K → ℝ) := do
  let st ← tauLoopC R cols tau (List.range R.d) (A, List.replicate R.d false)
  pure st.1

/-- Sn/SnIrrepObj.hpp:126-140 `apply_left(A,sigma)` for a matrix. -/
noncomputable def applySigmaC (R : IrrepObj) (cols : List K) (sigma : Arr) (A : Nat → K → ℝ) : Cnt (Nat → K → ℝ) :=
  if sigma.length = R.n then do
    let s ← Cnt.free (shifts R.n sigma)
    forUpC 2 ((R.n : Int) + 1) A fun i A => do
      let b ← Cnt.free (rd s (i - 1))
      forDownC (i - 1) b A fun a A => applyTauC R cols a A
  else Cnt.free none

/-- Sn/SnIrrepObj.hpp:234-238, the slices that are scaled. -/
noncomputable def scaleSomeC (cols : List K) : List (Nat × ℝ) → (Nat → K → ℝ) → Cnt (Nat → K → ℝ)
  | [], A => pure A
  | x :: xs, A => do
    let A ← scaleRowC x.1 x.2 cols A
    scaleSomeC cols xs A

/-- Sn/SnIrrepObj.hpp:239-243, the pairs of slices that are rotated. -/
noncomputable def givensSomeC (cols : List K) : List GSlot → (Nat → K → ℝ) → Cnt (Nat → K → ℝ)
  | [], A => pure A
  | g :: gs, A => do
    let A ← mixRowsC g.i g.j g.c1 g.c2 cols A
    givensSomeC cols gs A

/-- Sn/SnIrrepObj.hpp:234-243 `apply_left(T,tau)` for a tensor view. -/
noncomputable def applyTauViewC (R : IrrepObj) (cols : List K) (tau : Int) (A : Nat → K → ℝ) : Cnt (Nat → K → ℝ) :=
  if 1 ≤ tau ∧ tau < R.n then
    match computeYORtensors R.n R.tableaux with
    | none => Cnt.free none
    | some tabs =>
      match tabs[(tau - 1).toNat]? with
      | none => Cnt.free none
      | some st => do
        let A1 ← scaleSomeC cols st.diag A
        givensSomeC cols (st.givens.take ((R.d - st.diag.length) / 2)) A1
  else Cnt.free none

end IrrepObj

/-- The action of one adjacent transposition on a tensor view, with a counter. -/
abbrev ViewActC := IrrepObj → List (Nat × Nat) → Int → (Nat → Nat × Nat → ℝ) → Cnt (Nat → Nat × Nat → ℝ)

/-- Sn/SnIrrepObj.hpp:234-243, the action the transforms use. -/
noncomputable def viewActC : ViewActC := fun R cols tau A => R.applyTauViewC cols tau A

/-- Sn/SnIrrepObj.hpp:166-191, the action used for matrices. -/
noncomputable def matActC : ViewActC := fun R cols tau A => R.applyTauC cols tau A

/-- Sn/SnIrrepObj.hpp:213-221 `apply_left(A,cyc)` for a tensor view. -/
noncomputable def cycleC (ap : ViewActC) (R : IrrepObj) (cols : List (Nat × Nat)) (a b : Int)
    (A : Nat → Nat × Nat → ℝ) : Cnt (Nat → Nat × Nat → ℝ) :=
  if a < b then forDownC (b - 1) a A fun i A => ap R cols i A
  else forUpC b a A fun i A => ap R cols i A

/-- Sn/SnMultiPart.hpp:187-189 `add_to_block_multi(ioffs,joffs,M)`: one addition for each entry of `M`. -/
noncomputable def MPart.addToBlockC (P : MPart) (ioffs joffs : Nat) (M : MPart) : Cnt MPart := do
  Cnt.tick (M.d * M.N * M.m)
  Cnt.free (P.addToBlock ioffs joffs M)

/-- Sn/SnMultiPart.hpp:201-205 `add_block_to_multi(ioffs,joffs,M,c)`: for each entry of `M` a multiplication and an
addition. -/
noncomputable def MPart.addBlockToC (P : MPart) (ioffs joffs : Nat) (M : MPart) (c : ℝ) : Cnt MPart := do
  Cnt.tick (2 * (M.d * M.N * M.m))
  Cnt.free (P.addBlockTo ioffs joffs M c)

/-- Sn/SnMultiPart.hpp:223-240 `reduce()`: `n-1` additions for each entry of the result. -/
noncomputable def MPart.reduceC (P : MPart) : Cnt MPart := do
  let Q ← Cnt.free P.reduce
  Cnt.tick ((IP.getn P.irrep.lambda - 1) * (Q.d * Q.N * Q.m))
  pure Q

/-- Sn/ClausenFFTpartTmplt.hpp:62-64: the loop over the blocks. -/
noncomputable def blockLoopC (v : List MPart) : List BlockT → MPart → Cnt MPart
  | [], P => pure P
  | b :: bs, P => do
    let M ← Cnt.free v[b.subix]?
    let P ← P.addToBlockC b.ioffs b.joffs M
    blockLoopC v bs P

/-- Sn/ClausenFFTpartTmplt.hpp:60-66 `uptransform(v)`. -/
noncomputable def PartT.uptransformC (p : PartT) (v : List MPart) : Cnt MPart := do
  let N ← Cnt.free (vecN v)
  blockLoopC v p.blocks (MPart.zero N p.irrep p.m)

/-- Sn/ClausenFFTvecTmplt.hpp:105-107: the loop over `j<n`. -/
noncomputable def twistUpC (ap : ViewActC) (n newN : Nat) (q : MPart) : Cnt MPart := do
  let A ← forUpC 0 n q.data fun j A => cycleC ap q.irrep (sliceCols newN n q.m j.toNat) ((n : Int) - j) n A
  pure { q with data := A }

/-- Sn/ClausenFFTvecTmplt.hpp:98-118 `uptransform(v)`. -/
noncomputable def LevelT.uptransformC (ap : ViewActC) (L : LevelT) (v : List MPart) : Cnt (List MPart) := do
  let N ← Cnt.free (vecN v)
  let w ← eachC (fun p => do
    let q ← p.uptransformC v
    twistUpC ap L.n (N / L.n) q) L.parts
  eachC MPart.reduceC w

/-- Sn/ClausenFFTvecTmplt.hpp:127-130: the loop over `j<n+1`. -/
noncomputable def twistDownC (ap : ViewActC) (n N : Nat) (q : MPart) : Cnt MPart := do
  let A ← forUpC 0 ((n : Int) + 1) q.data fun j A =>
    cycleC ap q.irrep (sliceCols N (n + 1) q.m j.toNat) ((n : Int) + 1) ((n : Int) + 1 - j) A
  pure { q with data := A }

/-- Sn/ClausenFFTvecTmplt.hpp:145-148: the loop over the blocks of one part; the weight is one division. -/
noncomputable def unblockLoopC (n : Nat) (part : MPart) : List BlockT → List MPart → Cnt (List MPart)
  | [], R => pure R
  | q :: qs, R => do
    let M ← Cnt.free R[q.subix]?
    Cnt.tick 1
    let M' ← part.addBlockToC q.ioffs q.joffs M ((part.irrep.d : ℝ) / (M.irrep.d * (n + 1)))
    unblockLoopC n part qs (R.set q.subix M')

/-- Sn/ClausenFFTvecTmplt.hpp:143-151: the loop over the parts of the next level. -/
noncomputable def unpartLoopC (n : Nat) : List PartT → List MPart → List MPart → Cnt (List MPart)
  | [], _, R => pure R
  | _ :: _, [], _ => Cnt.free none
  | p :: ps, part :: parts, R => do
    let R ← unblockLoopC n part p.blocks R
    unpartLoopC n ps parts R

/-- Sn/ClausenFFTvecTmplt.hpp:121-154 `downtransform(V)` of the level `L` whose `next` is `L'`. -/
noncomputable def LevelT.downtransformC (ap : ViewActC) (L L' : LevelT) (V : List MPart) : Cnt (List MPart) := do
  let N ← Cnt.free (vecN V)
  let VV ← eachC (fun q => twistDownC ap L.n N (q.broadcast (L.n + 1))) V
  unpartLoopC L.n L'.parts VV (L.parts.map fun p => MPart.zero (N * (L.n + 1)) p.irrep p.m)

/-- Sn/ClausenFFTObj.hpp:55-58, 82-85: the loop over the levels after the first. -/
noncomputable def upLoopC (ap : ViewActC) : List LevelT → List MPart → Cnt (List MPart)
  | [], v => pure v
  | L :: Ls, v => do
    let v ← L.uptransformC ap v
    upLoopC ap Ls v

/-- Sn/ClausenFFTObj.hpp:53-60 and 80-87 `operator()(f)` for a function of `N` values. -/
noncomputable def fftWithC (ap : ViewActC) (levels : List LevelT) (N : Nat) (f : Nat → ℝ) : Cnt (List VPart) := do
  let P ← Cnt.free (MPart.ofFunction N f)
  let v ← upLoopC ap levels.tail [P]
  Cnt.free (v.mapM MPart.toPart)

/-- Sn/ClausenFFTObj.hpp:73-75, 98-100: the loop over the levels, last one first. -/
noncomputable def downLoopC (ap : ViewActC) : List LevelT → List MPart → Cnt (List MPart)
  | L :: L' :: Ls, v => do
    let v ← downLoopC ap (L' :: Ls) v
    L.downtransformC ap L' v
  | _, v => pure v

/-- Sn/ClausenFFTObj.hpp:63-77 `inv(w)` and 90-103 `inv_snsm(w)`. -/
noncomputable def ifftWithC (ap : ViewActC) (levels : List LevelT) (w : List VPart) : Cnt (Nat × (Nat → ℝ)) := do
  let L ← Cnt.free levels.getLast?
  if dimsOk L.parts w then do
    let v ← downLoopC ap levels (w.map MPart.ofPart)
    let P ← Cnt.free v.head?
    pure (P.d * P.N * P.m, fun e => P.data (e / (P.N * P.m)) (e / P.m % P.N, e % P.m))
  else Cnt.free none

/-- Sn/ClausenFFTObj.hpp:80-87 the forward transform on `Sn/Sm` as coded; `Sn` is the case `m=1`. -/
noncomputable def fftSnSmC (n m : Nat) (f : Nat → ℝ) : Cnt (List VPart) := do
  let levels ← Cnt.free (fftLevels n m)
  fftWithC viewActC levels (Nat.factorial n / Nat.factorial m) f

/-- Sn/ClausenFFTObj.hpp:53-60 the forward transform on `Sn` as coded. -/
noncomputable def fftC (n : Nat) (f : Nat → ℝ) : Cnt (List VPart) := do
  let levels ← Cnt.free (fftLevels n 1)
  fftWithC viewActC levels (Nat.factorial n) f

/-- Sn/ClausenFFTObj.hpp:63-77 `inv(w)` as coded. -/
noncomputable def ifftC (n : Nat) (w : List VPart) : Cnt (Nat × Nat × (Nat → ℝ)) := do
  let levels ← Cnt.free (fftLevels n 1)
  let r ← ifftWithC viewActC levels w
  pure (levels.length, r)

end Snob
