import Verif.Model.View
import Verif.Model.SnBank

/-!
Model of the fast Fourier transform: `Sn/ClausenFFTblockTmplt.hpp`, `Sn/ClausenFFTpartTmplt.hpp`,
`Sn/ClausenFFTvecTmplt.hpp`, `Sn/ClausenFFTObj.hpp` and the operations of `Sn/SnMultiPart.hpp` and
`Sn/SnMultiVec.hpp` that they use.

Simplifications: exact real numbers (also for the `float c` of the inverse transform); an irrep object is the value
`mkIrrep lambda` (its bank is the subject of C44); a tensor is a function of its indices together with its dimensions,
and a block outside the dimensions is `none`; where the code adds matrices of `N*d` rows obtained by fusing two
indices, the model asks for equal `N` (the code asserts this in one of the two places); the assertion
`parts.size()>0` of `getN` and the use of `v.parts[i]` outside the vector are `none`. `next` is not a pointer but an
argument of `downtransform`.

The transforms take the action of one adjacent transposition on a tensor view as an argument `ap`; the code is the
case `ap = viewAct`, and `ap = matAct` is the same code with the action used for matrices.
-/

namespace Snob

/-- Sn/ClausenFFTblockTmplt.hpp:20-33. -/
structure BlockT where
  ioffs : Nat
  joffs : Nat
  subix : Nat
deriving DecidableEq

/-- Sn/ClausenFFTpartTmplt.hpp:22-27. -/
structure PartT where
  index : Nat
  d : Nat
  m : Nat
  ioffs : Nat
  irrep : IrrepObj
  blocks : List BlockT

/-- Sn/ClausenFFTpartTmplt.hpp:33-36 the constructor. -/
noncomputable def PartT.new (lambda : List Nat) (index : Nat) : Option PartT :=
  (mkIrrep lambda).map fun R => ⟨index, R.d, 0, 0, R, []⟩

/-- Sn/ClausenFFTpartTmplt.hpp:50-54 `add(sub)`. -/
def PartT.add (p sub : PartT) : PartT :=
  { p with
    blocks := p.blocks ++ [⟨p.ioffs, p.m, sub.index⟩]
    ioffs := p.ioffs + sub.d
    m := p.m + sub.m }

/-- Sn/ClausenFFTvecTmplt.hpp:25-29. -/
structure LevelT where
  n : Nat
  parts : List PartT
  map : List (List Nat × Nat)

namespace LevelT

/-- Sn/ClausenFFTvecTmplt.hpp:42-51 `get_part(lambda)`: the position of the part returned. -/
noncomputable def getPart (L : LevelT) (lambda : List Nat) : Option (LevelT × Nat) := do
  let r ← mapFind L.map lambda
  match r with
  | some i => some (L, i)
  | none => do
    let p ← PartT.new lambda L.parts.length
    let m ← mapSet L.map lambda L.parts.length
    some ({ L with parts := L.parts ++ [p], map := m }, L.parts.length)

/-- Sn/ClausenFFTvecTmplt.hpp:85 and 89 `get_part(lambda)->add(part)`. -/
noncomputable def addTo (L : LevelT) (lambda : List Nat) (sub : PartT) : Option LevelT := do
  let (L, i) ← L.getPart lambda
  let p ← L.parts[i]?
  some { L with parts := L.parts.set i (p.add sub) }

/-- Sn/ClausenFFTvecTmplt.hpp:66-71 the constructor of the first level. -/
noncomputable def seed (n : Nat) : Option LevelT := do
  let (L, i) ← getPart ⟨n, [], []⟩ [n]
  let p ← L.parts[i]?
  some { L with parts := L.parts.set i { p with blocks := p.blocks ++ [⟨0, 0, 0⟩], d := 1, m := 1 } }

/-- Sn/ClausenFFTvecTmplt.hpp:82-87: the loop over the rows `i<k`. -/
noncomputable def growLoop (lambda : List Nat) (sub : PartT) : List Nat → LevelT → Option LevelT
  | [], L => some L
  | i :: is, L =>
    if i = 0 ∨ lambda.getD i 0 < lambda.getD (i - 1) 0 then
      (L.addTo (lambda.set i (lambda.getD i 0 + 1)) sub).bind (growLoop lambda sub is)
    else growLoop lambda sub is L

/-- Sn/ClausenFFTvecTmplt.hpp:77-90: the loop over the parts of the previous level. -/
noncomputable def nextLoop : List PartT → LevelT → Option LevelT
  | [], L => some L
  | part :: ps, L => do
    let lambda := part.irrep.lambda
    let L ← growLoop lambda part (List.range lambda.length) L
    let L ← L.addTo (IP.add lambda lambda.length 1) part
    nextLoop ps L

/-- Sn/ClausenFFTvecTmplt.hpp:74-92 the constructor of the level after `prev`. -/
noncomputable def next (prev : LevelT) : Option LevelT :=
  nextLoop prev.parts ⟨prev.n + 1, [], []⟩

/-- Sn/ClausenFFTObj.hpp:38-39, 45-46: the `c` levels from `L` on. -/
noncomputable def chain : Nat → LevelT → Option (List LevelT)
  | 0, _ => some []
  | c + 1, L => do
    let L' ← L.next
    let Ls ← chain c L'
    some (L' :: Ls)

end LevelT

/-- Sn/ClausenFFTObj.hpp:42-47 the constructor with two arguments: the levels for `m,m+1,..,n`. The constructor with
one argument, 35-40, is the case `m=1`. For `m>n` the code indexes an empty or negative sized vector: `none`. -/
noncomputable def fftLevels (n m : Nat) : Option (List LevelT) :=
  if m ≤ n ∧ 0 < m then do
    let L ← LevelT.seed m
    let Ls ← LevelT.chain (n - m) L
    some (L :: Ls)
  else none

/-- Sn/SnMultiPart.hpp:25-37: the tensor of dimensions `(d,N,m)` and its irrep. -/
structure MPart where
  N : Nat
  d : Nat
  m : Nat
  irrep : IrrepObj
  data : Nat → Nat × Nat → ℝ

namespace MPart

/-- Sn/SnMultiPart.hpp:35-37 with `fill::zero`. -/
noncomputable def zero (N : Nat) (R : IrrepObj) (m : Nat) : MPart := ⟨N, R.d, m, R, fun _ _ => 0⟩

/-- Sn/SnMultiPart.hpp:187-189 `add_to_block_multi(ioffs,joffs,M)`. -/
noncomputable def addToBlock (P : MPart) (ioffs joffs : Nat) (M : MPart) : Option MPart :=
  if M.N = P.N ∧ ioffs + M.d ≤ P.d ∧ joffs + M.m ≤ P.m then
    some { P with data := (fun i k =>
      if ioffs ≤ i ∧ i < ioffs + M.d ∧ joffs ≤ k.2 ∧ k.2 < joffs + M.m then
        P.data i k + M.data (i - ioffs) (k.1, k.2 - joffs)
      else P.data i k) }
  else none

/-- Sn/SnMultiPart.hpp:201-205 `add_block_to_multi(ioffs,joffs,M,c)`: the new `M`. -/
noncomputable def addBlockTo (P : MPart) (ioffs joffs : Nat) (M : MPart) (c : ℝ) : Option MPart :=
  if M.N = P.N ∧ ioffs + M.d ≤ P.d ∧ joffs + M.m ≤ P.m then
    some { M with data := fun i k => M.data i k + c * P.data (i + ioffs) (k.1, k.2 + joffs) }
  else none

/-- Sn/SnMultiPart.hpp:223-240 `reduce()`; 152-154 `getn()`. -/
noncomputable def reduce (P : MPart) : Option MPart :=
  let n := IP.getn P.irrep.lambda
  if n = 0 then none else
    some { P with
      N := P.N / n
      data := fun i k => ((List.range n).map fun t => P.data i (k.1 * n + t, k.2)).sum }

/-- Sn/SnMultiPart.hpp:243-257 `broadcast(_N)`. -/
noncomputable def broadcast (P : MPart) (N' : Nat) : MPart :=
  { P with
    N := P.N * N'
    data := fun i k => P.data i (k.1 / N', k.2) }

end MPart

/-- `split1(view3(),newN,n).slice2(j)`: the pairs of second and third indices in the slice. -/
def sliceCols (newN n m j : Nat) : List (Nat × Nat) :=
  (List.range newN).flatMap fun c => (List.range m).map fun k => (c * n + j, k)

/-- The action of one adjacent transposition on a tensor view. -/
abbrev ViewAct := IrrepObj → List (Nat × Nat) → Int → (Nat → Nat × Nat → ℝ) → Option (Nat → Nat × Nat → ℝ)

/-- Sn/SnIrrepObj.hpp:234-243, the action the transforms use. -/
noncomputable def viewAct : ViewAct := fun R cols tau A => R.applyTauView cols tau A

/-- Sn/SnIrrepObj.hpp:166-191, the action used for matrices. -/
noncomputable def matAct : ViewAct := fun R cols tau A => R.applyTau cols tau A

/-- Sn/SnIrrepObj.hpp:213-221 `apply_left(A,cyc)` for a tensor view (`applyCycleView` for `ap = viewAct`). -/
noncomputable def cycleWith (ap : ViewAct) (R : IrrepObj) (cols : List (Nat × Nat)) (a b : Int)
    (A : Nat → Nat × Nat → ℝ) : Option (Nat → Nat × Nat → ℝ) :=
  if a < b then forDown (b - 1) a A fun i A => ap R cols i A
  else forUp b a A fun i A => ap R cols i A

/-- Sn/ClausenFFTpartTmplt.hpp:62-64: the loop over the blocks. -/
noncomputable def blockLoop (v : List MPart) : List BlockT → MPart → Option MPart
  | [], P => some P
  | b :: bs, P => do
    let M ← v[b.subix]?
    let P ← P.addToBlock b.ioffs b.joffs M
    blockLoop v bs P

/-- Sn/SnMultiVec.hpp:132-135 `getN()`. -/
def vecN (v : List MPart) : Option Nat := v.head?.map MPart.N

/-- Sn/ClausenFFTpartTmplt.hpp:60-66 `uptransform(v)`. -/
noncomputable def PartT.uptransform (p : PartT) (v : List MPart) : Option MPart := do
  let N ← vecN v
  blockLoop v p.blocks (MPart.zero N p.irrep p.m)

/-- Sn/ClausenFFTvecTmplt.hpp:105-107: the loop over `j<n`. -/
noncomputable def twistUp (ap : ViewAct) (n newN : Nat) (q : MPart) : Option MPart := do
  let A ← forUp 0 n q.data fun j A => cycleWith ap q.irrep (sliceCols newN n q.m j.toNat) ((n : Int) - j) n A
  some { q with data := A }

/-- Sn/ClausenFFTvecTmplt.hpp:98-118 `uptransform(v)`. -/
noncomputable def LevelT.uptransform (ap : ViewAct) (L : LevelT) (v : List MPart) : Option (List MPart) := do
  let N ← vecN v
  let w ← L.parts.mapM fun p => do
    let q ← p.uptransform v
    twistUp ap L.n (N / L.n) q
  w.mapM MPart.reduce

/-- Sn/ClausenFFTvecTmplt.hpp:127-130: the loop over `j<n+1`. -/
noncomputable def twistDown (ap : ViewAct) (n N : Nat) (q : MPart) : Option MPart := do
  let A ← forUp 0 ((n : Int) + 1) q.data fun j A =>
    cycleWith ap q.irrep (sliceCols N (n + 1) q.m j.toNat) ((n : Int) + 1) ((n : Int) + 1 - j) A
  some { q with data := A }

/-- Sn/ClausenFFTvecTmplt.hpp:145-148: the loop over the blocks of one part. -/
noncomputable def unblockLoop (n : Nat) (part : MPart) : List BlockT → List MPart → Option (List MPart)
  | [], R => some R
  | q :: qs, R => do
    let M ← R[q.subix]?
    let M' ← part.addBlockTo q.ioffs q.joffs M ((part.irrep.d : ℝ) / (M.irrep.d * (n + 1)))
    unblockLoop n part qs (R.set q.subix M')

/-- Sn/ClausenFFTvecTmplt.hpp:143-151: the loop over the parts of the next level. -/
noncomputable def unpartLoop (n : Nat) : List PartT → List MPart → List MPart → Option (List MPart)
  | [], _, R => some R
  | _ :: _, [], _ => none
  | p :: ps, part :: parts, R => do
    let R ← unblockLoop n part p.blocks R
    unpartLoop n ps parts R

/-- Sn/ClausenFFTvecTmplt.hpp:121-154 `downtransform(V)` of the level `L` whose `next` is `L'`. -/
noncomputable def LevelT.downtransform (ap : ViewAct) (L L' : LevelT) (V : List MPart) : Option (List MPart) := do
  let N ← vecN V
  let VV ← V.mapM fun q => twistDown ap L.n N (q.broadcast (L.n + 1))
  unpartLoop L.n L'.parts VV (L.parts.map fun p => MPart.zero (N * (L.n + 1)) p.irrep p.m)

/-- Sn/SnPart.hpp: a matrix of dimensions `(d,m)` and its irrep. -/
structure VPart where
  d : Nat
  m : Nat
  irrep : IrrepObj
  data : Nat → Nat → ℝ

/-- Sn/SnMultiPart.hpp:86-98, a function as the only part of a vector. -/
noncomputable def MPart.ofFunction (N : Nat) (f : Nat → ℝ) : Option MPart :=
  (mkIrrep [1]).map fun R => ⟨N, 1, 1, R, fun _ k => f k.1⟩

/-- Sn/SnMultiPart.hpp:134-145, conversion to `SnPart`. -/
def MPart.toPart (P : MPart) : Option VPart :=
  if P.N = 1 then some ⟨P.d, P.m, P.irrep, fun i j => P.data i (0, j)⟩ else none

/-- Sn/SnMultiPart.hpp:127-131, conversion from `SnPart`. -/
def MPart.ofPart (P : VPart) : MPart := ⟨1, P.d, P.m, P.irrep, fun i k => P.data i k.2⟩

/-- Sn/ClausenFFTObj.hpp:55-58, 82-85: the loop over the levels after the first. -/
noncomputable def upLoop (ap : ViewAct) : List LevelT → List MPart → Option (List MPart)
  | [], v => some v
  | L :: Ls, v => (L.uptransform ap v).bind (upLoop ap Ls)

/-- Sn/ClausenFFTObj.hpp:53-60 and 80-87 `operator()(f)` for a function of `N` values. -/
noncomputable def fftWith (ap : ViewAct) (levels : List LevelT) (N : Nat) (f : Nat → ℝ) : Option (List VPart) := do
  let P ← MPart.ofFunction N f
  let v ← upLoop ap levels.tail [P]
  v.mapM MPart.toPart

/-- Sn/ClausenFFTObj.hpp:73-75, 98-100: the loop over the levels, last one first. -/
noncomputable def downLoop (ap : ViewAct) : List LevelT → List MPart → Option (List MPart)
  | L :: L' :: Ls, v => do
    let v ← downLoop ap (L' :: Ls) v
    L.downtransform ap L' v
  | _, v => some v

/-- Sn/ClausenFFTObj.hpp:64-70, 91-96: the assertions on the dimensions. -/
def dimsOk : List PartT → List VPart → Bool
  | [], [] => true
  | p :: ps, w :: ws => (w.d == p.d && w.m == p.m) && dimsOk ps ws
  | _, _ => false

/-- Sn/ClausenFFTObj.hpp:63-77 `inv(w)` and 90-103 `inv_snsm(w)`, with Sn/SnMultiPart.hpp:100-115: the number of
values of the function returned and the function itself. -/
noncomputable def ifftWith (ap : ViewAct) (levels : List LevelT) (w : List VPart) : Option (Nat × (Nat → ℝ)) := do
  let L ← levels.getLast?
  if dimsOk L.parts w then do
    let v ← downLoop ap levels (w.map MPart.ofPart)
    let P ← v.head?
    some (P.d * P.N * P.m, fun e => P.data (e / (P.N * P.m)) (e / P.m % P.N, e % P.m))
  else none

/-- Sn/ClausenFFTObj.hpp:53-60 the forward transform on `Sn` as coded. -/
noncomputable def fft (n : Nat) (f : Nat → ℝ) : Option (List VPart) := do
  let levels ← fftLevels n 1
  fftWith viewAct levels (Nat.factorial n) f

/-- Sn/ClausenFFTObj.hpp:63-77 `inv(w)`: the label `n` of the function returned is the number of levels (line 64);
then its number of values and its values. -/
noncomputable def ifft (n : Nat) (w : List VPart) : Option (Nat × Nat × (Nat → ℝ)) := do
  let levels ← fftLevels n 1
  let r ← ifftWith viewAct levels w
  some (levels.length, r)

/-- Sn/ClausenFFTObj.hpp:80-87 the forward transform on `Sn/Sm` as coded. -/
noncomputable def fftSnSm (n m : Nat) (f : Nat → ℝ) : Option (List VPart) := do
  let levels ← fftLevels n m
  fftWith viewAct levels (Nat.factorial n / Nat.factorial m) f

/-- Sn/ClausenFFTObj.hpp:90-103 `inv_snsm(w)`: labels `n`, `m`, number of values, values. -/
noncomputable def ifftSnSm (n m : Nat) (w : List VPart) : Option ((Nat × Nat) × Nat × (Nat → ℝ)) := do
  let levels ← fftLevels n m
  let r ← ifftWith viewAct levels w
  some ((n, m), r)

/-- python/bindings/SnFFT_py.cpp binds the name `inv_snsm` to `ClausenFFT::inv`, so that Sn/ClausenFFTObj.hpp:63-77
runs on the levels `m,..,n`: the label is again the number of levels. -/
noncomputable def pyInvSnSm (n m : Nat) (w : List VPart) : Option (Nat × Nat × (Nat → ℝ)) := do
  let levels ← fftLevels n m
  let r ← ifftWith viewAct levels w
  some (levels.length, r)

end Snob
