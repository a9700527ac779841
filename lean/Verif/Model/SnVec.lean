import Verif.Model.FFT
import Verif.Model.SnType

/-!
Model of `SnVec` and of the operations of `SnPart` used by it.

* `VPart` (Model/FFT) is `SnPart`: a real matrix of dimensions `d`, `m`, and the irrep. Reading or writing outside the
  matrix is undefined (`none`); numbers are real, not `float`.
* `parts` of a vector is a `cnine::indexed_mapB<IntegerPartition,SnPart>`: the parts in the order of insertion, found
  again by position or by key. `cnine` is not part of the repository; this is what is assumed of it. No function
  modelled here inserts the same key twice.
* The bank in the constructor of `SnPart` is replaced by the constructor of the irrep (C54: same object).
-/

namespace Snob

namespace VPart

/-- `get_value(i,j)` -/
noncomputable def get (P : VPart) (i j : Nat) : Option ℝ := if i < P.d ∧ j < P.m then some (P.data i j) else none

/-- `inc(i,j,x)` -/
noncomputable def inc (P : VPart) (i j : Nat) (x : ℝ) : Option VPart :=
  if i < P.d ∧ j < P.m then
    some { P with data := fun i' j' => if i' = i ∧ j' = j then P.data i' j' + x else P.data i' j' }
  else none

/-- Sn/SnPart.hpp:44-48 the constructor from a partition, filled with zeros. -/
noncomputable def zero (lambda : List Nat) (m : Int) : Option VPart := do
  let R ← mkIrrep lambda
  if 0 ≤ m then some ⟨R.d, m.toNat, R, fun _ _ => 0⟩ else none

/-- The double loop `for i<I, for j<J: inc(i+ioffs,j+joffs,f(i,j))` of Sn/SnPart.hpp:177-198. -/
noncomputable def incLoop (P : VPart) (ioffs joffs I J : Nat) (f : Nat → Nat → Option ℝ) : Option VPart :=
  (List.range I).foldlM (fun P i =>
    (List.range J).foldlM (fun P j => do
      let x ← f i j
      P.inc (i + ioffs) (j + joffs) x) P) P

/-- Sn/SnPart.hpp:177-183 `add_to_block(ioffs,joffs,M)`. -/
noncomputable def addToBlock (P : VPart) (ioffs joffs : Nat) (M : VPart) : Option VPart :=
  P.incLoop ioffs joffs M.d M.m M.get

/-- Sn/SnPart.hpp:185-191 `add_block_to(ioffs,joffs,M)` with the default `c=1`: the new `M`. -/
noncomputable def addBlockTo (P : VPart) (ioffs joffs : Nat) (M : VPart) : Option VPart :=
  M.incLoop 0 0 M.d M.m fun i j => P.get (i + ioffs) (j + joffs)

/-- Sn/SnPart.hpp:193-198 `add_to_block_block(ioffs,joffs,M,io,jo,I,J)`. -/
noncomputable def addToBlockBlock (P : VPart) (ioffs joffs : Nat) (M : VPart) (io jo I J : Nat) : Option VPart :=
  P.incLoop ioffs joffs I J fun i j => M.get (i + io) (j + jo)

/-- Sn/SnPart.hpp:212-225 `apply(sigma)`, `apply_inplace(sigma)`. -/
noncomputable def apply (P : VPart) (sigma : Arr) : Option VPart := do
  let A ← P.irrep.applySigma (List.range P.m) sigma P.data
  some { P with data := A }

end VPart

/-- Sn/SnVec.hpp:25 `parts`. -/
abbrev SnVec := List VPart

namespace SnVec

/-- Sn/SnVec.hpp:35-38 the constructor from a type, filled with zeros. -/
noncomputable def zero (t : SnType) : Option SnVec := t.mapM fun p => VPart.zero p.1 p.2

/-- Sn/SnVec.hpp:109-113 `index(lambda)`; `none` for `-1`. -/
def index (v : SnVec) (lambda : List Nat) : Option Nat := v.findIdx? fun P => IP.eqb P.irrep.lambda lambda

/-- Sn/SnVec.hpp:115-120 `get_type()`. -/
def getType (v : SnVec) : Option SnType := v.foldlM (fun R P => SnType.set R P.irrep.lambda P.m) []

/-- Sn/SnVec.hpp:126-134 `apply(sigma)`; 144-148 `apply_inplace(sigma)`. -/
noncomputable def apply (v : SnVec) (sigma : Arr) : Option SnVec := v.mapM fun P => P.apply sigma

/-- Sn/SnVec.hpp:223-230: the loop of `downB` over the partitions left, with `R` and `offs`. -/
noncomputable def downLoop (v : VPart) : List (List Nat) → SnVec → Nat → Option SnVec
  | [], R, _ => some R
  | lambda :: l, R, offs => do
    let P ← VPart.zero lambda v.m
    let P ← v.addBlockTo offs 0 P
    downLoop v l (R ++ [P]) (offs + P.d)

/-- Sn/SnVec.hpp:219-232 `downB(v)`. -/
noncomputable def downB (v : VPart) : Option SnVec := do
  let l ← IP.parents v.irrep.lambda
  downLoop v l [] 0

/-- Sn/SnVec.hpp:242-248: the loop over the sub-partitions in `up`, with `dest`, `voffs` and `offs`. -/
noncomputable def upInner (v : SnVec) (m : Nat) :
    List (List Nat) → VPart → Nat → List Nat → Option (VPart × List Nat)
  | [], dest, _, offs => some (dest, offs)
  | mu :: l, dest, voffs, offs => do
    let ix ← index v mu
    let P ← v[ix]?
    let o ← offs[ix]?
    let dest ← dest.addToBlockBlock voffs 0 P 0 o P.d m
    upInner v m l dest (voffs + P.d) (offs.set ix (o + m))

/-- Sn/SnVec.hpp:238-249: the loop over the entries of the type in `up`. -/
noncomputable def upLoop (v : SnVec) : SnType → SnVec → List Nat → Option SnVec
  | [], R, _ => some R
  | p :: t, R, offs => do
    let k ← index R p.1
    let dest ← R[k]?
    let l ← IP.parents p.1
    let (dest, offs) ← upInner v dest.m l dest 0 offs
    upLoop v t (R.set k dest) offs

/-- Sn/SnVec.hpp:234-251 `up(tau,v)`. -/
noncomputable def up (tau : SnType) (v : SnVec) : Option SnVec := do
  let R ← zero tau
  upLoop v tau R (List.replicate v.length 0)

/-- Sn/SnVec.hpp:254-257: the type of the result of `cat`. -/
def catType (vs : List SnVec) : Option SnType :=
  vs.foldlM (fun tau v => v.foldlM (fun tau P => SnType.add tau P.irrep.lambda P.m) tau) []

/-- Sn/SnVec.hpp:261-264: one part entered by `cat`, with `R` and `offs`. -/
noncomputable def catStep (s : SnVec × List Nat) (P : VPart) : Option (SnVec × List Nat) := do
  let ix ← index s.1 P.irrep.lambda
  let Q ← s.1[ix]?
  let o ← s.2[ix]?
  let Q ← Q.addToBlock 0 o P
  some (s.1.set ix Q, s.2.set ix (o + P.m))

/-- Sn/SnVec.hpp:253-267 `cat(v)`. -/
noncomputable def cat (vs : List SnVec) : Option SnVec := do
  let tau ← catType vs
  let R ← zero tau
  let s ← vs.foldlM (fun s v => v.foldlM catStep s) (R, List.replicate R.length 0)
  some s.1

/-- Sn/SnVec.hpp:183-190: the loop over the sub-partitions in `accumulate_up`, with `target`, `roffs` and `sub_offs`;
`block2(..).add(block2(..))` adds one block to another of the same size. -/
noncomputable def accInner (sub : SnVec) (coffs ncols : Nat) :
    List (List Nat) → VPart → Nat → SnType → Option (VPart × SnType)
  | [], target, _, so => some (target, so)
  | mu :: l, target, roffs, so => do
    let ix ← index sub mu
    let P ← sub[ix]?
    let (so, o) ← SnType.get so mu
    if 0 ≤ o then
      let target ← target.addToBlockBlock roffs coffs P 0 o.toNat P.d ncols
      let so ← SnType.add so mu ncols
      accInner sub coffs ncols l target (roffs + P.d) so
    else none

/-- Sn/SnVec.hpp:175-192: the loop over the entries of `tau` in `accumulate_up`. -/
noncomputable def accLoop (sub : SnVec) : SnType → SnVec → SnType → SnType → Option (SnVec × SnType)
  | [], R, offs, _ => some (R, offs)
  | p :: t, R, offs, so => do
    let k ← index R p.1
    let target ← R[k]?
    let (offs, coffs) ← SnType.get offs p.1
    let l ← IP.parents p.1
    if 0 ≤ coffs ∧ 0 ≤ p.2 then
      let (target, so) ← accInner sub coffs.toNat p.2.toNat l target 0 so
      let offs ← SnType.add offs p.1 p.2
      accLoop sub t (R.set k target) offs so
    else none

/-- Sn/SnVec.hpp:172-194 `accumulate_up(offs,sub,tau)`: the new vector and the new `offs`. -/
noncomputable def accumulateUp (R : SnVec) (offs : SnType) (sub : SnVec) (tau : SnType) : Option (SnVec × SnType) :=
  accLoop sub tau R offs []

end SnVec

end Snob
