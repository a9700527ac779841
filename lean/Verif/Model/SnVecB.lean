import Verif.Model.SnVec
import Verif.Model.ProductRep

/-!
Model of `SnPartB` and `SnVecB`: parts and vectors with a batch index.

* `BPart` is `SnPartB`: a real tensor of dimensions `b`, `d`, `m`, and the irrep. Reading or writing outside the tensor is
  undefined (`none`); numbers are real, not `float`.
* `SnVecB` is a `cnine::associative_container<IntegerPartition,SnPartB>`. It is taken to go through its objects in the order
  of insertion; every function modelled here inserts the parts in the order of the keys, so that going through them in the
  order of the keys would be the same. No function inserts the same key twice.
* Dereferencing an iterator gives an object or a reference to one (the code uses `p.`, not `p->`), so that `auto p` in
  `for(auto p: *this)` is a copy, and copies of an `SnPartB` are deep (Sn/SnPartB.hpp:174-175, `rtensor` owns its memory).
* `block3(i,j,k,n0,n1,n2)` is a view of the block of the given sizes from the given position on; `-1` is for all that is left of
  the index. `add` of blocks of different sizes is undefined.
* The bank is replaced by the constructor of the irrep, as in Model/SnVec.
-/

namespace Snob

/-- Sn/SnPartB.hpp:22-25 `SnPartB`: `dims(0)`, `dims(1)`, `dims(2)`, the irrep, and the entries. -/
structure BPart where
  b : Nat
  d : Nat
  m : Nat
  irrep : IrrepObj
  data : Nat → Nat → Nat → ℝ

namespace BPart

/-- Sn/SnPartB.hpp:65-69, 148-149 `zero(b,lambda,n)`. -/
noncomputable def zero (b : Nat) (lambda : List Nat) (m : Int) : Option BPart := do
  let R ← mkIrrep lambda
  if 0 ≤ m then some ⟨b, R.d, m.toNat, R, fun _ _ _ => 0⟩ else none

/-- `get_value(b,i,j)` -/
noncomputable def get (P : BPart) (b i j : Nat) : Option ℝ := if b < P.b ∧ i < P.d ∧ j < P.m then some (P.data b i j) else none

/-- `inc(b,i,j,x)` -/
noncomputable def inc (P : BPart) (b i j : Nat) (x : ℝ) : Option BPart :=
  if b < P.b ∧ i < P.d ∧ j < P.m then
    some { P with data := fun b' i' j' => if b' = b ∧ i' = i ∧ j' = j then P.data b' i' j' + x else P.data b' i' j' }
  else none

/-- `block3(0,ioffs,joffs,-1,I,J).add(M.block3(0,io,jo,-1,I,J))` -/
noncomputable def addBlock (P : BPart) (ioffs joffs : Nat) (M : BPart) (io jo I J : Nat) : Option BPart :=
  if M.b = P.b ∧ ∀ i < I, ∀ j < J, (i + io < M.d ∧ j + jo < M.m) ∧ i + ioffs < P.d ∧ j + joffs < P.m then
    some { P with data := fun b i j => P.data b i j +
      if (ioffs ≤ i ∧ i < ioffs + I) ∧ joffs ≤ j ∧ j < joffs + J then M.data b (i - ioffs + io) (j - joffs + jo) else 0 }
  else none

/-- the entries as a view, for the irrep -/
def view (P : BPart) : View3 P.b P.irrep.d P.m := fun a i c => P.data a i c

/-- the part with the entries of a view -/
noncomputable def setView (P : BPart) (T : View3 P.b P.irrep.d P.m) : BPart :=
  { P with data := fun a i c => if h : a < P.b ∧ i < P.irrep.d ∧ c < P.m then T ⟨a, h.1⟩ ⟨i, h.2.1⟩ ⟨c, h.2.2⟩ else P.data a i c }

/-- Sn/SnPartB.hpp:291-295 `apply(sigma)`, 297-300 `apply_inplace(sigma)`. -/
noncomputable def apply (P : BPart) (sigma : Arr) : Option BPart :=
  if P.d = P.irrep.d then (P.irrep.midSigma sigma P.view).map P.setView else none

/-- Sn/SnPartB.hpp:302-311 `apply(cyc)`, `apply_inplace(cyc)`. -/
noncomputable def applyCycle (P : BPart) (a b : Int) : Option BPart :=
  if P.d = P.irrep.d then (P.irrep.midCycle a b P.view).map P.setView else none

/-- Sn/SnPartB.hpp:313-317 `apply(Transposition)`. -/
noncomputable def applyTransposition (P : BPart) (x y : Int) : Option BPart :=
  if P.d = P.irrep.d then (P.irrep.midTransposition x y P.view).map P.setView else none

end BPart

/-- Sn/SnVecB.hpp:22 -/
abbrev SnVecB := List BPart

namespace SnVecB

/-- Sn/SnVecB.hpp:39-43, 84-86 `zero(b,tau)`. -/
noncomputable def zero (b : Nat) (t : SnType) : Option SnVecB := t.mapM fun p => BPart.zero b p.1 p.2

/-- Sn/SnVecB.hpp:131-134 `getb()`. -/
def getb (v : SnVecB) : Option Nat := v.head?.map fun P => P.b

/-- the position of a key -/
def index (v : SnVecB) (lambda : List Nat) : Option Nat := v.findIdx? fun P => IP.eqb P.irrep.lambda lambda

/-- Sn/SnVecB.hpp:142-147 `get_type()`. -/
def getType (v : SnVecB) : Option SnType := v.foldlM (fun R P => SnType.set R P.irrep.lambda P.m) []

/-- Sn/SnVecB.hpp:153-161 `apply(sigma)`: `A` is a copy of the part, changed in place and inserted. -/
noncomputable def apply (v : SnVecB) (sigma : Arr) : Option SnVecB := v.mapM fun P => P.apply sigma

/-- Sn/SnVecB.hpp:175-180 `apply(Transposition)`. -/
noncomputable def applyTransposition (v : SnVecB) (x y : Int) : Option SnVecB := v.mapM fun P => P.applyTransposition x y

/-- Sn/SnVecB.hpp:163-167 `apply_inplace(sigma)`: the vector after the call. The loop variable `p` is a copy of the part; what is
changed in place is the copy. -/
noncomputable def applyInplace (v : SnVecB) (sigma : Arr) : Option SnVecB :=
  v.foldlM (fun w p => (p.apply sigma).map fun _ => w) v

/-- Sn/SnVecB.hpp:169-173 `apply_inplace(cyc)`, likewise. -/
noncomputable def applyInplaceCycle (v : SnVecB) (a b : Int) : Option SnVecB :=
  v.foldlM (fun w p => (p.applyCycle a b).map fun _ => w) v

/-- Sn/SnVecB.hpp:231-236: the loop of `down` over the partitions left, with `R` and `offs`. -/
noncomputable def downLoop (v : BPart) : List (List Nat) → SnVecB → Nat → Option SnVecB
  | [], R, _ => some R
  | lambda :: l, R, offs => do
    let P ← BPart.zero v.b lambda v.m
    let P ← P.addBlock 0 0 v offs 0 P.d v.m
    downLoop v l (R ++ [P]) (offs + P.d)

/-- Sn/SnVecB.hpp:226-238 `down(v)`. -/
noncomputable def down (v : BPart) : Option SnVecB := do
  let l ← IP.parents v.irrep.lambda
  downLoop v l [] 0

/-- Sn/SnVecB.hpp:248-252: the loop over the sub-partitions in `up`, with `dest`, `voffs` and `offs`. The block of `dest` is given
without sizes, so it is all that is left. -/
noncomputable def upInner (v : SnVecB) (m : Nat) :
    List (List Nat) → BPart → Nat → SnType → Option (BPart × SnType)
  | [], dest, _, offs => some (dest, offs)
  | mu :: l, dest, voffs, offs => do
    let ix ← index v mu
    let P ← v[ix]?
    let (offs, o) ← SnType.get offs mu
    if 0 ≤ o ∧ P.d = dest.d - voffs ∧ m = dest.m then
      let dest ← dest.addBlock voffs 0 P 0 o.toNat P.d m
      let offs ← SnType.add offs mu m
      upInner v m l dest (voffs + P.d) offs
    else none

/-- Sn/SnVecB.hpp:244-253: the loop over the entries of the type in `up`. -/
noncomputable def upLoop (v : SnVecB) : SnType → SnVecB → SnType → Option SnVecB
  | [], R, _ => some R
  | p :: t, R, offs => do
    let k ← index R p.1
    let dest ← R[k]?
    let l ← IP.parents p.1
    let (dest, offs) ← upInner v dest.m l dest 0 offs
    upLoop v t (R.set k dest) offs

/-- Sn/SnVecB.hpp:240-255 `up(tau,v)`. -/
noncomputable def up (tau : SnType) (v : SnVecB) : Option SnVecB := do
  let b ← getb v
  let R ← zero b tau
  upLoop v tau R []

/-- Sn/SnVecB.hpp:204-211: the loop over the sub-partitions in `accumulate_up`, with `target`, `roffs` and `sub_offs`. -/
noncomputable def accInner (sub : SnVecB) (coffs ncols : Nat) :
    List (List Nat) → BPart → Nat → SnType → Option (BPart × SnType)
  | [], target, _, so => some (target, so)
  | mu :: l, target, roffs, so => do
    let ix ← index sub mu
    let P ← sub[ix]?
    let (so, o) ← SnType.get so mu
    if 0 ≤ o then
      let target ← target.addBlock roffs coffs P 0 o.toNat P.d ncols
      let so ← SnType.add so mu ncols
      accInner sub coffs ncols l target (roffs + P.d) so
    else none

/-- Sn/SnVecB.hpp:197-214: the loop over the entries of `tau` in `accumulate_up`. -/
noncomputable def accLoop (sub : SnVecB) : SnType → SnVecB → SnType → SnType → Option (SnVecB × SnType)
  | [], R, offs, _ => some (R, offs)
  | p :: t, R, offs, so => do
    let k ← index R p.1
    let target ← R[k]?
    let (offs, coffs) ← SnType.get offs p.1
    let l ← IP.parents p.1
    if 0 ≤ coffs ∧ 0 ≤ p.2 then
      let (target, so) ← accInner sub coffs.toNat p.2.toNat l target 0 so
      let offs ← SnType.add offs p.1 p.2
      accLoop sub t (R.set k target) offs so
    else none

/-- Sn/SnVecB.hpp:194-215 `accumulate_up(offs,sub,tau)`: the new vector and the new `offs`. -/
noncomputable def accumulateUp (R : SnVecB) (offs : SnType) (sub : SnVecB) (tau : SnType) : Option (SnVecB × SnType) :=
  accLoop sub tau R offs []

end SnVecB

end Snob
