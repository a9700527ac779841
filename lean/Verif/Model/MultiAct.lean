import Verif.Model.FFT

/-!
Model of the group actions of `SnMultiPart` (Sn/SnMultiPart.hpp:260-303) and `SnMultiVec` (Sn/SnMultiVec.hpp:173-177).

`apply_inplace` and `apply_inplace_inv` change the dimensions of the tensor from `(d,N,m)` to `(d,N*m)`, call the versions
of `apply_left` for a block of columns, and change the dimensions back. `apply` changes the dimensions of `*this` and calls
`apply_left` with the copy, whose dimensions are still `(d,N,m)`, so that `get_value(i,j)` and `set_value(i,j,x)` are called
with two indices for a tensor with three.

cnine is not part of the repository. Assumptions: a tensor of dimensions `(d,N,m)` has strides `(N*m,m,1)`; `reshape`
leaves the memory as it is; `get_value(i,j)` uses the first two strides and checks the number of indices only if cnine is
compiled with range checks. The functions for `apply` are those without range checks; with them every access throws.
A read or write outside the memory is `none`. Numbers of columns and copies are `Nat`, not `int`.
-/

namespace Snob.MPart

/-- Sn/SnMultiPart.hpp:274, 291, 299 `reshape({dims(0),N*m})` -/
def toMatrix (P : MPart) : Nat → Nat → ℝ := fun i j => P.data i (j / P.m, j % P.m)

/-- Sn/SnMultiPart.hpp:276, 293, 301 `reshape({dims(0),N,m})` -/
def ofMatrix (P : MPart) (A : Nat → Nat → ℝ) : MPart :=
  { P with data := fun i k => if k.1 < P.N ∧ k.2 < P.m then A i (k.1 * P.m + k.2) else P.data i k }

/-- the columns `o*m,...,(o+s)*m-1`; `none` if there are not as many -/
def blockCols (P : MPart) (o s : Nat) : Option (List Nat) :=
  if o + s ≤ P.N then some (List.range' (o * P.m) (s * P.m)) else none

/-- Sn/SnMultiPart.hpp:272-278 `apply_inplace(sigma,o,s)` -/
noncomputable def applyInplace (P : MPart) (sigma : Arr) (o s : Nat) : Option MPart := do
  let cols ← P.blockCols o s
  let A ← P.irrep.applySigma cols sigma P.toMatrix
  some (P.ofMatrix A)

/-- Sn/SnMultiPart.hpp:289-295 `apply_inplace(cyc,o,s)` -/
noncomputable def applyCycleInplace (P : MPart) (a b : Int) (o s : Nat) : Option MPart := do
  let cols ← P.blockCols o s
  let A ← P.irrep.applyCycleBlock cols a b P.toMatrix
  some (P.ofMatrix A)

/-- Sn/SnMultiPart.hpp:297-303 `apply_inplace_inv(cyc,o,s)` -/
noncomputable def applyCycleInvInplace (P : MPart) (a b : Int) (o s : Nat) : Option MPart := do
  let cols ← P.blockCols o s
  let A ← P.irrep.applyCycleInv cols a b P.toMatrix
  some (P.ofMatrix A)

/-! ### `apply`: two indices for a tensor with three -/

/-- the place of the entry `(i,c,k)` in memory -/
def addr3 (P : MPart) (i c k : Nat) : Nat := (i * P.N + c) * P.m + k

/-- the place that `get_value(i,j)` and `set_value(i,j,x)` use -/
def addr2 (P : MPart) (i j : Nat) : Nat := i * (P.N * P.m) + j * P.m

/-- the memory of the tensor -/
noncomputable def memory (P : MPart) : List ℝ :=
  (List.range (P.d * (P.N * P.m))).map fun a => P.data (a / P.m / P.N) (a / P.m % P.N, a % P.m)

/-- the tensor with new memory -/
noncomputable def ofMemory (P : MPart) (v : List ℝ) : MPart :=
  { P with data := fun i k =>
      if i < P.d ∧ k.1 < P.N ∧ k.2 < P.m then (v[P.addr3 i k.1 k.2]?).getD 0 else P.data i k }

/-- `set_value` -/
def put (v : List ℝ) (a : Nat) (x : ℝ) : Option (List ℝ) := if a < v.length then some (v.set a x) else none

/-- Sn/SnIrrepObj.hpp:386-387 for the copy -/
noncomputable def scaleF (P : MPart) (i : Nat) (c1 : ℝ) : List Nat → List ℝ → Option (List ℝ)
  | [], v => some v
  | j :: js, v => do
    let x ← v[P.addr2 i j]?
    let v ← put v (P.addr2 i j) (c1 * x)
    scaleF P i c1 js v

/-- Sn/SnIrrepObj.hpp:389-393 for the copy -/
noncomputable def mixF (P : MPart) (i i2 : Nat) (c1 c2 : ℝ) : List Nat → List ℝ → Option (List ℝ)
  | [], v => some v
  | j :: js, v => do
    let t ← v[P.addr2 i j]?
    let x ← v[P.addr2 i2 j]?
    let v ← put v (P.addr2 i j) (c1 * t + c2 * x)
    let x ← v[P.addr2 i2 j]?
    let v ← put v (P.addr2 i2 j) (-c1 * x + c2 * t)
    mixF P i i2 c1 c2 js v

/-- Sn/SnIrrepObj.hpp:381-396, the body of the loop over the rows -/
noncomputable def tauBodyF (P : MPart) (cols : List Nat) (tau : Int) (i : Nat)
    (st : List ℝ × List Bool) : Option (List ℝ × List Bool) :=
  match st.2[i]? with
  | none => none
  | some true => some st
  | some false =>
    match P.irrep.slot tau i with
    | none => none
    | some s =>
      if s.t = -1 then (scaleF P i s.c1 cols st.1).map fun v => (v, st.2)
      else if 0 ≤ s.t ∧ s.t.toNat < P.irrep.d then
        (mixF P i s.t.toNat s.c1 s.c2 cols st.1).map fun v => (v, st.2.set s.t.toNat true)
      else none

/-- Sn/SnIrrepObj.hpp:381: the loop over the rows -/
noncomputable def tauLoopF (P : MPart) (cols : List Nat) (tau : Int) :
    List Nat → List ℝ × List Bool → Option (List ℝ × List Bool)
  | [], st => some st
  | i :: is, st => (tauBodyF P cols tau i st).bind (tauLoopF P cols tau is)

/-- Sn/SnIrrepObj.hpp:375-397 `apply_left(R,tau,beg,end)` for the copy `R` -/
noncomputable def tauF (P : MPart) (cols : List Nat) (tau : Int) (v : List ℝ) : Option (List ℝ) :=
  (tauLoopF P cols tau (List.range P.irrep.d) (v, List.replicate P.irrep.d false)).map Prod.fst

/-- Sn/SnIrrepObj.hpp:349-363 `apply_left(R,sigma,beg,end)` for the copy `R` -/
noncomputable def sigmaF (P : MPart) (cols : List Nat) (sigma : Arr) (v : List ℝ) : Option (List ℝ) :=
  if sigma.length = P.irrep.n then do
    let s ← IrrepObj.shifts P.irrep.n sigma
    forUp 2 ((P.irrep.n : Int) + 1) v fun i v => do
      let b ← rd s (i - 1)
      forDown (i - 1) b v fun a v => P.tauF cols a v
  else none

/-- Sn/SnMultiPart.hpp:263-270 `apply(sigma,o,s)` -/
noncomputable def apply (P : MPart) (sigma : Arr) (o s : Nat) : Option MPart :=
  (P.sigmaF (List.range' (o * P.m) (s * P.m)) sigma P.memory).map P.ofMemory

/-- Sn/SnMultiPart.hpp:280-287 `apply(cyc,o,s)` with Sn/SnIrrepObj.hpp:365-368 for the copy -/
noncomputable def applyCyc (P : MPart) (a b : Int) (o s : Nat) : Option MPart :=
  (forDown (b - 1) a P.memory fun i v => P.tauF (List.range' (o * P.m) (s * P.m)) i v).map P.ofMemory

/-- Sn/SnMultiVec.hpp:173-177 `apply_inplace_inv(cyc,o,s)` -/
noncomputable def vecInvInplace (V : List MPart) (a b : Int) (o s : Nat) : Option (List MPart) :=
  V.mapM fun P => P.applyCycleInvInplace a b o s

end Snob.MPart
