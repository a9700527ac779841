import Verif.Model.CGVec
import Verif.Model.SnVecB

/-!
Model of the Clebsch-Gordan products of batched vectors in `SnCGbank`, and of `learn` as it is written: with the products of all
pairs of basis vectors made at once by the functions for batched vectors.

* As in Model/CGVec the eigensolver is a parameter, the caches are replaced by the functions that compute their entries, and
  printing is left out.
* `sub[mu]*(*p)` multiplies the last index of a tensor by a matrix (a function of `cnine`); it is undefined if the dimensions differ.
* `cgAccF`, `cgVecF`, `cgPartsF` are the functions for vectors without a batch index, with this `learn`. In Model/CGVec they have the
  simplified one; C81 says that this makes no difference.
-/

namespace Snob

/-- `p(b,i,j)=x` -/
noncomputable def BPart.set (P : BPart) (b i j : Nat) (x : ℝ) : Option BPart :=
  if b < P.b ∧ i < P.d ∧ j < P.m then
    some { P with data := fun b' i' j' => if b' = b ∧ i' = i ∧ j' = j then x else P.data b' i' j' }
  else none

/-- `v[mu]` -/
def partOfB (v : SnVecB) (mu : List Nat) : Option BPart := do
  let ix ← SnVecB.index v mu
  v[ix]?

/-- Sn/SnVecB.hpp:282-285 `sameb(x,y)`. -/
def sameb2 (x y : SnVecB) : Option Nat := do
  let b ← SnVecB.getb x
  let c ← SnVecB.getb y
  if b = c then some b else none

/-- Sn/SnVecB.hpp:293-297 `sameb(x,y,z)`. -/
def sameb3 (x : SnVecB) (y z : BPart) : Option Nat := do
  let b ← SnVecB.getb x
  if b = y.b ∧ b = z.b then some b else none

/-- Sn/SnCGbank.hpp:320-324 `CGproduct(x,y)` and 335-343 `add_CGprod`, with the function that multiplies two parts. -/
noncomputable def cgVecWithB (acc : SnVecB → SnType → BPart → BPart → Option (SnVecB × SnType)) (x y : SnVecB) : Option SnVecB := do
  let b ← sameb2 x y
  let tx ← SnVecB.getType x
  let ty ← SnVecB.getType y
  let t ← cgTypes tx ty
  let R ← SnVecB.zero b t
  let s ← x.foldlM (fun s P => y.foldlM (fun s Q => acc s.1 s.2 P Q) s) (R, [])
  some s.1

/-- Sn/SnCGbank.hpp:148-158: a batch of `d1*d2` unit vectors; `f i j` is the row of the one for the pair `i`, `j`. -/
noncomputable def unitsB (lambda : List Nat) (d1 d2 : Nat) (f : Nat → Nat → Nat) : Option BPart := do
  let P ← BPart.zero (d1 * d2) lambda 1
  (List.range d1).foldlM (fun P i => (List.range d2).foldlM (fun P j => P.set (i * d2 + j) (f i j) 0 1) P) P

/-- Sn/SnCGbank.hpp:165-180 and 117-120: the slot of `mu`. -/
noncomputable def mkSlotB (eig : Eig) {d : Nat} (JM : Matrix (Fin d) (Fin d) ℝ) (sub : SnVecB) (dt : SnType) : Slots d := fun mu => do
  let K ← dt.lookup mu
  let p ← partOfB sub mu
  if p.b = d ∧ (p.m : Int) = K then
    let V : Matrix (Fin d) (Fin K.toNat) ℝ := fun b c => p.data b 0 c
    let e := eig K.toNat (V.transpose * JM * V)
    some ⟨p.d, K.toNat, V, e.1, e.2, 1, 0⟩
  else none

/-- Sn/SnCGbank.hpp:111-125 `get_CGfactors` and 128-237 `learn`. -/
noncomputable def learnB (eig : Eig) (vec : SnVecB → SnVecB → Option SnVecB) (n : Nat) (a b : List Nat) (tau dt : SnType) :
    Option ((d : Nat) × Slots d) := do
  let R0 ← mkIrrep a
  let R1 ← mkIrrep b
  let P : ProductRep := ⟨R0, R1⟩
  let JM ← P.jucysMurphy n
  let p1 ← unitsB a R0.d R1.d fun i _ => i
  let p2 ← unitsB b R0.d R1.d fun _ j => j
  let x ← SnVecB.down p1
  let y ← SnVecB.down p2
  let sub ← vec x y
  let sl ← tauLoop P n tau (mkSlotB eig JM sub dt)
  some ⟨P.d, sl⟩

/-- Sn/SnCGbank.hpp:369-374: the loop that makes `sub_tilde`. -/
noncomputable def twistB {d : Nat} (sub : SnVecB) (sl : Slots d) (dt : SnType) : Option SnVecB :=
  dt.mapM fun e => do
    let P ← partOfB sub e.1
    let s ← sl e.1
    let rho ← mkIrrep e.1
    if P.m = s.k then
      some ⟨P.b, P.d, s.k, rho, fun a i c => if h : c < s.k then ∑ j : Fin s.k, P.data a i j * s.F j ⟨c, h⟩ else 0⟩
    else none

/-- Sn/SnCGbank.hpp:346-378 `accumulate_CGprod(R,offs,x,y)` for parts over `S_n`. -/
noncomputable def cgAccB (eig : Eig) : Nat → SnVecB → SnType → BPart → BPart → Option (SnVecB × SnType)
  | 0, _, _, _, _ => none
  | 1, R, offs, x, y => do
    let nb ← sameb3 R x y
    if IP.getn y.irrep.lambda = 1 then do
      let P ← R[0]?
      let P ← (List.range nb).foldlM (fun P b =>
        (List.range x.m).foldlM (fun P i =>
          (List.range y.m).foldlM (fun P j => do
            let u ← x.get b 0 i
            let v ← y.get b 0 j
            P.inc b 0 (i * y.m + j) (u * v)) P) P) P
      let offs ← SnType.add offs [1] (x.m * y.m)
      some (R.set 0 P, offs)
    else none
  | n + 2, R, offs, x, y => do
    let _ ← sameb3 R x y
    if IP.getn y.irrep.lambda = n + 2 then do
      let vec := cgVecWithB (cgAccB eig (n + 1))
      let xs ← SnVecB.down x
      let ys ← SnVecB.down y
      let sub ← vec xs ys
      let tau ← cgTau x.irrep.lambda y.irrep.lambda
      let dt ← SnType.down tau
      let sl ← learnB eig vec (n + 2) x.irrep.lambda y.irrep.lambda tau dt
      let st ← twistB sub sl.2 dt
      SnVecB.accumulateUp R offs st tau
    else none

/-- Sn/SnCGbank.hpp:346 `accumulate_CGprod`. -/
noncomputable def cgAccAnyB (eig : Eig) (R : SnVecB) (offs : SnType) (x y : BPart) : Option (SnVecB × SnType) :=
  cgAccB eig (IP.getn x.irrep.lambda) R offs x y

/-- Sn/SnCGbank.hpp:320-324 `CGproduct(x,y)` of batched vectors. -/
noncomputable def cgVecB (eig : Eig) (x y : SnVecB) : Option SnVecB := cgVecWithB (cgAccAnyB eig) x y

/-- Sn/SnCGbank.hpp:327-332 `CGproduct(x,y)` of batched parts. -/
noncomputable def cgPartsB (eig : Eig) (x y : BPart) : Option SnVecB :=
  if x.b = y.b then do
    let t ← cgTau x.irrep.lambda y.irrep.lambda
    let R ← SnVecB.zero x.b t
    let s ← cgAccAnyB eig R [] x y
    some s.1
  else none

/-- Sn/SnCGbank.hpp:267-296 `accumulate_CGprod(R,offs,x,y)` without a batch index, with `learn` as it is written. -/
noncomputable def cgAccF (eig : Eig) : Nat → SnVec → SnType → VPart → VPart → Option (SnVec × SnType)
  | 0, _, _, _, _ => none
  | 1, R, offs, x, y => cgAcc eig 1 R offs x y
  | n + 2, R, offs, x, y =>
    if IP.getn y.irrep.lambda = n + 2 then do
      let xs ← SnVec.downB x
      let ys ← SnVec.downB y
      let sub ← cgVecWith (cgAccF eig (n + 1)) xs ys
      let tau ← cgTau x.irrep.lambda y.irrep.lambda
      let dt ← SnType.down tau
      let sl ← learnB eig (cgVecWithB (cgAccB eig (n + 1))) (n + 2) x.irrep.lambda y.irrep.lambda tau dt
      let st ← twist sub sl.2 dt
      SnVec.accumulateUp R offs st tau
    else none

/-- Sn/SnCGbank.hpp:267 `accumulate_CGprod`. -/
noncomputable def cgAccAnyF (eig : Eig) (R : SnVec) (offs : SnType) (x y : VPart) : Option (SnVec × SnType) :=
  cgAccF eig (IP.getn x.irrep.lambda) R offs x y

/-- Sn/SnCGbank.hpp:240-245 `CGproduct(x,y)` of vectors. -/
noncomputable def cgVecF (eig : Eig) (x y : SnVec) : Option SnVec := cgVecWith (cgAccAnyF eig) x y

/-- Sn/SnCGbank.hpp:248-253 `CGproduct(x,y)` of parts. -/
noncomputable def cgPartsF (eig : Eig) (x y : VPart) : Option SnVec := do
  let t ← cgTau x.irrep.lambda y.irrep.lambda
  let R ← SnVec.zero t
  let s ← cgAccAnyF eig R [] x y
  some s.1

end Snob
