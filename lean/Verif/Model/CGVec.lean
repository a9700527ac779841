import Verif.Model.CG
import Verif.Model.SnVec
import Verif.Model.ProductRep
import Mathlib.Data.Matrix.Mul

/-!
Model of the Clebsch-Gordan products of vectors in `SnCGbank`: `get_CGfactors`, `learn`, `accumulate_CGprod`,
`add_CGprod`, `CGproduct` of parts and vectors.

* The eigensolver `cnine::SymmetricEigendecomp` is not part of the repository. It is a parameter `eig`: a function from a
  square matrix to a matrix `U`, the columns of which are taken to be the eigenvectors, and the eigenvalues `D`. What is
  required of it is `EigOk` in Spec/CGVec.
* The caches `factors` and `taus` are replaced by the functions that compute their entries (C36: `CGproduct` of
  partitions does not depend on the history; `learn` has no other inputs than the partitions and the solver).
* The batched classes `SnPartB` and `SnVecB` are used by `learn` to multiply all pairs of basis vectors at once. Every
  operation on them does the same to each member of the batch, and no branch depends on the entries; the model makes
  the products one by one with the functions for `SnPart` and `SnVec`. Model/CGVecB has `learn` as it is written, and
  C81 says that the products are the same.
* `float` is `ℝ`. Printing is left out; `CheckCG`, which prints the products of random vectors, is in Model/CheckCG.
* A container with keys is a partial function of the key; keys are partitions without trailing zeros, so `==` of keys is
  equality (C13). Reading a key that is not there, a column or block outside a matrix, or the product of matrices of
  different inner dimensions, is undefined (`none`).
* The number of columns of `R[mu]` and of `sub[mu]` is compared when the eigenvectors are computed, not when the first
  column is copied.
-/

namespace Snob

/-- `cnine::SymmetricEigendecomp` on a matrix: `U` and `D`. -/
abbrev Eig := (k : Nat) → Matrix (Fin k) (Fin k) ℝ → Matrix (Fin k) (Fin k) ℝ × (Fin k → ℝ)

/-- Sn/SnCGbank.hpp:83 `CGproduct(lambda1,lambda2)`. -/
noncomputable def cgTau (a b : List Nat) : Option SnType := (CGState.empty.product a b).map Prod.snd

/-- Sn/SnCGbank.hpp:102 `CGproduct(tau1,tau2)`. -/
noncomputable def cgTypes (t u : SnType) : Option SnType := (CGState.empty.productTypes t u).map Prod.snd

/-- `v.parts[mu]` -/
def partOf (v : SnVec) (mu : List Nat) : Option VPart := do
  let ix ← SnVec.index v mu
  v[ix]?

/-- Sn/SnCGbank.hpp:240-245 `CGproduct(x,y)` of vectors and 256-264 `add_CGprod`, with the function that multiplies two
parts into `R` at `offs`. -/
noncomputable def cgVecWith (acc : SnVec → SnType → VPart → VPart → Option (SnVec × SnType)) (x y : SnVec) : Option SnVec := do
  let tx ← SnVec.getType x
  let ty ← SnVec.getType y
  let t ← cgTypes tx ty
  let R ← SnVec.zero t
  let s ← x.foldlM (fun s P => y.foldlM (fun s Q => acc s.1 s.2 P Q) s) (R, [])
  some s.1

/-- What `learn` keeps for a partition `mu` of `n-1`: `sub[mu]` (dimension `dmu`; the matrix `V` of its entries in row
zero, one row for each pair of basis vectors), the eigenvectors and eigenvalues, `R[mu]` and `taken[mu]`. -/
structure Slot (d : Nat) where
  dmu : Nat
  k : Nat
  V : Matrix (Fin d) (Fin k) ℝ
  U : Matrix (Fin k) (Fin k) ℝ
  evals : Fin k → ℝ
  F : Matrix (Fin k) (Fin k) ℝ
  taken : Nat

namespace Slot

variable {d : Nat}

/-- Sn/SnCGbank.hpp:204-205: the first eigenvalue near the target. -/
noncomputable def search (s : Slot d) (target : ℝ) : Option (Fin s.k) :=
  (List.finRange s.k).find? fun i => decide (¬ |s.evals i - target| > 0.001)

/-- Sn/SnCGbank.hpp:202-210: the loop over `k`, `c` times. -/
noncomputable def pick (target : ℝ) : Nat → Slot d → Option (Slot d)
  | 0, s => some s
  | c + 1, s => do
    let i ← s.search target
    if s.taken < s.k then
      pick target c { s with
        F := fun j c => if (c : Nat) = s.taken then s.U j i else s.F j c
        evals := Function.update s.evals i 1234567
        taken := s.taken + 1 }
    else none

/-- Sn/SnCGbank.hpp:213, 218, 227: `R[mu].block2(0,taken[mu]-m,-1,m)`. -/
noncomputable def block (s : Slot d) (m : Nat) : Matrix (Fin s.k) (Fin m) ℝ :=
  fun i c => if h : s.taken - m + c < s.k then s.F i ⟨s.taken - m + c, h⟩ else 0

/-- Sn/SnCGbank.hpp:228: the block replaced. -/
noncomputable def setBlock (s : Slot d) (m : Nat) (C : Matrix (Fin s.k) (Fin m) ℝ) : Slot d :=
  { s with F := fun i c => if h : s.taken - m ≤ c ∧ (c : Nat) - (s.taken - m) < m then C i ⟨c - (s.taken - m), h.2⟩ else s.F i c }

end Slot

/-- the slots of all partitions -/
abbrev Slots (d : Nat) := List Nat → Option (Slot d)

/-- Sn/SnCGbank.hpp:217-229: the block of a partition `mu` that is not the first is turned, given the pullback of the
first; `rho` is the irrep of `lambda`, `offs` the first row of `mu` in it. -/
noncomputable def alignBlock {d m : Nat} (n : Nat) (rho : IrrepObj) (offs : Nat) (pullback : Matrix (Fin d) (Fin m) ℝ) (s : Slot d) :
    Option (Slot d) := do
  let M := s.V.transpose * pullback
  let B := (s.block m).transpose * M
  let A ← rho.midTransposition ((n : Int) - 1) n (fun _ i _ => if (i : Nat) = 0 then 1 else 0 : View3 1 rho.d m)
  if h : offs < rho.d ∧ 0 < m then
    let a := A 0 ⟨offs, h.1⟩ ⟨0, h.2⟩
    if |a| > 0.0001 then some (s.setBlock m (s.block m * ((1 / a) • B.transpose)))
    else some s
  else none

/-- Sn/SnCGbank.hpp:194-233: `foreach_sub` over the partitions `mu` left, with the slots, `offs` and the pullback of the
first `mu` (none as long as `first_mu`). -/
noncomputable def subLoop (P : ProductRep) (n : Nat) (rho : IrrepObj) (jm : List ℝ) (m : Nat) :
    List (List Nat) → Slots P.d → Nat → Option (Matrix (Fin P.d) (Fin m) ℝ) → Option (Slots P.d)
  | [], sl, _, _ => some sl
  | mu :: l, sl, offs, pb => do
    let target ← jm[offs]?
    let s ← sl mu
    let s ← s.pick target m
    match pb with
    | none => do
      let T ← P.applyTau ((n : Int) - 1) (fun _ b c => (s.V * s.block m) b c : View3 1 P.d m)
      subLoop P n rho jm m l (Function.update sl mu (some s)) (offs + s.dmu) (some (T 0))
    | some pb => do
      let s ← alignBlock n rho offs pb s
      subLoop P n rho jm m l (Function.update sl mu (some s)) (offs + s.dmu) (some pb)

/-- Sn/SnCGbank.hpp:184-234: the loop over the constituents of the product. -/
noncomputable def tauLoop (P : ProductRep) (n : Nat) : SnType → Slots P.d → Option (Slots P.d)
  | [], sl => some sl
  | p :: t, sl => do
    let rho ← mkIrrep p.1
    let jm ← rho.jucysMurphy (IP.getn p.1)
    let l ← IP.parents p.1
    let sl ← subLoop P n rho jm p.2.toNat l sl 0 none
    tauLoop P n t sl

/-- the part with one column with a one in row `i` -/
noncomputable def unitPart (lambda : List Nat) (i : Nat) : Option VPart := do
  let z ← VPart.zero lambda 1
  some { z with data := fun i' j' => if i' = i ∧ j' = 0 then 1 else 0 }

/-- Sn/SnCGbank.hpp:148-162: the product of the restrictions of a pair of basis vectors. -/
noncomputable def subProduct (vec : SnVec → SnVec → Option SnVec) (a b : List Nat) (i j : Nat) : Option SnVec := do
  let x ← unitPart a i
  let y ← unitPart b j
  let x ← SnVec.downB x
  let y ← SnVec.downB y
  vec x y

/-- Sn/SnCGbank.hpp:165-180: the slot of `mu`, and 117-120: `R[mu]` is the identity of size `down(tau)[mu]`. -/
noncomputable def mkSlot (eig : Eig) {d : Nat} (JM : Matrix (Fin d) (Fin d) ℝ) (sub : Fin d → SnVec) (dt : SnType) :
    Slots d := fun mu => do
  let K ← dt.lookup mu
  let ps ← (List.finRange d).mapM fun b => partOf (sub b) mu
  let p ← ps.head?
  if ps.all (fun q => decide ((q.m : Int) = K)) then
    let V : Matrix (Fin d) (Fin K.toNat) ℝ := fun b c => ((partOf (sub b) mu).map fun q => q.data 0 c).getD 0
    let e := eig K.toNat (V.transpose * JM * V)
    some ⟨p.d, K.toNat, V, e.1, e.2, 1, 0⟩
  else none

/-- Sn/SnCGbank.hpp:111-125 `get_CGfactors` and 128-237 `learn`: the slots at the end, of which `R[mu]` is returned. -/
noncomputable def learn (eig : Eig) (vec : SnVec → SnVec → Option SnVec) (n : Nat) (a b : List Nat) (tau dt : SnType) :
    Option ((d : Nat) × Slots d) := do
  let R0 ← mkIrrep a
  let R1 ← mkIrrep b
  let P : ProductRep := ⟨R0, R1⟩
  let JM ← P.jucysMurphy n
  let l ← (List.finRange P.d).mapM fun x => subProduct vec a b (fstIx (a := R0.d) (b := R1.d) x) (sndIx (a := R0.d) (b := R1.d) x)
  let sl ← tauLoop P n tau (mkSlot eig JM (fun x => l.getD x []) dt)
  some ⟨P.d, sl⟩

/-- Sn/SnCGbank.hpp:287-292: the loop that makes `sub_tilde`. -/
noncomputable def twist {d : Nat} (sub : SnVec) (sl : Slots d) (dt : SnType) : Option SnVec :=
  dt.mapM fun e => do
    let P ← partOf sub e.1
    let s ← sl e.1
    let rho ← mkIrrep e.1
    if P.m = s.k then
      some ⟨P.d, s.k, rho, fun i c => if h : c < s.k then ∑ j : Fin s.k, P.data i j * s.F j ⟨c, h⟩ else 0⟩
    else none

/-- Sn/SnCGbank.hpp:267-296 `accumulate_CGprod(R,offs,x,y)` for parts over `S_n`; the recursion is on `n`, as restricting
lowers it by one. Line 270: the assertion. -/
noncomputable def cgAcc (eig : Eig) : Nat → SnVec → SnType → VPart → VPart → Option (SnVec × SnType)
  | 0, _, _, _, _ => none
  | 1, R, offs, x, y =>
    if IP.getn y.irrep.lambda = 1 then do
      let P ← R[0]?
      let P ← (List.range x.m).foldlM (fun P i =>
        (List.range y.m).foldlM (fun P j => do
          let u ← x.get 0 i
          let v ← y.get 0 j
          P.inc 0 (i * y.m + j) (u * v)) P) P
      let offs ← SnType.add offs [1] (x.m * y.m)
      some (R.set 0 P, offs)
    else none
  | n + 2, R, offs, x, y =>
    if IP.getn y.irrep.lambda = n + 2 then do
      let vec := cgVecWith (cgAcc eig (n + 1))
      let xs ← SnVec.downB x
      let ys ← SnVec.downB y
      let sub ← vec xs ys
      let tau ← cgTau x.irrep.lambda y.irrep.lambda
      let dt ← SnType.down tau
      let sl ← learn eig vec (n + 2) x.irrep.lambda y.irrep.lambda tau dt
      let st ← twist sub sl.2 dt
      SnVec.accumulateUp R offs st tau
    else none

/-- Sn/SnCGbank.hpp:267 `accumulate_CGprod`. -/
noncomputable def cgAccAny (eig : Eig) (R : SnVec) (offs : SnType) (x y : VPart) : Option (SnVec × SnType) :=
  cgAcc eig (IP.getn x.irrep.lambda) R offs x y

/-- Sn/SnCGbank.hpp:240-245 `CGproduct(x,y)` of vectors. -/
noncomputable def cgVec (eig : Eig) (x y : SnVec) : Option SnVec := cgVecWith (cgAccAny eig) x y

/-- Sn/SnCGbank.hpp:248-253 `CGproduct(x,y)` of parts. -/
noncomputable def cgParts (eig : Eig) (x y : VPart) : Option SnVec := do
  let t ← cgTau x.irrep.lambda y.irrep.lambda
  let R ← SnVec.zero t
  let s ← cgAccAny eig R [] x y
  some s.1

end Snob
