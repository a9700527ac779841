import Mathlib.Analysis.Real.Sqrt
import Verif.Model.Mem
import Verif.Model.Perm
import Verif.Model.Tableau

/-!
Model of `Sn/SnIrrepObj.hpp` and `Sn/SnIrrep.hpp`.

Simplifications: `float`/`double` are exact real numbers. The tables of `computeYOR` are part of the
object from its construction (the code computes them at the first use and keeps them). A matrix is a
function `A i k` of a row number and a column index of any type `K`; only the rows `i<d` exist, and the
column loop is given by the list of column indices that the code runs through, in order. This covers the
copies of `apply_left` for whole matrices, column blocks and the middle index of a 3-tensor.
`none` is undefined behaviour, a failed assertion or a division by zero.
-/

namespace Snob

/-- Sn/SnIrrepObj.hpp:87-88 `index(tableau)`: position of the first equal tableau, -1 if there is none. -/
def tabIndex : List Tab → Tab → Int
  | [], _ => -1
  | p :: ts, t => if p = t then 0 else
      match tabIndex ts t with
      | -1 => -1
      | i => i + 1

/-- One slot of the three tables `YORt`, `YOR1`, `YOR2`. -/
structure YORSlot where
  t : Int
  c1 : ℝ
  c2 : ℝ

/-- Sn/SnIrrepObj.hpp:439-448: the slot for tableau `T` and the transposition `(tau,tau+1)`;
combinatorial/YoungTableau.hpp:119-121 `apply_transp(i)`. -/
noncomputable def yorSlot (ts : List Tab) (T : Tab) (tau : Nat) : Option YORSlot :=
  match Tab.applyTransp T tau (tau + 1) with
  | none => none
  | some (T', delta) =>
    if delta = 1 ∨ delta = -1 then some ⟨-1, delta, 0⟩
    else if delta = 0 then none
    else some ⟨tabIndex ts T', 1 / (delta : ℝ), √(1 - 1 / ((delta : ℝ) * delta))⟩

/-- Sn/SnIrrepObj.hpp:430-452 `computeYOR`: the slots in the order `ix=i*(n-1)+tau-1`. -/
noncomputable def computeYOR (n : Nat) (ts : List Tab) : Option (List YORSlot) :=
  (ts.flatMap fun T => (List.range' 1 (n - 1)).map fun tau => yorSlot ts T tau).mapM id

/-- Sn/SnIrrepObj.hpp:36-47, the fields `n`, `d`, `lambda`, `tableaux` and the tables. -/
structure IrrepObj where
  n : Nat
  d : Nat
  lambda : List Nat
  tableaux : List Tab
  yor : List YORSlot

/-- Sn/SnIrrepObj.hpp:58-63, the constructor (and `computeYOR`). -/
noncomputable def mkIrrep (lambda : List Nat) : Option IrrepObj := do
  let ts ← tableaux lambda
  let yor ← computeYOR (IP.getn lambda) ts
  some ⟨IP.getn lambda, ts.length, lambda, ts, yor⟩

variable {K : Type} [DecidableEq K]

/-- `A.set_value(i,k,x)`. -/
def setv (A : Nat → K → ℝ) (i : Nat) (k : K) (x : ℝ) : Nat → K → ℝ :=
  fun i' k' => if i' = i ∧ k' = k then x else A i' k'

namespace IrrepObj

/-- Sn/SnIrrepObj.hpp:426-428 `YOR(tau,t,c1,c2)`. -/
def slot (R : IrrepObj) (tau : Int) (t : Nat) : Option YORSlot :=
  let ix : Int := t * ((R.n : Int) - 1) + tau - 1
  if 0 ≤ ix then R.yor[ix.toNat]? else none

/-- Sn/SnIrrepObj.hpp:179-180 (also 325-327, 386-387): the column loop for a row without partner. -/
noncomputable def scaleRow (i : Nat) (c1 : ℝ) : List K → (Nat → K → ℝ) → (Nat → K → ℝ)
  | [], A => A
  | k :: ks, A => scaleRow i c1 ks (setv A i k (c1 * A i k))

/-- Sn/SnIrrepObj.hpp:183-187 (also 329-334, 389-393): the column loop for a pair of rows. -/
noncomputable def mixRows (i i2 : Nat) (c1 c2 : ℝ) : List K → (Nat → K → ℝ) → (Nat → K → ℝ)
  | [], A => A
  | k :: ks, A =>
    let t := A i k
    let A1 := setv A i k (c1 * t + c2 * A i2 k)
    mixRows i i2 c1 c2 ks (setv A1 i2 k (-c1 * A1 i2 k + c2 * t))

/-- Sn/SnIrrepObj.hpp:174-189, the body of the loop over the rows. State: the matrix and `done`. -/
noncomputable def tauBody (R : IrrepObj) (cols : List K) (tau : Int) (i : Nat)
    (st : (Nat → K → ℝ) × List Bool) : Option ((Nat → K → ℝ) × List Bool) :=
  match st.2[i]? with
  | none => none
  | some true => some st
  | some false =>
    match R.slot tau i with
    | none => none
    | some s =>
      if s.t = -1 then some (scaleRow i s.c1 cols st.1, st.2)
      else if 0 ≤ s.t ∧ s.t.toNat < R.d then
        some (mixRows i s.t.toNat s.c1 s.c2 cols st.1, st.2.set s.t.toNat true)
      else none

/-- Sn/SnIrrepObj.hpp:173: the loop over the rows `i` in the given list. -/
noncomputable def tauLoop (R : IrrepObj) (cols : List K) (tau : Int) :
    List Nat → (Nat → K → ℝ) × List Bool → Option ((Nat → K → ℝ) × List Bool)
  | [], st => some st
  | i :: is, st => (tauBody R cols tau i st).bind (tauLoop R cols tau is)

/-- Sn/SnIrrepObj.hpp:166-191 `apply_left(A,tau)`, 312-338 `apply(T,tau)`, 375-397
`apply_left(A,tau,beg,end)`. -/
noncomputable def applyTau (R : IrrepObj) (cols : List K) (tau : Int) (A : Nat → K → ℝ) :
    Option (Nat → K → ℝ) :=
  (tauLoop R cols tau (List.range R.d) (A, List.replicate R.d false)).map Prod.fst

/-- Sn/SnIrrepObj.hpp:128-133 (and 200-205, 278-283, 351-356, 405-410): the shifts of a permutation;
`sigma` is a private copy. -/
def shifts (n : Nat) (sigma : Arr) : Option Arr := do
  let r ← forDown n 1 (sigma, List.replicate n (some 0)) fun i st => do
    let a ← rd st.1 (i - 1)
    let s ← wr st.2 (i - 1) a
    let p ← forUp 1 i st.1 fun j p => do
      let v ← rd p (j - 1)
      if v > a then wr p (j - 1) (v - 1) else some p
    some (p, s)
  some r.2

/-- Sn/SnIrrepObj.hpp:126-140 `apply_left(A,sigma)`; 276-288 `apply(A,sigma)`; 349-363 for a block. -/
noncomputable def applySigma (R : IrrepObj) (cols : List K) (sigma : Arr) (A : Nat → K → ℝ) :
    Option (Nat → K → ℝ) :=
  if sigma.length = R.n then do
    let s ← shifts R.n sigma
    forUp 2 ((R.n : Int) + 1) A fun i A => do
      let b ← rd s (i - 1)
      forDown (i - 1) b A fun a A => applyTau R cols a A
  else none

/-- Sn/SnIrrepObj.hpp:142-150 `apply_left(A,cyc)`; 291-299 `apply(A,cyc)`. -/
noncomputable def applyCycle (R : IrrepObj) (cols : List K) (a b : Int) (A : Nat → K → ℝ) :
    Option (Nat → K → ℝ) :=
  if a < b then forDown (b - 1) a A fun i A => applyTau R cols i A
  else forUp b a A fun i A => applyTau R cols i A

/-- Sn/SnIrrepObj.hpp:365-368: the block version of `apply_left(A,cyc)`, which has no branch for
`a>b`. -/
noncomputable def applyCycleBlock (R : IrrepObj) (cols : List K) (a b : Int) (A : Nat → K → ℝ) :
    Option (Nat → K → ℝ) :=
  forDown (b - 1) a A fun i A => applyTau R cols i A

/-- Sn/SnIrrepObj.hpp:152-155 `apply_left_inv(A,cyc)`, 370-373 for a block. -/
noncomputable def applyCycleInv (R : IrrepObj) (cols : List K) (a b : Int) (A : Nat → K → ℝ) :
    Option (Nat → K → ℝ) :=
  forUp a b A fun i A => applyTau R cols i A

/-- Sn/SnIrrepObj.hpp:157-164 `apply_left(A,Transposition)`; 302-309 `apply(A,Transposition)`. -/
noncomputable def applyTransposition (R : IrrepObj) (cols : List K) (x y : Int) (A : Nat → K → ℝ) :
    Option (Nat → K → ℝ) := do
  let a := min x y
  let b := max x y
  let A ← forDown (b - 1) a A fun i A => applyTau R cols i A
  forUp (a + 1) b A fun i A => applyTau R cols i A

/-- Sn/SnIrrepObj.hpp:403-414 and 416-420: `apply_left(A,sigma,beg,end,stride)` on a matrix with `J`
columns. (C++ `J/stride` with `stride=0` is undefined: `none`.) -/
noncomputable def applySigmaStrided (R : IrrepObj) (J beg end' stride : Nat) (sigma : Arr)
    (A : Nat → Nat → ℝ) : Option (Nat → Nat → ℝ) :=
  if sigma.length = R.n ∧ stride ≠ 0 then do
    let s ← shifts R.n sigma
    forUp 2 ((R.n : Int) + 1) A fun i A => do
      let b ← rd s (i - 1)
      forUp 0 ((J / stride : Nat) : Int) A fun j A =>
        applyCycleBlock R (List.range' (beg + j.toNat * stride) (end' - beg)) b i A
  else none

/-- `rtensor(cnine::dims(d,d),cnine::fill::identity)`. -/
def identMat : Nat → Nat → ℝ := fun i j => if i = j then 1 else 0

/-- Sn/SnIrrepObj.hpp:94-98 and Sn/SnIrrep.hpp:71-75 `operator()(sigma)`. -/
noncomputable def eval (R : IrrepObj) (sigma : Arr) : Option (Nat → Nat → ℝ) :=
  applySigma R (List.range R.d) sigma identMat

/-- Sn/SnIrrep.hpp:77-82 `operator()(Transposition)` and 84-89 `transp(i,j)`. -/
noncomputable def transp (R : IrrepObj) (i j : Int) : Option (Nat → Nat → ℝ) := do
  let A ← applyCycle R (List.range R.d) i j identMat
  applyCycleInv R (List.range R.d) (i + 1) j A

/-- Sn/SnIrrepObj.hpp:100-114 `character(mu)`: the loop over the rows of `mu` with the running `a`,
then the sum of the diagonal. -/
noncomputable def charLoop (R : IrrepObj) : List Nat → Int → (Nat → Nat → ℝ) → Option (Nat → Nat → ℝ)
  | [], _, A => some A
  | x :: mu, a, A =>
    (applyCycle R (List.range R.d) a (a + x - 1) A).bind (charLoop R mu (a + x))

/-- Sn/SnIrrepObj.hpp:100-114 `character(mu)`. -/
noncomputable def character (R : IrrepObj) (mu : List Nat) : Option ℝ := do
  let A ← charLoop R mu 1 identMat
  some ((List.range R.d).foldl (fun t i => t + A i i) 0)

/-- Sn/SnIrrepObj.hpp:492-502: the matrix `R` that `JucysMurphy(k)` accumulates. State: `(R,A)`. -/
noncomputable def jmMatrix (R : IrrepObj) (k : Int) : Option (Nat → Nat → ℝ) :=
  if k ≤ R.n then do
    let st ← forDown (k - 1) 1 ((fun _ _ => 0 : Nat → Nat → ℝ), identMat) fun i st => do
      let A ← applyTau R (List.range R.d) i st.2
      let B ← applyCycleInv R (List.range R.d) (i + 1) k A
      some (fun x y => st.1 x y + B x y, A)
    some st.1
  else none

/-- Sn/SnIrrepObj.hpp:492-505 `JucysMurphy(k)`: the diagonal of that matrix is returned (and kept). -/
noncomputable def jucysMurphy (R : IrrepObj) (k : Int) : Option (List ℝ) := do
  let M ← jmMatrix R k
  some ((List.range R.d).map fun i => M i i)

end IrrepObj

end Snob
