import Verif.Model.Irrep
import Verif.Model.Classes
import Verif.Model.CG
import Verif.Model.Partition
import Mathlib.Data.Int.Log

/-!
The functions of Model/Irrep and Model/CG once more, with the rounding of `float` and `double`.

Every operation of the code on `float` (`double`) is the exact operation followed by the rounding `s` (`d`). What the functions
compute depends on the two roundings; `ieee` is IEEE 754 `binary32` and `binary64` with rounding to nearest, ties to even.
Simplifications: no overflow and no underflow (the exponent is unbounded); each operation is rounded by itself, as on machines
with SSE (no fused multiply-add, no extended precision); `sqrt` is correctly rounded; a conversion of a small `int` to `double`
is exact. The tables and the values of characters are computed where they are used (the code keeps them).
-/

namespace Snob

/-- The nearest integer, and the even one of two. -/
noncomputable def halfEven (y : ℝ) : ℤ :=
  if Int.fract y < 1 / 2 then ⌊y⌋
  else if 1 / 2 < Int.fract y then ⌊y⌋ + 1
  else if Even ⌊y⌋ then ⌊y⌋ else ⌊y⌋ + 1

/-- Rounding to `p` significant binary digits. -/
noncomputable def rnd (p : Nat) (x : ℝ) : ℝ :=
  let e : ℤ := Int.log 2 |x| - ((p : ℤ) - 1)
  halfEven (x / 2 ^ e) * 2 ^ e

/-- The roundings of a machine: `s` for `float`, `d` for `double`. -/
structure Rounding where
  s : ℝ → ℝ
  d : ℝ → ℝ

namespace Rounding

/-- no rounding -/
def exact : Rounding := ⟨id, id⟩

/-- IEEE 754 -/
noncomputable def ieee : Rounding := ⟨rnd 24, rnd 53⟩

variable (F : Rounding)

/-- Sn/SnIrrepObj.hpp:439-448: one slot of the tables, in `double`. -/
noncomputable def yorSlot (ts : List Tab) (T : Tab) (tau : Nat) : Option YORSlot :=
  match Tab.applyTransp T tau (tau + 1) with
  | none => none
  | some (T', delta) =>
    if delta = 1 ∨ delta = -1 then some ⟨-1, delta, 0⟩
    else if delta = 0 then none
    else some ⟨tabIndex ts T', F.d (1 / (delta : ℝ)), F.d √(F.d (1 - F.d (1 / ((delta : ℝ) * delta))))⟩

/-- Sn/SnIrrepObj.hpp:430-452 `computeYOR`. -/
noncomputable def computeYOR (n : Nat) (ts : List Tab) : Option (List YORSlot) :=
  (ts.flatMap fun T => (List.range' 1 (n - 1)).map fun tau => F.yorSlot ts T tau).mapM id

/-- Sn/SnIrrepObj.hpp:58-63, the constructor (and `computeYOR`). -/
noncomputable def mkIrrep (lambda : List Nat) : Option IrrepObj := do
  let ts ← tableaux lambda
  let yor ← F.computeYOR (IP.getn lambda) ts
  some ⟨IP.getn lambda, ts.length, lambda, ts, yor⟩

variable {K : Type} [DecidableEq K]

/-- Sn/SnIrrepObj.hpp:179-180: `c1` is a `double`, the entries of the matrix are `float`. -/
noncomputable def scaleRow (i : Nat) (c1 : ℝ) : List K → (Nat → K → ℝ) → (Nat → K → ℝ)
  | [], A => A
  | k :: ks, A => scaleRow i c1 ks (setv A i k (F.s (F.d (c1 * A i k))))

/-- Sn/SnIrrepObj.hpp:183-187. -/
noncomputable def mixRows (i i2 : Nat) (c1 c2 : ℝ) : List K → (Nat → K → ℝ) → (Nat → K → ℝ)
  | [], A => A
  | k :: ks, A =>
    let t := A i k
    let A1 := setv A i k (F.s (F.d (F.d (c1 * t) + F.d (c2 * A i2 k))))
    mixRows i i2 c1 c2 ks (setv A1 i2 k (F.s (F.d (F.d (-c1 * A1 i2 k) + F.d (c2 * t)))))

/-- Sn/SnIrrepObj.hpp:174-189, the body of the loop over the rows. -/
noncomputable def tauBody (R : IrrepObj) (cols : List K) (tau : Int) (i : Nat)
    (st : (Nat → K → ℝ) × List Bool) : Option ((Nat → K → ℝ) × List Bool) :=
  match st.2[i]? with
  | none => none
  | some true => some st
  | some false =>
    match R.slot tau i with
    | none => none
    | some s =>
      if s.t = -1 then some (F.scaleRow i s.c1 cols st.1, st.2)
      else if 0 ≤ s.t ∧ s.t.toNat < R.d then
        some (F.mixRows i s.t.toNat s.c1 s.c2 cols st.1, st.2.set s.t.toNat true)
      else none

/-- Sn/SnIrrepObj.hpp:173: the loop over the rows. -/
noncomputable def tauLoop (R : IrrepObj) (cols : List K) (tau : Int) :
    List Nat → (Nat → K → ℝ) × List Bool → Option ((Nat → K → ℝ) × List Bool)
  | [], st => some st
  | i :: is, st => (F.tauBody R cols tau i st).bind (tauLoop R cols tau is)

/-- Sn/SnIrrepObj.hpp:166-191 `apply_left(A,tau)`. -/
noncomputable def applyTau (R : IrrepObj) (cols : List K) (tau : Int) (A : Nat → K → ℝ) : Option (Nat → K → ℝ) :=
  (F.tauLoop R cols tau (List.range R.d) (A, List.replicate R.d false)).map Prod.fst

/-- Sn/SnIrrepObj.hpp:126-140 `apply_left(A,sigma)`. -/
noncomputable def applySigma (R : IrrepObj) (cols : List K) (sigma : Arr) (A : Nat → K → ℝ) : Option (Nat → K → ℝ) :=
  if sigma.length = R.n then do
    let s ← IrrepObj.shifts R.n sigma
    forUp 2 ((R.n : Int) + 1) A fun i A => do
      let b ← rd s (i - 1)
      forDown (i - 1) b A fun a A => F.applyTau R cols a A
  else none

/-- Sn/SnIrrepObj.hpp:142-150 `apply_left(A,cyc)`. -/
noncomputable def applyCycle (R : IrrepObj) (cols : List K) (a b : Int) (A : Nat → K → ℝ) : Option (Nat → K → ℝ) :=
  if a < b then forDown (b - 1) a A fun i A => F.applyTau R cols i A
  else forUp b a A fun i A => F.applyTau R cols i A

/-- Sn/SnIrrepObj.hpp:94-98 `operator()(sigma)`. -/
noncomputable def eval (R : IrrepObj) (sigma : Arr) : Option (Nat → Nat → ℝ) :=
  F.applySigma R (List.range R.d) sigma IrrepObj.identMat

/-- Sn/SnIrrepObj.hpp:102-106. -/
noncomputable def charLoop (R : IrrepObj) : List Nat → Int → (Nat → Nat → ℝ) → Option (Nat → Nat → ℝ)
  | [], _, A => some A
  | x :: mu, a, A => (F.applyCycle R (List.range R.d) a (a + x - 1) A).bind (charLoop R mu (a + x))

/-- Sn/SnIrrepObj.hpp:100-114 `character(mu)`. -/
noncomputable def character (R : IrrepObj) (mu : List Nat) : Option ℝ := do
  let A ← F.charLoop R mu 1 IrrepObj.identMat
  some ((List.range R.d).foldl (fun t i => F.s (t + A i i)) 0)

/-- Sn/SnCharBank.hpp:34-48: the values of a character on the classes. -/
noncomputable def chars (n : Nat) (lambda : List Nat) : Option (List ℝ) := do
  let R ← F.mkIrrep lambda
  (IP.partitions n).mapM (F.character R)

/-- Sn/SnCGbank.hpp:73-76: the sum over the classes. `class_size` is converted to `float`. -/
noncomputable def sumLoop (n : Nat) : List (List Nat) → List ℝ → List ℝ → List ℝ → ℝ → Option ℝ
  | [], [], [], [], t => some t
  | mu :: mus, x :: xs, y :: ys, z :: zs, t => do
    let m ← classSize n mu
    sumLoop n mus xs ys zs (F.s (t + F.s (F.s (F.s (x * y) * z) * F.s m)))
  | _, _, _, _, _ => none

/-- Sn/SnCGbank.hpp:63-77: the `float` from which the coefficient is made. -/
noncomputable def coeffFloat (a b c : List Nat) : Option ℝ := do
  let n := IP.getn a
  let xs ← F.chars n a
  let ys ← F.chars n b
  let zs ← F.chars n c
  let t ← F.sumLoop n (IP.partitions n) xs ys zs 0
  some (F.s (t / F.s n.factorial))

/-- Sn/SnCGbank.hpp:58-80 `coeff`, for a triple that is not in the cache. -/
noncomputable def coeff (a b c : List Nat) : Option Int :=
  if IP.getn a = IP.getn b ∧ IP.getn a = IP.getn c then (F.coeffFloat a b c).map CGState.toInt else none

end Rounding

/-- The caches of `SnCGbank` (Sn/SnCGbank.hpp:41-42). -/
structure CGCache where
  coeffs : List (Triple × Int)
  taus : List ((List Nat × List Nat) × SnType)

/-- the caches at program start -/
def CGCache.empty : CGCache := ⟨[], []⟩

/-- The calls of `SnCGbank`. -/
inductive CGAsk
  /-- Sn/SnCGbank.hpp:58 -/
  | coeff (a b c : List Nat)
  /-- Sn/SnCGbank.hpp:83 -/
  | product (a b : List Nat)
  /-- Sn/SnCGbank.hpp:102 -/
  | productTypes (t u : SnType)

/-- the same call in Model/CG -/
def CGAsk.call : CGAsk → CGCall
  | .coeff a b c => .coeff a b c
  | .product a b => .product a b
  | .productTypes t u => .productTypes t u

namespace Rounding

variable (F : Rounding)

/-- Sn/SnCGbank.hpp:58-80 `coeff`: a value found under the ordered triple is returned, otherwise the value for the arguments in
the given order is computed and kept. -/
noncomputable def cgCoeff (s : CGCache) (a b c : List Nat) : Option (CGCache × Int) := do
  let mus ← CGState.orderP a b c
  match s.coeffs.find? (fun e => CGState.tripleEq e.1 mus) with
  | some e => some (s, e.2)
  | none => do
    let k ← F.coeff a b c
    some ({ s with coeffs := s.coeffs ++ [(mus, k)] }, k)

/-- Sn/SnCGbank.hpp:92-96: the loop over the partitions of `n`. -/
noncomputable def cgLoop (a b : List Nat) (bound : Int) : List (List Nat) → CGCache → SnType → Option (CGCache × SnType)
  | [], s, t => some (s, t)
  | p :: l, s, t => do
    let x : Nat ← p[0]?
    if (x : Int) ≥ bound then
      let (s, m) ← F.cgCoeff s a b p
      let t ← if m > 0 then SnType.add t p m else some t
      cgLoop a b bound l s t
    else cgLoop a b bound l s t

/-- Sn/SnCGbank.hpp:83-99 `CGproduct(lambda1,lambda2)`. -/
noncomputable def cgProduct (s : CGCache) (a b : List Nat) : Option (CGCache × SnType) :=
  match s.taus.find? (fun e => IP.eqb e.1.1 a && IP.eqb e.1.2 b) with
  | some e => some (s, e.2)
  | none => do
    let n := IP.getn a
    let x : Nat ← a[0]?
    let y : Nat ← b[0]?
    let limit : Int := 2 * n - x - y
    let (s, t) ← F.cgLoop a b (n - limit) (IP.partitions n) s []
    some ({ s with taus := s.taus ++ [((a, b), t)] }, t)

/-- Sn/SnCGbank.hpp:105-106: the inner loop of `CGproduct(tau1,tau2)`. -/
noncomputable def cgInner (p : List Nat) (m : Int) : SnType → CGCache → SnType → Option (CGCache × SnType)
  | [], s, R => some (s, R)
  | (q, k) :: l, s, R => do
    let (s, t) ← F.cgProduct s p q
    let R ← SnType.addType R t (m * k)
    cgInner p m l s R

/-- Sn/SnCGbank.hpp:102-108: the outer loop. -/
noncomputable def cgOuter (u : SnType) : SnType → CGCache → SnType → Option (CGCache × SnType)
  | [], s, R => some (s, R)
  | (p, m) :: l, s, R => do
    let (s, R) ← F.cgInner p m u s R
    cgOuter u l s R

/-- One call. -/
noncomputable def cgExec (s : CGCache) : CGAsk → Option (CGCache × CGVal)
  | .coeff a b c => do
    let (s, k) ← F.cgCoeff s a b c
    some (s, .int k)
  | .product a b => do
    let (s, t) ← F.cgProduct s a b
    some (s, .type t)
  | .productTypes t u => do
    let (s, t) ← F.cgOuter u t s []
    some (s, .type t)

/-- A sequence of calls. -/
noncomputable def cgRun (s : CGCache) : List CGAsk → Option CGCache
  | [] => some s
  | c :: cs => do
    let (s, _) ← F.cgExec s c
    cgRun s cs

end Rounding

end Snob
