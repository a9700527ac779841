import Verif.Model.SnBank
import Verif.Model.SnType

/-!
Model of the part of `SnCGbank` that computes multiplicities: `coeff` and `CGproduct` of partitions and types, with the
caches `coeffs` and `taus` and the banks behind `Sn` and `SnCharacter` (`World`).

* `float` is `ℝ`; storing a `float` in an `int` rounds towards zero.
* An `unordered_map` is a list of pairs; two keys are the same key if their components are `==` (for partitions without
  trailing zeros equal keys have equal hashes, C13).
* `get_CGfactors`, `learn` and the products of vectors are in Model/CGVec, `CheckCG` in Model/CheckCG.
-/

namespace Snob

/-- three partitions -/
abbrev Triple := List Nat × List Nat × List Nat

/-- The caches of `SnCGbank` (Sn/SnCGbank.hpp:41-42) and the banks it uses. -/
structure CGState where
  w : World
  coeffs : List (Triple × Int)
  taus : List ((List Nat × List Nat) × SnType)

namespace CGState

/-- the state at program start -/
def empty : CGState := ⟨World.empty, [], []⟩

/-- the conversion of a `float` to `int` -/
noncomputable def toInt (x : ℝ) : Int := if 0 ≤ x then ⌊x⌋ else ⌈x⌉

/-- include/Snob2_base.hpp:66-82: `order` on partitions. Each of its paths compares the third argument with one of the
others, so partitions of different numbers stop the program. -/
def orderP (a b c : List Nat) : Option Triple :=
  if IP.getn a = IP.getn b ∧ IP.getn a = IP.getn c then some (order3 IP.ltLoop a b c) else none

/-- `==` of triples -/
def tripleEq (x y : Triple) : Bool := IP.eqb x.1 y.1 && IP.eqb x.2.1 y.2.1 && IP.eqb x.2.2 y.2.2

/-- Sn/SnCGbank.hpp:74-76: the loop over the classes from `i` on, `k` times. -/
noncomputable def sumLoop (n : Nat) (f1 f2 f3 : List ℝ) : Nat → Nat → World → ℝ → Option (World × ℝ)
  | 0, _, w, t => some (w, t)
  | k + 1, i, w, t => do
    let x1 ← f1[i]?
    let x2 ← f2[i]?
    let x3 ← f3[i]?
    let (w, c) ← w.onSn n (·.cclass i)
    let s ← classSize n c
    sumLoop n f1 f2 f3 k (i + 1) w (t + x1 * x2 * x3 * s)

/-- Sn/SnCGbank.hpp:58-80 `coeff`. -/
noncomputable def coeff (s : CGState) (a b c : List Nat) : Option (CGState × Int) := do
  let mus ← orderP a b c
  match s.coeffs.find? (fun e => tripleEq e.1 mus) with
  | some e => some (s, e.2)
  | none => do
    let n := IP.getn a
    let w ← s.w.mkSn n
    let (w, f1) ← w.getCharacter a
    let (w, f2) ← w.getCharacter b
    let (w, f3) ← w.getCharacter c
    let (w, t) ← sumLoop n f1 f2 f3 f1.length 0 w 0
    let t := t / n.factorial
    some ({ s with w := w, coeffs := s.coeffs ++ [(mus, toInt t)] }, toInt t)

/-- Sn/SnCGbank.hpp:92-96: the loop over the partitions of `n`. -/
noncomputable def productLoop (a b : List Nat) (bound : Int) : List (List Nat) → CGState → SnType → Option (CGState × SnType)
  | [], s, t => some (s, t)
  | p :: l, s, t => do
    let x : Nat ← p[0]?
    if (x : Int) ≥ bound then
      let (s, m) ← s.coeff a b p
      let t ← if m > 0 then SnType.add t p m else some t
      productLoop a b bound l s t
    else productLoop a b bound l s t

/-- Sn/SnCGbank.hpp:83-99 `CGproduct(lambda1,lambda2)`. -/
noncomputable def product (s : CGState) (a b : List Nat) : Option (CGState × SnType) :=
  match s.taus.find? (fun e => IP.eqb e.1.1 a && IP.eqb e.1.2 b) with
  | some e => some (s, e.2)
  | none => do
    let n := IP.getn a
    let x : Nat ← a[0]?
    let y : Nat ← b[0]?
    let limit : Int := 2 * n - x - y
    let (s, t) ← productLoop a b (n - limit) (IP.partitions n) s []
    some ({ s with taus := s.taus ++ [((a, b), t)] }, t)

/-- Sn/SnCGbank.hpp:105-106: the inner loop of `CGproduct(tau1,tau2)`. -/
noncomputable def typesInner (p : List Nat) (m : Int) : SnType → CGState → SnType → Option (CGState × SnType)
  | [], s, R => some (s, R)
  | (q, k) :: l, s, R => do
    let (s, t) ← s.product p q
    let R ← SnType.addType R t (m * k)
    typesInner p m l s R

/-- Sn/SnCGbank.hpp:102-108: the outer loop. -/
noncomputable def typesOuter (u : SnType) : SnType → CGState → SnType → Option (CGState × SnType)
  | [], s, R => some (s, R)
  | (p, m) :: l, s, R => do
    let (s, R) ← typesInner p m u s R
    typesOuter u l s R

/-- Sn/SnCGbank.hpp:102-108 `CGproduct(tau1,tau2)`. -/
noncomputable def productTypes (s : CGState) (t u : SnType) : Option (CGState × SnType) := typesOuter u t s []

end CGState

/-- The calls a program can make. -/
inductive CGCall
  /-- a call of the classes around `Sn` -/
  | base (c : Call)
  /-- Sn/SnCGbank.hpp:58 -/
  | coeff (a b c : List Nat)
  /-- Sn/SnCGbank.hpp:83 -/
  | product (a b : List Nat)
  /-- Sn/SnCGbank.hpp:102 -/
  | productTypes (t u : SnType)

/-- What a call returns. -/
inductive CGVal
  | base (v : Val)
  | int (k : Int)
  | type (t : SnType)

namespace CGState

/-- One call. -/
noncomputable def exec (s : CGState) : CGCall → Option (CGState × CGVal)
  | .base c => do
    let (w, v) ← s.w.exec c
    some ({ s with w := w }, .base v)
  | .coeff a b c => do
    let (s, k) ← s.coeff a b c
    some (s, .int k)
  | .product a b => do
    let (s, t) ← s.product a b
    some (s, .type t)
  | .productTypes t u => do
    let (s, t) ← s.productTypes t u
    some (s, .type t)

/-- A sequence of calls. -/
noncomputable def run (s : CGState) : List CGCall → Option CGState
  | [] => some s
  | c :: cs => do
    let (s, _) ← s.exec c
    run s cs

end CGState

end Snob
