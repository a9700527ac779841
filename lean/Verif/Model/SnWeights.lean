import Verif.Model.SnVec

/-!
Model of `SnWeights`: one matrix for each irrep, with which the columns of a vector are mixed.

* `weights` is an `unordered_map<IntegerPartition,rtensor*>`: a partial function of the key (keys are partitions without
  trailing zeros, so `==` of keys is equality, C13, and equal keys have equal hashes).
* A tensor (`cnine::RtensorObj`) in the map has two dimensions, or one: the constructor from vectors makes tensors with one
  dimension. Transposing a tensor with one dimension, or multiplying matrices of different inner dimensions, or asking for
  a negative dimension, is undefined (`none`). The contents of a tensor are whatever the filling or a later write through
  `get_matrixp` put there: they are given by a function.
* Numbers are real, not `float`.
-/

namespace Snob

/-- the tensors in an `SnWeights` -/
inductive WTensor
  /-- of dimensions `r` and `c` -/
  | mat (r c : Nat) (f : Nat → Nat → ℝ)
  /-- of one dimension `k` -/
  | vec (k : Nat) (f : Nat → ℝ)

/-- Sn/SnWeights.hpp:24 `weights`. -/
abbrev Weights := List Nat → Option WTensor

namespace Weights

/-- Sn/SnWeights.hpp:38-41: the loop over the entries of `x`, with the type `y` (which `y(p.first)` may change, see C47) and
the weights so far; `fill` is what the matrices are filled with. -/
noncomputable def ofTypesLoop (fill : List Nat → Nat → Nat → ℝ) : SnType → SnType → Weights → Option (Weights × SnType)
  | [], y, W => some (W, y)
  | p :: x, y, W => do
    let (y, c) ← SnType.get y p.1
    if 0 ≤ p.2 ∧ 0 ≤ c then
      ofTypesLoop fill x y (Function.update W p.1 (some (.mat p.2.toNat c.toNat (fill p.1))))
    else none

/-- Sn/SnWeights.hpp:37-42 the constructor from two types: the weights, and the type `y` after the call. -/
noncomputable def ofTypes (fill : List Nat → Nat → Nat → ℝ) (x y : SnType) : Option (Weights × SnType) :=
  ofTypesLoop fill x y fun _ => none

/-- Sn/SnWeights.hpp:47-53: the loop of the constructor from two vectors, over the parts left. -/
def ofVecsLoop (fill : List Nat → Nat → ℝ) : SnVec → SnVec → Weights → Option Weights
  | [], _, W => some W
  | _ :: _, [], _ => none
  | P :: x, Q :: y, W =>
    if IP.eqb P.irrep.lambda Q.irrep.lambda then
      ofVecsLoop fill x y (Function.update W P.irrep.lambda (some (.vec (P.m * Q.m) (fill P.irrep.lambda))))
    else none

/-- Sn/SnWeights.hpp:45-54 the constructor from two vectors. -/
def ofVecs (fill : List Nat → Nat → ℝ) (x y : SnVec) : Option Weights :=
  if x.length = y.length then ofVecsLoop fill x y fun _ => none else none

/-- Sn/SnWeights.hpp:60-70 `get_matrix(lambda)`, `get_matrixp(lambda)`: asserts that the key is there. -/
def getMatrix (W : Weights) (lambda : List Nat) : Option WTensor := W lambda

/-- `(*p)*cnine::transp(M)` as the data of a part, Sn/SnWeights.hpp:78 -/
noncomputable def mulPart (M : WTensor) (P : VPart) : Option VPart :=
  match M with
  | .vec _ _ => none
  | .mat r c f =>
    if P.m = c then some ⟨P.d, r, P.irrep, fun i j => ((List.range c).map fun k => P.data i k * f j k).sum⟩ else none

/-- Sn/SnWeights.hpp:75-81 `operator*(y)`. -/
noncomputable def mulVec (W : Weights) (v : SnVec) : Option SnVec :=
  v.mapM fun P => do
    let M ← W.getMatrix P.irrep.lambda
    mulPart M P

end Weights

end Snob
