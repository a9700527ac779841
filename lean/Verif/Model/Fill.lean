import Verif.Model.SnVec
import Verif.Model.Function

/-! # Model of the constructors that fill an object: `zero`, `ones`, `identity` (for C123)

The fill patterns themselves belong to cnine. A tensor filled with `identity` is the identity matrix; this is used for square tensors only (for
others there is no model: the result is `none`). `raw` and `gaussian`, whose values are not determined, are left out. -/

namespace Snob

/-- The fill patterns `cnine::fill_zero`, `fill_ones`, `fill_identity`. -/
inductive Fill | zero | ones | identity
  deriving DecidableEq

/-- The value at `(i,j)`. -/
def Fill.entry : Fill → Nat → Nat → ℝ
  | .zero, _, _ => 0
  | .ones, _, _ => 1
  | .identity, i, j => if i = j then 1 else 0

/-- Sn/SnPart.hpp:44-48 the constructor from a partition and a fill pattern; named constructors 79-83. -/
noncomputable def VPart.filled (c : Fill) (lambda : List Nat) (m : Int) : Option VPart := do
  let R ← mkIrrep lambda
  if 0 ≤ m ∧ (c = .identity → m = R.d) then some ⟨R.d, m.toNat, R, fun i j => c.entry i j⟩ else none

/-- Sn/SnVec.hpp:35-39 the constructor from a type and a fill pattern; named constructors 64-70. -/
noncomputable def SnVec.filled (c : Fill) (t : SnType) : Option SnVec := t.mapM fun p => VPart.filled c p.1 p.2

/-- Sn/SnFunction.hpp:39-48, 57-61 the constructor from `n` and a fill pattern (`zero` and `ones`; the tensor has one index). -/
def fnFilled (c : Fill) (n : Nat) : Cells ℝ := List.replicate (snSize n) (some (c.entry 0 0))

/-- python/bindings/SnFunctions_py.cpp:109-112 (`SnPart`) and 135-138 (`SnVec`): the static methods of the Python classes. `ones` is bound to the
C++ function `identity`. -/
def pyFill : String → Option Fill
  | "zero" => some .zero
  | "ones" => some .identity
  | _ => none

/-- `snob.SnPart.ones(lambda,m)` and `snob.SnPart.zero(lambda,m)` in Python, python/bindings/SnFunctions_py.cpp:109-112. -/
noncomputable def pyPart (name : String) (lambda : List Nat) (m : Int) : Option VPart := (pyFill name).bind fun c => VPart.filled c lambda m

/-- `snob.SnVec.ones(type)` and `snob.SnVec.zero(type)` in Python, python/bindings/SnFunctions_py.cpp:135-138. -/
noncomputable def pyVec (name : String) (t : SnType) : Option SnVec := (pyFill name).bind fun c => SnVec.filled c t

end Snob
