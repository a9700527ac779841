import Mathlib.Analysis.SpecialFunctions.Trigonometric.Basic
import Verif.Model.Function

/-!
Model of the group classes in `groups/`. Simplifications: unbounded integers; exact real numbers for `float`.
C `int` division and remainder truncate towards zero; a remainder by 0 and a failed assertion are `none`.
-/

namespace Snob

/-- C `a%b`. -/
def cmod (a b : Int) : Option Int := if b = 0 then none else some (Int.tmod a b)

/-- C `a/b`. -/
def cdiv (a b : Int) : Option Int := if b = 0 then none else some (Int.tdiv a b)

/-- A `ctensor` of order one or two: its dimensions and its entries in row major order. -/
structure CTensor where
  dims : List Nat
  data : List ℂ

/-! ### Cyclic groups -/

/-- groups/CyclicGroupElement.hpp:20-24. -/
structure CycElem where
  n : Int
  i : Int
deriving DecidableEq, Repr

/-- groups/CyclicGroupElement.hpp:40-42 `inverse()`. -/
def CycElem.inverse (x : CycElem) : Option CycElem := (cmod (-x.i + x.n) x.n).map (⟨x.n, ·⟩)

/-- groups/CyclicGroupElement.hpp:44-47 `operator*`. -/
def CycElem.mul (x y : CycElem) : Option CycElem :=
  if y.n = x.n then (cmod (x.i + y.i) x.n).map (⟨x.n, ·⟩) else none

/-- groups/CyclicGroup.hpp:36-50 `size()`, `element(i)`, `index(x)`. -/
def cyclicGroup (n : Nat) : GroupI CycElem where
  size := n
  element i := some ⟨n, i⟩
  index x := some x.i
  mul := CycElem.mul
  inverse := CycElem.inverse

/-- groups/CyclicGroup.hpp:40-42 `identity()`. -/
def cyclicIdentity (n : Nat) : CycElem := ⟨n, 0⟩

/-- groups/CyclicGroup.hpp:55-57 `n_irreps()`. -/
def cyclicIrreps (n : Nat) : Int := n

/-- groups/CyclicGroupIrrep.hpp:41-46 `operator()(int)` of the irrep with number `k`. -/
noncomputable def cyclicIrrepAt (n : Nat) (k i : Int) : CTensor :=
  let c : ℝ := 2 * Real.pi / n
  ⟨[1], [⟨Real.cos (c * k * i), Real.sin (c * k * i)⟩]⟩

/-- groups/CyclicGroupIrrep.hpp:48-53 `operator()(x)`. -/
noncomputable def cyclicIrrep (n : Nat) (k : Int) (x : CycElem) : CTensor :=
  let c : ℝ := 2 * Real.pi / n
  ⟨[1], [⟨Real.cos (c * k * x.i), Real.sin (c * k * x.i)⟩]⟩

/-! ### Dihedral groups -/

/-- groups/DihedralGroupElement.hpp:20-25. -/
structure DihElem where
  n : Int
  i : Int
  s : Int
deriving DecidableEq, Repr

/-- groups/DihedralGroupElement.hpp:37-40 `index()`. -/
def DihElem.index (x : DihElem) : Int := if x.s = 1 then x.i else x.n + x.i

/-- groups/DihedralGroupElement.hpp:42-44 `inverse()`. -/
def DihElem.inverse (x : DihElem) : Option DihElem := (cmod (x.s * (-x.i) + x.n) x.n).map (⟨x.n, ·, x.s⟩)

/-- groups/DihedralGroupElement.hpp:46-49 `operator*`. -/
def DihElem.mul (x y : DihElem) : Option DihElem :=
  if y.n = x.n then (cmod (x.i + x.s * y.i + x.n) x.n).map (⟨x.n, ·, x.s * y.s⟩) else none

/-- groups/DihedralGroup.hpp:44-47 `element(i)`. -/
def dihElement (n : Nat) (i : Int) : DihElem := if i < n then ⟨n, i, 1⟩ else ⟨n, i - n, -1⟩

/-- groups/DihedralGroup.hpp:36-38, 44-47, 57-59 `size()`, `element(i)`, `index(x)`. -/
def dihedralGroup (n : Nat) : GroupI DihElem where
  size := 2 * n
  element i := some (dihElement n i)
  index x := some (x.i + n * (if x.s = -1 then 1 else 0))
  mul := DihElem.mul
  inverse := DihElem.inverse

/-- groups/DihedralGroup.hpp:40-42 `identity()`. -/
def dihIdentity (n : Nat) : DihElem := ⟨n, 0, 1⟩

/-- groups/DihedralGroup.hpp:49-51 `r(i)`. -/
def dihR (n : Nat) (i : Int) : DihElem := ⟨n, i, 1⟩

/-- groups/DihedralGroup.hpp:53-55 `s()`. -/
def dihS (n : Nat) : DihElem := ⟨n, 1, -1⟩

/-- groups/DihedralGroup.hpp:65-68 `n_irreps()`. -/
def dihIrreps (n : Nat) : Int := if Int.tmod n 2 = 0 then Int.tdiv n 2 + 3 else Int.tdiv (n - 1) 2 + 2

/-- groups/DihedralGroupIrrep.hpp:38-41 `dim()`. -/
def dihDim (n : Nat) (k : Int) : Nat := if k < 2 * (1 + (if Int.tmod n 2 = 0 then 1 else 0)) then 1 else 2

/-- groups/DihedralGroupIrrep.hpp:43-81 `operator()(int)` of the irrep with number `k`. The second branch for
`k==2` (lines 61-65) cannot be reached. -/
noncomputable def dihIrrepAt (n : Nat) (k i : Int) : CTensor :=
  if k = 0 then ⟨[1], [1]⟩
  else if k = 1 then ⟨[1], [1 - 2 * (if (n : Int) ≤ i then 1 else 0)]⟩
  else if Int.tmod n 2 = 0 ∧ k = 2 then ⟨[1], [1 - 2 * ((Int.tmod i 2 : Int) : ℂ)]⟩
  else
    let p : Int := k - 1 - 2 * (if Int.tmod n 2 = 0 then 1 else 0)
    let c : ℝ := 2 * Real.pi / n
    let a : ℂ := ⟨Real.cos (c * p * i), Real.sin (c * p * i)⟩
    let b : ℂ := ⟨Real.cos (c * p * i), -Real.sin (c * p * i)⟩
    if i < n then ⟨[2, 2], [a, 0, 0, b]⟩ else ⟨[2, 2], [0, a, b, 0]⟩

/-- groups/DihedralGroupIrrep.hpp:83-85 `operator()(x)`. -/
noncomputable def dihIrrep (n : Nat) (k : Int) (x : DihElem) : CTensor := dihIrrepAt n k x.index

/-! ### Direct products -/

/-- groups/ProductGroup.hpp:49-51, 57-59 `size()`, `element(i)` and groups/ProductGroupElement.hpp:39-45 `inverse()`,
`operator*`. There is no `index(x)` in `ProductGroup`, and `index()` of the element refers to a member `size()` that
no element has. -/
def productGroup {E₁ E₂ : Type} (I₁ : GroupOps E₁) (I₂ : GroupOps E₂) : GroupOps (E₁ × E₂) where
  size := I₁.size * I₂.size
  element i := do
    let a ← cdiv i I₂.size
    let b ← cmod i I₂.size
    let x ← I₁.element a
    let y ← I₂.element b
    some (x, y)
  mul x y := do
    let a ← I₁.mul x.1 y.1
    let b ← I₂.mul x.2 y.2
    some (a, b)
  inverse x := do
    let a ← I₁.inverse x.1
    let b ← I₂.inverse x.2
    some (a, b)

/-- groups/ProductGroupIrrep.hpp:42-47 `dim()`, `operator()(int)` for factors of dimensions `d₁`, `d₂`. -/
noncomputable def productIrrepAt (d₁ d₂ : Nat) (_i : Int) : CTensor := ⟨[d₁ * d₂, d₁ * d₂], List.replicate (d₁ * d₂ * (d₁ * d₂)) 0⟩

end Snob
