import Mathlib.Data.Real.Basic
import Verif.Model.SnElements
import Verif.Model.Perm

/-!
Model of functions on groups: `include/FunctionOnGroup.hpp` for an arbitrary group class, and `Sn/SnFunction.hpp`,
whose loops are the same text with `G` the object of `Sn`.

Simplifications: exact values; a tensor is a list of cells, `none` being a cell that was not written
(`fill_raw`), and reading such a cell is `none`.
-/

namespace Snob

/-- A group class with its elements: `G.size()`, `G.element(i)`, `x*y`, `x.inverse()`. -/
structure GroupOps (E : Type) where
  size : Nat
  element : Int → Option E
  mul : E → E → Option E
  inverse : E → Option E

/-- A group class that has `G.index(x)` as well, as functions on the group need it. -/
structure GroupI (E : Type) extends GroupOps E where
  index : E → Option Int

/-- The values of a function on a group. -/
abbrev Cells (α : Type) := List (Option α)

variable {E α : Type}

/-- `TENSOR::value(i)`. -/
def rdC (f : Cells α) (i : Int) : Option α := if 0 ≤ i then (f[i.toNat]?).join else none

/-- `TENSOR::set_value(i,v)`. -/
def wrC (f : Cells α) (i : Int) (v : α) : Option (Cells α) :=
  if 0 ≤ i ∧ i.toNat < f.length then some (f.set i.toNat (some v)) else none

namespace GroupI

/-- include/FunctionOnGroup.hpp:71-73 and Sn/SnFunction.hpp:129-137 `f(x)` for a group element. -/
def value (I : GroupI E) (f : Cells α) (x : E) : Option α := (I.index x).bind (rdC f)

/-- include/FunctionOnGroup.hpp:75-78 and Sn/SnFunction.hpp:139-143 `set_value(x,v)` for a group element. -/
def setValue (I : GroupI E) (f : Cells α) (x : E) (v : α) : Option (Cells α) := (I.index x).bind fun i => wrC f i v

/-- include/FunctionOnGroup.hpp:83-88 and Sn/SnFunction.hpp:150-156 `left_translate(t)`; `N` is `f.length`. -/
def leftTranslate (I : GroupI E) (f : Cells α) (t : E) : Option (Cells α) :=
  forUp 0 f.length (List.replicate I.size none) fun i R => do
    let x ← I.element i
    let y ← I.mul t x
    let v ← rdC f i
    I.setValue R y v

/-- include/FunctionOnGroup.hpp:90-95 and Sn/SnFunction.hpp:158-164 `right_translate(t)`. -/
def rightTranslate (I : GroupI E) (f : Cells α) (t : E) : Option (Cells α) :=
  forUp 0 f.length (List.replicate I.size none) fun i R => do
    let x ← I.element i
    let y ← I.mul x t
    let v ← rdC f i
    I.setValue R y v

/-- include/FunctionOnGroup.hpp:97-102 and Sn/SnFunction.hpp:180-186 `inv()`. -/
def invert (I : GroupI E) (f : Cells α) : Option (Cells α) :=
  forUp 0 f.length (List.replicate I.size none) fun i R => do
    let x ← I.element i
    let y ← I.inverse x
    let v ← rdC f i
    I.setValue R y v

/-- Sn/SnFunction.hpp:166-178 `convolve(g)`; the assertion is `g.n==n`, taken as equality of the numbers of values. -/
noncomputable def convolve (I : GroupI E) (f g : Cells ℝ) : Option (Cells ℝ) :=
  if g.length = f.length then
    forUp 0 f.length (List.replicate I.size none) fun i R => do
      let sigma ← I.element i
      let t ← forUp 0 f.length (0 : ℝ) fun j t => do
        let x ← I.element j
        let y ← I.inverse x
        let z ← I.mul sigma y
        let a ← I.value f z
        let b ← rdC g j
        some (t + a * b)
      wrC R i t
  else none

end GroupI

/-- The object of `Sn` (Sn/SnObj.hpp) with the operations of its elements (Sn/SnElement.hpp:51-61). -/
def snGroup (n : Nat) : GroupI Arr where
  size := snSize n
  element := element n
  index := index n
  mul := Perm.mul
  inverse := Perm.inverse

end Snob
