import Mathlib.Algebra.BigOperators.Group.Finset.Basic
import Mathlib.Algebra.Group.Defs
import Verif.Model.Function

/-!
What it means for a group class to implement a group, and what the values of a function are.
-/

namespace Snob

/-- The class computes in the group `G`: `e` numbers the elements of `G`, and `rep x` is the object that stands for
`x`, different objects for different elements. -/
structure ImplementsOps {E G : Type} [Group G] (I : GroupOps E) (e : Fin I.size ≃ G) (rep : G → E) : Prop where
  inj : Function.Injective rep
  element : ∀ i : Fin I.size, I.element ((i : Nat) : Int) = some (rep (e i))
  mul : ∀ x y : G, I.mul (rep x) (rep y) = some (rep (x * y))
  inverse : ∀ x : G, I.inverse (rep x) = some (rep x⁻¹)

/-- The same with `index`, which undoes the numbering. -/
structure Implements {E G : Type} [Group G] (I : GroupI E) (e : Fin I.size ≃ G) (rep : G → E) : Prop extends
    ImplementsOps I.toGroupOps e rep where
  index : ∀ x : G, I.index (rep x) = some (((e.symm x : Fin I.size) : Nat) : Int)

/-- The cells that hold a function on `G`, all of them written. -/
def cellsOf {E G α : Type} {I : GroupI E} (e : Fin I.size ≃ G) (f : G → α) : Cells α := List.ofFn fun i => some (f (e i))

/-- All cells are written. -/
def Written {α : Type} (N : Nat) (f : Cells α) : Prop := f.length = N ∧ ∀ c ∈ f, c.isSome

end Snob
