import Mathlib.Data.Nat.Factorial.Basic

/-!
Model of `Sn::class_size`. `int` is unbounded; `pow` is exact. Division by zero is `none`.
-/

namespace Snob

open scoped Nat

/-- Sn/Sn.hpp:128-136: the loop over the remaining rows with `prev`, `count`, `t`, and the final update. -/
def classSizeLoop : List Nat → Nat → Nat → Nat → Nat
  | [], prev, count, t => t * (prev ^ count * count !)
  | x :: xs, prev, count, t =>
    if x = prev then classSizeLoop xs prev (count + 1) t
    else classSizeLoop xs x 1 (t * (prev ^ count * count !))

/-- Sn/Sn.hpp:123-138 `class_size(lambda)` of the object `Sn(n)`. -/
def classSize (n : Nat) : List Nat → Option Nat
  | [] => some 0
  | x :: xs =>
    let t := classSizeLoop xs x 1 1
    if t = 0 then none else some (n ! / t)

end Snob
