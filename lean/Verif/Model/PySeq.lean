import Verif.Model.SnElements
import Verif.Model.Tableau

/-!
Model of the classes of the Python module that have `__getitem__`, as sequences.

A class without `__iter__` that has `__getitem__` can still be looped over: `for x in obj` (and `list(obj)`, `x in obj`) calls
`obj[0]`, `obj[1]`, ... and ends at the first `IndexError` (Python language reference, `iter()` and "Membership test operations").
None of the classes of the bindings has `__iter__` or `__contains__`, and pybind11 passes the index on to the C++ function.

Not modelled: `SnFunction` and `SnClassFunction`, whose `__getitem__` goes to `cnine`, which is not part of the repository.
-/

namespace Snob

/-- what `obj[i]` does in Python, if it is defined: a result, or the exception `IndexError` -/
inductive PyGet (α : Type)
  | item (a : α)
  | indexError

/-- The first `k` steps of `for x in obj`: the items, and whether the loop ended. -/
def pyLoop {α : Type} (get : Int → Option (PyGet α)) : Nat → Int → Option (List α × Bool)
  | 0, _ => some ([], false)
  | k + 1, i => do
    match ← get i with
    | .indexError => some ([], true)
    | .item a =>
      let r ← pyLoop get k (i + 1)
      some (a :: r.1, r.2)

/-- The first `k` steps of `x in obj`, with `eq` for `x==`: `none` inside if it is not decided yet. -/
def pyIn {α : Type} (get : Int → Option (PyGet α)) (eq : α → Option Bool) : Nat → Int → Option (Option Bool)
  | 0, _ => some none
  | k + 1, i => do
    match ← get i with
    | .indexError => some (some false)
    | .item a =>
      if ← eq a then some (some true)
      else pyIn get eq k (i + 1)

/-- `[obj[i] for i in range(lo,hi)]` -/
def pyRange {α : Type} (get : Int → Option (PyGet α)) : Nat → Int → Option (List α)
  | 0, _ => some []
  | k + 1, i => do
    match ← get i with
    | .indexError => none
    | .item a =>
      let l ← pyRange get k (i + 1)
      some (a :: l)

/-- `(*v)[i]` of a `vector` -/
def vecAt {α : Type} (v : List α) (i : Int) : Option α := if 0 ≤ i then v[i.toNat]? else none

/-- python/bindings/SnClasses_py.cpp:127 `G[i]` -/
def pySn (n : Nat) (i : Int) : Option (PyGet Arr) := (element n i).map .item

/-- python/bindings/SnClasses_py.cpp:123 `len(G)` -/
def pySnLen (n : Nat) : Nat := snSize n

/-- python/bindings/Snob2_bindings.cpp:104 `Lambda[i]`, combinatorial/IntegerPartitions.hpp:68-70 -/
def pyPartitions (n : Nat) (i : Int) : Option (PyGet (List Nat)) := (vecAt (IP.partitions n) i).map .item

/-- python/bindings/Snob2_bindings.cpp:105 `len(Lambda)`, combinatorial/IntegerPartitions.hpp:64-66 -/
def pyPartitionsLen (n : Nat) : Nat := (IP.partitions n).length

/-- python/bindings/Snob2_bindings.cpp:155 `T[i]`, combinatorial/StandardYoungTableaux.hpp:42-45, 53-55 -/
def pyTableaux (lambda : List Nat) (i : Int) : Option (PyGet Tab) := do
  let v ← tableaux lambda
  let t ← vecAt v i
  some (.item t)

/-- python/bindings/Snob2_bindings.cpp:154 `len(T)`, combinatorial/StandardYoungTableaux.hpp:49-51 -/
def pyTableauxLen (lambda : List Nat) : Option Nat := (tableaux lambda).map List.length

/-- python/bindings/Snob2_bindings.cpp:92 `lambda[i]`, combinatorial/IntegerPartition.hpp:104-106 -/
def pyPartition (lambda : List Nat) (i : Int) : Option (PyGet Nat) := (vecAt lambda i).map .item

/-- python/bindings/Snob2_bindings.cpp:70, SnClasses_py.cpp:23 `pi[i]`, combinatorial/Permutation.hpp:145-147 -/
def pyPerm (p : Arr) (i : Int) : Option (PyGet Int) := (Perm.app p i).map .item

end Snob
