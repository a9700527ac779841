import Verif.Model.Tableau

/-!
Model of the access to the entries of a `YoungTableau`: `at`, `set_value`, `==` (combinatorial/YoungTableau.hpp) and the
`T[r,c]`, `T(r,c)`, `T[r,c]=x` of the Python module.

Rows, columns and entries are `int`s, so they may be negative. `vector::at` outside the vector throws `std::out_of_range`, which
pybind11 turns into `IndexError`: the outcome `raised`. `operator[]` of a vector outside the vector is undefined: `none`. The `assert`
on the number of indices stops the program when it fails (or, without assertions, reads outside `v`): `none`.
-/

namespace Snob

/-- what a call that is defined does: it returns a value, or throws `std::out_of_range` -/
inductive Access (α : Type)
  | value (a : α)
  | raised
  deriving DecidableEq

namespace ITab

/-- `v.at(i)`: the `int` is converted to `size_t`, so a negative index is out of range as well -/
def vecAtE {α : Type} (v : List α) (i : Int) : Access α :=
  if 0 ≤ i then
    match v[i.toNat]? with
    | some a => .value a
    | none => .raised
  else .raised

/-- combinatorial/YoungTableau.hpp:71-73 (also 75-77 `operator()`, 79-81 `get_value`; Python `T(r,c)`, Snob2_bindings.cpp:136):
`rows.at(r).at(c)` -/
def at2 (t : List (List Int)) (r c : Int) : Access Int :=
  match vecAtE t r with
  | .raised => .raised
  | .value row => vecAtE row c

/-- combinatorial/YoungTableau.hpp:83-85 `set_value(r,c,x)`: `rows.at(r)[c]=x`, the column is not checked. The result is the
tableau afterwards; an exception leaves it as it was. -/
def setValue (t : List (List Int)) (r c x : Int) : Option (Access (List (List Int))) :=
  match vecAtE t r with
  | .raised => some .raised
  | .value row => if 0 ≤ c ∧ c.toNat < row.length then some (.value (t.set r.toNat (row.set c.toNat x))) else none

/-- python/bindings/Snob2_bindings.cpp:138-139 `T[v]` -/
def getItem (t : List (List Int)) (v : List Int) : Option (Access Int) :=
  match v with
  | [r, c] => some (at2 t r c)
  | _ => none

/-- python/bindings/Snob2_bindings.cpp:140-141 `T[v]=x` -/
def setItem (t : List (List Int)) (v : List Int) (x : Int) : Option (Access (List (List Int))) :=
  match v with
  | [r, c] => setValue t r c x
  | _ => none

/-- combinatorial/YoungTableau.hpp:95 `operator==`: comparison of vectors, sizes first, then the elements in order -/
def rowEq : List Int → List Int → Bool
  | [], [] => true
  | a :: x, b :: y => a == b && rowEq x y
  | _, _ => false

/-- combinatorial/YoungTableau.hpp:95 `operator==` -/
def eq : List (List Int) → List (List Int) → Bool
  | [], [] => true
  | a :: x, b :: y => rowEq a b && eq x y
  | _, _ => false

/-- one statement of a Python program about a tableau `T`: `T[v]` or `T[v]=x`, inside `try: … except IndexError: pass` -/
inductive Stmt
  | get (v : List Int)
  | set (v : List Int) (x : Int)

/-- what the program sees: the values it reads, and the exceptions -/
inductive Seen
  | read (x : Int)
  | done
  | indexError
  deriving DecidableEq

/-- one statement -/
def exec1 (t : List (List Int)) : Stmt → Option (List (List Int) × Seen)
  | .get v =>
    match getItem t v with
    | none => none
    | some .raised => some (t, .indexError)
    | some (.value x) => some (t, .read x)
  | .set v x =>
    match setItem t v x with
    | none => none
    | some .raised => some (t, .indexError)
    | some (.value t') => some (t', .done)

/-- a program -/
def exec (t : List (List Int)) : List Stmt → Option (List (List Int) × List Seen)
  | [] => some (t, [])
  | s :: prog => do
    let (t', o) ← exec1 t s
    let (t'', os) ← exec t' prog
    some (t'', o :: os)

end ITab

namespace Tab

/-- a series of calls `T.apply_transp(i)` (combinatorial/YoungTableau.hpp:119-121), with the distances returned -/
def applyTransps (t : Tab) : List Nat → Option (Tab × List Int)
  | [] => some (t, [])
  | i :: is => do
    let (t', d) ← applyTransp t i (i + 1)
    let (t'', ds) ← applyTransps t' is
    some (t'', d :: ds)

end Tab

end Snob
