/-!
# C-style memory and loops

Memory model used for the parts of Snob2 that work on `int*` buffers (for example
`/repo/combinatorial/Permutation.hpp:28-38`, where `p=new int[n]` allocates `n` uninitialised cells).

* A buffer is a list of cells; `none` is an uninitialised cell.
* Every computation returns `Option`; `none` is undefined behaviour (out of range access, or a read of an
  uninitialised cell).
-/

namespace Snob

/-- A C buffer of `int`: `new int[n]`. `none` marks a cell that was never written. -/
abbrev Arr := List (Option Int)

/-- `new int[n]` (as in `/repo/combinatorial/Permutation.hpp:37`): `n` uninitialised cells. -/
def raw (n : Nat) : Arr := List.replicate n none

/-- `a[i]` as an rvalue: undefined behaviour out of range or if the cell was never written. -/
def rd (a : Arr) (i : Int) : Option Int :=
  if 0 ≤ i then (a[i.toNat]?).join else none

/-- `a[i]=v`: undefined behaviour out of range. -/
def wr (a : Arr) (i v : Int) : Option Arr :=
  if 0 ≤ i ∧ i.toNat < a.length then some (a.set i.toNat (some v)) else none

variable {S R : Type}

/-- `k` iterations of a loop body with counter `i, i+1, ...`. -/
def iterUp (body : Int → S → Option S) : Nat → Int → S → Option S
  | 0, _, s => some s
  | k + 1, i, s => (body i s).bind (iterUp body k (i + 1))

/-- `for(int i=lo; i<hi; i++) body`. -/
def forUp (lo hi : Int) (s : S) (body : Int → S → Option S) : Option S :=
  iterUp body (hi - lo).toNat lo s

/-- `k` iterations of a loop body with counter `i, i-1, ...`. -/
def iterDown (body : Int → S → Option S) : Nat → Int → S → Option S
  | 0, _, s => some s
  | k + 1, i, s => (body i s).bind (iterDown body k (i - 1))

/-- `for(int i=hi; i>=lo; i--) body`. -/
def forDown (hi lo : Int) (s : S) (body : Int → S → Option S) : Option S :=
  iterDown body (hi - lo + 1).toNat hi s

/-- `k` iterations of a loop whose body may leave the loop (`break`/`return`) with a value of type `R`. -/
def iterUpE (body : Int → S → Option (R ⊕ S)) : Nat → Int → S → Option (R ⊕ S)
  | 0, _, s => some (.inr s)
  | k + 1, i, s => (body i s).bind fun
      | .inl r => some (.inl r)
      | .inr s' => iterUpE body k (i + 1) s'

/-- `for(int i=lo; i<hi; i++) body` where the body may leave the loop early. -/
def forUpE (lo hi : Int) (s : S) (body : Int → S → Option (R ⊕ S)) : Option (R ⊕ S) :=
  iterUpE body (hi - lo).toNat lo s

end Snob
