import Verif.Model.Mem

/-!
# Classes that own tensors through pointers and leave copying to the compiler

Sn/SnWeights.hpp:18-30 (`unordered_map<IntegerPartition,rtensor*> weights`) and groups/FourierOnGroup.hpp:19-38
(`vector<TENSOR*> parts`) delete their tensors in the destructor and declare neither a copy constructor nor an
assignment, so that those of the compiler copy the pointers; as there is a destructor, there are no move operations either
and moving copies. Simplification: an object is the list of its pointers (for `SnWeights` in the order of the map), and
a tensor is one value of a type `α`. Use of memory that was given back is `none`.
-/

namespace Snob.Shallow

variable {α : Type}

/-- Memory: the tensors that were allocated (`none`: given back), and the objects made so far (`none`: destroyed), each
with its pointers. -/
structure Mem (α : Type) where
  cells : List (Option α) := []
  objs : List (Option (List Nat)) := []

namespace Mem

/-- Sn/SnWeights.hpp:38-44, 46-56 and groups/FourierOnGroup.hpp:48-60: one `new` for every tensor. -/
def alloc : List α → List Nat → Mem α → Mem α × List Nat
  | [], ps, m => (m, ps)
  | x :: xs, ps, m => alloc xs (ps ++ [m.cells.length]) { m with cells := m.cells ++ [some x] }

/-- the constructors -/
def make (m : Mem α) (l : List α) : Mem α :=
  let (m, ps) := alloc l [] m
  { m with objs := m.objs ++ [some ps] }

def obj (m : Mem α) (d : Nat) : Option (List Nat) := (m.objs[d]?).bind id

/-- `*p` -/
def load (m : Mem α) (a : Nat) : Option α := (m.cells[a]?).bind id

/-- Sn/SnWeights.hpp:27-30, groups/FourierOnGroup.hpp:36-38: `delete` of one pointer after the other. -/
def deleteLoop : List Nat → Mem α → Option (Mem α)
  | [], m => some m
  | a :: as, m => do
    let _ ← m.load a
    deleteLoop as { m with cells := m.cells.set a none }

/-- the destructor -/
def destroy (m : Mem α) (d : Nat) : Option (Mem α) := do
  let ps ← m.obj d
  let m ← deleteLoop ps m
  some { m with objs := m.objs.set d none }

/-- the copy constructor made by the compiler -/
def copy (m : Mem α) (s : Nat) : Option (Mem α) := do
  let ps ← m.obj s
  some { m with objs := m.objs ++ [some ps] }

/-- the assignment made by the compiler -/
def assign (m : Mem α) (d s : Nat) : Option (Mem α) := do
  let _ ← m.obj d
  let ps ← m.obj s
  some { m with objs := m.objs.set d (some ps) }

/-- Sn/SnWeights.hpp:62-66 `get_matrix`: a copy of the tensor number `i` of the object `d`. -/
def get (m : Mem α) (d i : Nat) : Option α := do
  let ps ← m.obj d
  let a ← ps[i]?
  m.load a

/-- Sn/SnWeights.hpp:68-72 `get_matrixp`: writing to the tensor it points to. -/
def set (m : Mem α) (d i : Nat) (x : α) : Option (Mem α) := do
  let ps ← m.obj d
  let a ← ps[i]?
  let _ ← m.load a
  some { m with cells := m.cells.set a (some x) }

end Mem

/-- The statements of a program. A new object gets the next number. -/
inductive Op (α : Type)
  | make (l : List α)
  | copy (s : Nat)
  | assign (d s : Nat)
  | set (d i : Nat) (x : α)
  | destroy (d : Nat)

def step (m : Mem α) : Op α → Option (Mem α)
  | .make l => some (m.make l)
  | .copy s => m.copy s
  | .assign d s => m.assign d s
  | .set d i x => m.set d i x
  | .destroy d => m.destroy d

/-- A program. -/
def run (m : Mem α) (l : List (Op α)) : Option (Mem α) := l.foldlM step m

end Snob.Shallow
