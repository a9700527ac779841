import Verif.Model.Mem

/-!
Model of the memory management of `IntegerPartition` and `Permutation`: an object is a number and a pointer to an array
of `int` that it owns. The two classes differ in the tests before `delete[]` and in what `operator=` returns.
* Memory is a list of blocks; the address of a block is its position, and no address is used twice. A block that was
  freed is `none`. Freeing a block twice, or reading or writing a block that was freed, through a null pointer or outside
  of the block, is undefined (`none`), and so is reading a cell that was never written.
* An object that was destroyed is `none`. Using it is undefined.
-/

namespace Snob.Heap

/-- combinatorial/IntegerPartition.hpp:22-23 `k`, `p`; combinatorial/Permutation.hpp:28-29 `n`, `p`. -/
structure Obj where
  k : Nat
  p : Option Nat
deriving DecidableEq

/-- The memory and the objects of a program. -/
structure Mem where
  blocks : List (Option Arr) := []
  objs : List (Option Obj) := []
deriving DecidableEq

/-- The class of the objects. -/
inductive Cls
  | partition
  | permutation
deriving DecidableEq

namespace Mem

/-- `new int[k]` -/
def alloc (m : Mem) (k : Nat) : Mem × Nat := ({ m with blocks := m.blocks ++ [some (raw k)] }, m.blocks.length)

/-- `delete[] p`; nothing for the null pointer -/
def free (m : Mem) : Option Nat → Option Mem
  | none => some m
  | some a =>
    match m.blocks[a]? with
    | some (some _) => some { m with blocks := m.blocks.set a none }
    | _ => none

/-- `p[i]` read -/
def load (m : Mem) (p : Option Nat) (i : Int) : Option Int :=
  match p with
  | none => none
  | some a =>
    match m.blocks[a]? with
    | some (some b) => rd b i
    | _ => none

/-- `p[i]=x` -/
def store (m : Mem) (p : Option Nat) (i x : Int) : Option Mem :=
  match p with
  | none => none
  | some a =>
    match m.blocks[a]? with
    | some (some b) => (wr b i x).map fun b => { m with blocks := m.blocks.set a (some b) }
    | _ => none

/-- the object number `d` -/
def obj (m : Mem) (d : Nat) : Option Obj := (m.objs[d]?).bind id

/-- combinatorial/IntegerPartition.hpp:61, 66 and combinatorial/Permutation.hpp:85, 94: `for(i<k) p[i]=x.p[i]`. -/
def copyLoop (dst src : Option Nat) : List Nat → Mem → Option Mem
  | [], m => some m
  | i :: is, m => do
    let v ← m.load src i
    let m ← m.store dst i v
    copyLoop dst src is m

/-- combinatorial/IntegerPartition.hpp:49, 54 and combinatorial/Permutation.hpp:53, 59: the elements of a list are
written one after the other. -/
def fillLoop (dst : Option Nat) : List Int → Nat → Mem → Option Mem
  | [], _, m => some m
  | v :: vs, i, m => do
    let m ← m.store dst i v
    fillLoop dst vs (i + 1) m

/-- combinatorial/IntegerPartition.hpp:47-55 and combinatorial/Permutation.hpp:50-60: the constructor from a list. -/
def make (m : Mem) (l : List Int) : Option Mem := do
  let (m, a) := m.alloc l.length
  let m ← fillLoop (some a) l 0 m
  some { m with objs := m.objs ++ [some ⟨l.length, some a⟩] }

/-- combinatorial/IntegerPartition.hpp:28-30: the default constructor. -/
def default (m : Mem) : Mem := { m with objs := m.objs ++ [some ⟨0, none⟩] }

/-- combinatorial/IntegerPartition.hpp:59-62, combinatorial/Permutation.hpp:83-86: what the copy constructor makes of an
object. -/
def copyOf (m : Mem) (x : Obj) : Option (Mem × Obj) := do
  let (m, a) := m.alloc x.k
  let m ← copyLoop (some a) x.p (List.range x.k) m
  some (m, ⟨x.k, some a⟩)

/-- the copy constructor -/
def copy (m : Mem) (s : Nat) : Option Mem := do
  let x ← m.obj s
  let (m, y) ← m.copyOf x
  some { m with objs := m.objs ++ [some y] }

/-- combinatorial/IntegerPartition.hpp:70-71, combinatorial/Permutation.hpp:88-90: the move constructor. -/
def move (m : Mem) (s : Nat) : Option Mem := do
  let x ← m.obj s
  some { m with objs := m.objs.set s (some { x with p := none }) ++ [some x] }

/-- combinatorial/IntegerPartition.hpp:64-68, combinatorial/Permutation.hpp:92-96: copy assignment of object `s` to
object `d`. The pointer of `x` is read when the cells are copied, after the members of `*this` were replaced. A
permutation is then copied once more, as it is returned by value, and the copy destroyed. -/
def assign (c : Cls) (m : Mem) (d s : Nat) : Option Mem := do
  let y ← m.obj d
  let x ← m.obj s
  let m ← m.free y.p
  let (m, a) := m.alloc x.k
  let m : Mem := { m with objs := m.objs.set d (some ⟨x.k, some a⟩) }
  let x ← m.obj s
  let m ← copyLoop (some a) x.p (List.range x.k) m
  match c with
  | .partition => some m
  | .permutation => do
    let y ← m.obj d
    let (m, t) ← m.copyOf y
    m.free t.p

/-- combinatorial/IntegerPartition.hpp:73-76, combinatorial/Permutation.hpp:98-101: move assignment. -/
def moveAssign (m : Mem) (d s : Nat) : Option Mem := do
  let y ← m.obj d
  let x ← m.obj s
  if d = s then some m
  else do
    let m ← m.free y.p
    some { m with objs := (m.objs.set d (some x)).set s (some { x with p := none }) }

/-- combinatorial/IntegerPartition.hpp:100-118: `p[r]=x` through an object. -/
def set (m : Mem) (d : Nat) (r x : Int) : Option Mem := do
  let y ← m.obj d
  m.store y.p r x

/-- combinatorial/IntegerPartition.hpp:78, combinatorial/Permutation.hpp:103: the destructor. -/
def destroy (m : Mem) (d : Nat) : Option Mem := do
  let y ← m.obj d
  let m ← m.free y.p
  some { m with objs := m.objs.set d none }

/-- combinatorial/IntegerPartition.hpp:90-92 `height()`, combinatorial/Permutation.hpp:158-164. -/
def height (m : Mem) (d : Nat) : Option Nat := (m.obj d).map Obj.k

/-- combinatorial/IntegerPartition.hpp:100-114, combinatorial/Permutation.hpp:170-176 `x[r]`. -/
def get (m : Mem) (d : Nat) (r : Int) : Option Int := do
  let y ← m.obj d
  m.load y.p r

/-- combinatorial/IntegerPartition.hpp:94-98 `getn()`: the loop. -/
def sumLoop (m : Mem) (p : Option Nat) : List Nat → Int → Option Int
  | [], n => some n
  | i :: is, n => do
    let v ← m.load p i
    sumLoop m p is (n + v)

/-- combinatorial/IntegerPartition.hpp:94-98 `getn()`. -/
def getn (m : Mem) (d : Nat) : Option Int := do
  let y ← m.obj d
  sumLoop m y.p (List.range y.k) 0

end Mem

/-- The statements of a program that make, change and destroy objects. A new object gets the next number. -/
inductive Op
  | default
  | make (l : List Int)
  | copy (s : Nat)
  | move (s : Nat)
  | assign (d s : Nat)
  | moveAssign (d s : Nat)
  | set (d : Nat) (r : Int) (x : Int)
  | destroy (d : Nat)
deriving DecidableEq

/-- One statement. A permutation has no default constructor. -/
def step (c : Cls) (m : Mem) : Op → Option Mem
  | .default => if c = .partition then some m.default else none
  | .make l => m.make l
  | .copy s => m.copy s
  | .move s => m.move s
  | .assign d s => m.assign c d s
  | .moveAssign d s => m.moveAssign d s
  | .set d r x => m.set d r x
  | .destroy d => m.destroy d

/-- A program. -/
def run (c : Cls) (m : Mem) (l : List Op) : Option Mem := l.foldlM (step c) m

end Snob.Heap
