import Verif.Model.Groups

/-!
Model of the lifetime of groups that refer to groups: `ProductGroup` (groups/ProductGroup.hpp) keeps references to its
factors. A program declares groups, multiplies them, leaves scopes and returns groups from functions.

Memory is a list of places; a place is never used twice, and a destroyed object leaves `none` at its place. Reading a
destroyed object is undefined behaviour, also `none`. Simplification: the two operands of `*` are evaluated from left to
right (the order makes no difference to what is alive).
-/

namespace Snob

/-- The groups that refer to no other: groups/CyclicGroup.hpp:20-28, groups/DihedralGroup.hpp:20-32. -/
inductive Factor
  | cyc (n : Nat)
  | dih (n : Nat)
deriving DecidableEq, Repr

/-- groups/CyclicGroup.hpp:36-38, groups/DihedralGroup.hpp:36-38 `size()`. -/
def Factor.size : Factor → Nat
  | .cyc n => (cyclicGroup n).size
  | .dih n => (dihedralGroup n).size

/-- The elements; groups/ProductGroupElement.hpp:23-31 keeps copies of two elements. -/
inductive ElemObj
  | cyc (x : CycElem)
  | dih (x : DihElem)
  | pair (x y : ElemObj)
deriving DecidableEq, Repr

/-- groups/CyclicGroup.hpp:44-46, groups/DihedralGroup.hpp:44-47 `element(i)`. -/
def Factor.element : Factor → Int → Option ElemObj
  | .cyc n, i => ((cyclicGroup n).element i).map .cyc
  | .dih n, i => ((dihedralGroup n).element i).map .dih

/-- A group object. groups/ProductGroup.hpp:31-32, 37-38: a product has the places of its factors. -/
inductive GroupObj
  | factor (f : Factor)
  | product (g1 g2 : Nat)
deriving DecidableEq, Repr

/-- The objects that are alive. -/
abbrev Places := List (Option GroupObj)

/-- groups/ProductGroup.hpp:49-51 `size()` of the object at a place. The first argument bounds the depth: a product is made
after its factors, so its depth is at most its place plus one. -/
def sizeAt (mem : Places) : Nat → Nat → Option Nat
  | 0, _ => none
  | d + 1, a =>
    match mem[a]? with
    | some (some (.factor f)) => some f.size
    | some (some (.product b c)) => do
      let x ← sizeAt mem d b
      let y ← sizeAt mem d c
      some (x * y)
    | _ => none

/-- groups/ProductGroup.hpp:57-59 `element(i)` of the object at a place. -/
def elementAt (mem : Places) : Nat → Nat → Int → Option ElemObj
  | 0, _, _ => none
  | d + 1, a, i =>
    match mem[a]? with
    | some (some (.factor f)) => f.element i
    | some (some (.product b c)) => do
      let n ← sizeAt mem d c
      let q ← cdiv i n
      let r ← cmod i n
      let x ← elementAt mem d b q
      let y ← elementAt mem d c r
      some (.pair x y)
    | _ => none

/-- An expression: a variable, or groups/ProductGroup.hpp:88-92 `operator*`. -/
inductive GroupExpr
  | var (x : Nat)
  | mul (e f : GroupExpr)
deriving DecidableEq, Repr

/-- The places of the variables, in order of declaration. -/
abbrev GroupEnv := List Nat

/-- The place of the value of an expression, and memory after evaluating it. groups/ProductGroup.hpp:90-92: the product is a new
object, until the end of the declaration a temporary one, with references to the operands. -/
def GroupExpr.eval (env : GroupEnv) : GroupExpr → Places → Option (Places × Nat)
  | .var x, mem => (env[x]?).map fun a => (mem, a)
  | .mul e f, mem => do
    let r ← e.eval env mem
    let s ← f.eval env r.1
    some (s.1 ++ [some (.product r.2 s.2)], s.1.length)

/-- Destroying the objects at some places. -/
def destroy (as : List Nat) (mem : Places) : Places := as.foldl (fun m a => m.set a none) mem

structure GroupState where
  mem : Places
  env : GroupEnv
deriving DecidableEq, Repr

/-- A statement.
`decl f`: `CyclicGroup G(n);` or `DihedralGroup G(n);`.
`ret k e`: the declaration `auto G=h();` for a function whose body has declared the last `k` variables and says `return e;`. With
`k=0` this is `auto G=e;`.
`leave k`: the end of the scope of the last `k` variables. -/
inductive GroupStmt
  | decl (f : Factor)
  | ret (k : Nat) (e : GroupExpr)
  | leave (k : Nat)
deriving DecidableEq, Repr

/-- The number of variables that remain when the last `k` go. -/
def GroupState.keep (S : GroupState) (k : Nat) : Nat := S.env.length - k

/-- One statement. groups/ProductGroup.hpp has no copy constructor, so the new object has the references of the old one;
then the temporaries and the variables that go out of scope are destroyed. -/
def GroupState.step (S : GroupState) : GroupStmt → Option GroupState
  | .decl f => some ⟨S.mem ++ [some (.factor f)], S.env ++ [S.mem.length]⟩
  | .ret k e => do
    if S.env.length < k then none else
    let r ← e.eval S.env S.mem
    let o ← r.1[r.2]?
    let mem := destroy (S.env.drop (S.keep k)) (S.mem ++ List.replicate (r.1.length - S.mem.length) none)
    some ⟨mem ++ [o], S.env.take (S.keep k) ++ [mem.length]⟩
  | .leave k =>
    if S.env.length < k then none else
    some ⟨destroy (S.env.drop (S.keep k)) S.mem, S.env.take (S.keep k)⟩

/-- A program. -/
def GroupState.run (S : GroupState) : List GroupStmt → Option GroupState
  | [] => some S
  | s :: ss => (S.step s).bind fun S' => S'.run ss

/-- `G.size()` of variable `x`. -/
def GroupState.size (S : GroupState) (x : Nat) : Option Nat := (S.env[x]?).bind fun a => sizeAt S.mem (a + 1) a

/-- `G.element(i)` of variable `x`. -/
def GroupState.element (S : GroupState) (x : Nat) (i : Int) : Option ElemObj :=
  (S.env[x]?).bind fun a => elementAt S.mem (a + 1) a i

end Snob
