import Verif.Model.Partition

/-!
Model of `SnType` (multiplicities of irreps) and of the representations made from a type.

* `SnType` derives from `std::map<IntegerPartition,int>`: a list of pairs in the order of the keys. Comparing
  partitions of different numbers (`SNOB2_ASSERT` in `operator<`) stops the program (`none`).
* `std::map` looks a key up in a balanced tree; the model goes through the pairs in order. This makes no difference to
  the result as long as all keys are partitions of one number; if one key is not, then the model stops in every case in
  which the program does, and the theorems about stopping only concern maps with one entry.
* `int` is unbounded (see C57).
-/

namespace Snob

/-- Sn/SnType.hpp:18: `SnType` is a `map<IntegerPartition,int>`. -/
abbrev SnType := List (List Nat × Int)

namespace SnType

/-- `f((*this)[x])`: `std::map::operator[]` enters the key `x` with value zero if it is not there, and returns a
reference to the value; `f` is what is then done with it. -/
def upd (f : Int → Int) : SnType → List Nat → Option SnType
  | [], x => some [(x, f 0)]
  | (k, v) :: t, x => do
    if ← IP.lt k x then
      let t' ← upd f t x
      some ((k, v) :: t')
    else if ← IP.lt x k then some ((x, f 0) :: (k, v) :: t)
    else some ((k, f v) :: t)

/-- the value found by `std::map::find` -/
def find : SnType → List Nat → Option (Option Int)
  | [], _ => some none
  | (k, v) :: t, x => do
    if ← IP.lt k x then find t x
    else if ← IP.lt x k then some none
    else some (some v)

/-- Sn/SnType.hpp:42-44 `operator()(lambda)`: the type after the call, and the value. -/
def get (t : SnType) (x : List Nat) : Option (SnType × Int) := do
  let t' ← upd id t x
  let v ← find t' x
  match v with
  | some v => some (t', v)
  | none => none

/-- Sn/SnType.hpp:46-49 `set`. -/
def set (t : SnType) (x : List Nat) (m : Int) : Option SnType := upd (fun _ => m) t x

/-- Sn/SnType.hpp:51-55 `add(lambda,m)`. -/
def add (t : SnType) (x : List Nat) (m : Int) : Option SnType := upd (· + m) t x

/-- Sn/SnType.hpp:28-36: the constructors from a list of pairs. -/
def ofList : List (List Nat × Int) → SnType → Option SnType
  | [], t => some t
  | (k, v) :: l, t => do
    let t ← set t k v
    ofList l t

/-- Sn/SnType.hpp:75-78 `add(x,m)`. -/
def addType (t : SnType) : SnType → Int → Option SnType
  | [], _ => some t
  | (k, v) :: x, m => do
    let t ← add t k (m * v)
    addType t x m

/-- Sn/SnType.hpp:83-85, 91-94: `R[mu]+=m` for all `mu` of a list. -/
def addAllSubs (t : SnType) : List (List Nat) → Int → Option SnType
  | [], _ => some t
  | mu :: l, m => do
    let t ← add t mu m
    addAllSubs t l m

/-- Sn/SnType.hpp:82-85: the loop of `down(tau)`. -/
def downLoop : SnType → SnType → Option SnType
  | [], R => some R
  | (k, v) :: t, R => do
    let l ← IP.parents k
    let R ← addAllSubs R l v
    downLoop t R

/-- Sn/SnType.hpp:80-87 `down(tau)`. -/
def down (t : SnType) : Option SnType := downLoop t []

/-- Sn/SnType.hpp:89-96 `down(lambda)`. -/
def downP (lambda : List Nat) : Option SnType := do
  let l ← IP.parents lambda
  addAllSubs [] l 1

/-- Sn/SnType.hpp:98-104 `cat`. -/
def cat : List SnType → SnType → Option SnType
  | [], t => some t
  | q :: l, t => do
    let t ← addType t q 1
    cat l t

end SnType

/-- Sn/SnRepresentationObj.hpp:25: `isotypics` is a map from partitions to isotypics, an isotypic being an irrep
(given by its partition, which is the key) and a multiplicity (Sn/SnIsotypicObj.hpp:20-22; `subs` is only printed), so
a representation is represented by its type. -/
abbrev RepObj := SnType

namespace RepObj

/-- Sn/SnRepresentationObj.hpp:35-39 the constructor from a type; the entries of a map come in the order of the keys. -/
def ofType (t : SnType) : Option RepObj := SnType.ofList t []

/-- Sn/SnRepresentationObj.hpp:45-50 `get_type`. -/
def getType (r : RepObj) : Option SnType := SnType.ofList r []

/-- Sn/SnRepresentationObj.hpp:74-80 `add(lambda,sub)` where `sub.m` is `m`. -/
def addIso (r : RepObj) (lambda : List Nat) (m : Int) : Option RepObj := do
  let e ← SnType.find r lambda
  let r ← if e.isNone then SnType.set r lambda 0 else some r
  SnType.add r lambda m

/-- Sn/SnRepresentationObj.hpp:92-98: the loop over `i` from `i` on, `c` rows left, for the rows `p` of `lambda`. -/
def growLoop (p : List Nat) (m : Int) : Nat → Nat → RepObj → Option RepObj
  | 0, _, r => some r
  | c + 1, i, r => do
    let x ← p[i]?
    let r ← if i = 0 ∨ (∃ y ∈ p[i - 1]?, x < y) then addIso r (p.set i (x + 1)) m else some r
    growLoop p m c (i + 1) r

/-- Sn/SnRepresentationObj.hpp:87-102: the loop over the isotypics in `make_induced`. -/
def inducedLoop : RepObj → RepObj → Option RepObj
  | [], r => some r
  | (p, m) :: t, r => do
    let r ← growLoop p m p.length 0 r
    let r ← addIso r (IP.add p p.length) m
    inducedLoop t r

/-- Sn/SnRepresentationObj.hpp:82-104 `make_induced`, 52-55 `get_induced`. -/
def induced (r : RepObj) : Option RepObj := inducedLoop r []

end RepObj

/-- What `SnRepresentation::restricted()` returns (Sn/SnRepresentationObj.hpp:57-60, 103): a representation made by
`induced()` carries a pointer to the representation it was made from; any other makes the program exit. -/
inductive RepVal
  /-- made from a type -/
  | ofType (t : RepObj)
  /-- made by `induced()` from another -/
  | ofInduced (t : RepObj) (sub : RepVal)

namespace RepVal

/-- the isotypics -/
def obj : RepVal → RepObj
  | ofType t => t
  | ofInduced t _ => t

/-- Sn/SnRepresentation.hpp:48-50 `induced()`. -/
def induced (r : RepVal) : Option RepVal := do
  let t ← RepObj.induced r.obj
  some (ofInduced t r)

/-- Sn/SnRepresentation.hpp:52-54 `restricted()`. -/
def restricted : RepVal → Option RepVal
  | ofType _ => none
  | ofInduced _ r => some r

end RepVal

/-- `operator<` of `std::pair<const IntegerPartition,int>` -/
def pairLt (a b : List Nat × Int) : Option Bool := do
  if ← IP.lt a.1 b.1 then some true
  else if ← IP.lt b.1 a.1 then some false
  else some (decide (a.2 < b.2))

/-- `operator<` of two `SnType`s (that of `std::map`: lexicographic) -/
def typeLt : SnType → SnType → Option Bool
  | _, [] => some false
  | [], _ :: _ => some true
  | a :: s, b :: t => do
    if ← pairLt a b then some true
    else if ← pairLt b a then some false
    else typeLt s t

/-- Sn/SnRepresentationBank.hpp:23: the bank of representations, `map<SnType,SnRepresentationObj*>`. -/
abbrev RepBank := List (SnType × RepObj)

namespace RepBank

/-- Sn/SnRepresentationBank.hpp:32-35 `get_rep` -/
def getRep : RepBank → SnType → Option (RepBank × RepObj)
  | [], t => do
    let r ← RepObj.ofType t
    some ([(t, r)], r)
  | (k, r) :: b, t => do
    if ← typeLt k t then
      let (b, x) ← getRep b t
      some ((k, r) :: b, x)
    else if ← typeLt t k then do
      let x ← RepObj.ofType t
      some ((t, x) :: (k, r) :: b, x)
    else some ((k, r) :: b, r)

end RepBank

end Snob
