import Verif.Model.Irrep

/-!
# Lifetime of the global banks and of the tables of an irrep object

A pointer that is only ever assigned the result of a `new` of its own is described by its state. `delete` of a null
pointer does nothing; `delete` of an uninitialised or dangling pointer is undefined (`none`).
-/

namespace Snob.Lifetime

open Snob

inductive Ptr
  | uninit
  | null
  | alive
  | dangling
deriving DecidableEq

/-- `delete p`; the pointer is not reset. -/
def Ptr.delete : Ptr → Option Ptr
  | .uninit => none
  | .null => some .null
  | .alive => some .dangling
  | .dangling => none

/-! ## Banks -/

/-- The classes whose objects manage the banks: `Snob2_session`, `CombinatorialClasses`, `SnClasses`. -/
inductive Kind
  | session
  | comb
  | sn
deriving DecidableEq

/-- The global pointers (include/Snob2_base.cpp:19-34) and the objects that exist, each with its member `cnine_session`
(include/Snob2_session.hpp:31; null for the other classes). -/
structure Lib where
  combi : Ptr := .null
  snb : Ptr := .null
  snrep : Ptr := .null
  snfft : Ptr := .null
  snchar : Ptr := .null
  sncg : Ptr := .null
  objs : List (Kind × Ptr) := []
deriving DecidableEq

/-- Constructors: include/Snob2_session.hpp:34-56, combinatorial/CombinatorialClasses.hpp:31-34,
Sn/SnClasses.hpp:28-32. A dangling pointer is not null. -/
def create : Kind → Lib → Lib
  | .session, l =>
    let l := { l with objs := l.objs ++ [(.session, .alive)] }
    if l.combi ≠ .null then l
    else
      let l := { l with combi := .alive }
      if l.snb ≠ .null then l
      else { l with snb := .alive, snrep := .alive, snfft := .alive, snchar := .alive, sncg := .alive }
  | .comb, l =>
    let l := { l with objs := l.objs ++ [(.comb, .null)] }
    if l.combi ≠ .null then l else { l with combi := .alive }
  | .sn, l =>
    let l := { l with objs := l.objs ++ [(.sn, .null)] }
    if l.snb ≠ .null then l else { l with snb := .alive, snrep := .alive }

/-- Destructors: include/Snob2_session.hpp:59-62, combinatorial/CombinatorialClasses.hpp:36-38,
Sn/SnClasses.hpp:34-37; of the `i`-th existing object. -/
def destroy (i : Nat) (l : Lib) : Option Lib := do
  let o ← l.objs[i]?
  let l := { l with objs := l.objs.eraseIdx i }
  match o.1 with
  | .session => do
      let _ ← o.2.delete
      some l
  | .comb => do
      let p ← l.combi.delete
      some { l with combi := p }
  | .sn => do
      let p ← l.snb.delete
      let q ← l.snrep.delete
      some { l with snb := p, snrep := q }

/-- Creating an object, destroying the `i`-th of the existing ones. -/
inductive Op
  | mk (k : Kind)
  | rm (i : Nat)
deriving DecidableEq

/-- A history of constructors and destructors; `none`: undefined behaviour. -/
def run : List Op → Lib → Option Lib
  | [], l => some l
  | .mk k :: h, l => run h (create k l)
  | .rm i :: h, l => (destroy i l).bind (run h)

/-! ## Tables of an irrep object -/

/-- Sn/SnIrrepObj.hpp:40-53: the pointer members; `YJM` is represented by its keys. -/
structure Tables where
  yorT : Ptr := .null
  yor1 : Ptr := .uninit
  yor2 : Ptr := .uninit
  ndiags : Ptr := .null
  diagIndices : Ptr := .null
  diagCoeffs : Ptr := .null
  givensIndices : Ptr := .null
  givensCoeffs : Ptr := .null
  yjm : List Int := []
deriving DecidableEq

/-- Sn/SnIrrepObj.hpp:430-435 `computeYOR`; the member `YORt` starts as null, so that the test is defined. -/
def computeYOR (t : Tables) : Tables :=
  if t.yorT ≠ .null then t else { t with yorT := .alive, yor1 := .alive, yor2 := .alive }

/-- Sn/SnIrrepObj.hpp:454-460 `computeYORtensors`. -/
def computeYORtensors (t : Tables) : Tables :=
  if t.ndiags ≠ .null then t
  else { t with ndiags := .alive, diagIndices := .alive, diagCoeffs := .alive, givensIndices := .alive, givensCoeffs := .alive }

/-- Sn/SnIrrepObj.hpp:65-74, the destructor. -/
def destructor (t : Tables) : Option Unit := do
  let _ ← t.yorT.delete
  let _ ← t.yor1.delete
  let _ ← t.yor2.delete
  let _ ← t.ndiags.delete
  let _ ← t.diagIndices.delete
  let _ ← t.diagCoeffs.delete
  let _ ← t.givensIndices.delete
  let _ ← t.givensCoeffs.delete
  some ()

/-- Calls of methods of the irrep object of a partition of `n`. -/
inductive Call
  | index
  | tau (i : Int)
  | sigma (s : Arr)
  | cycle (a b : Int)
  | transposition (i j : Int)
  | character (mu : List Nat)
  | jucysMurphy (k : Int)
  | viewTau (i : Int)
deriving DecidableEq

/-- Sn/SnIrrepObj.hpp:142-150 `apply_left(A,cyc)`. -/
def cycleT (a b : Int) (t : Tables) : Option Tables :=
  if a < b then forDown (b - 1) a t fun _ t => some (computeYOR t)
  else forUp b a t fun _ t => some (computeYOR t)

/-- Sn/SnIrrepObj.hpp:100-107: the loop of `character`. -/
def charT : List Nat → Int → Tables → Option Tables
  | [], _, t => some t
  | x :: mu, a, t => (cycleT a (a + x - 1) t).bind (charT mu (a + x))

/-- The effect of a call on the tables. Sn/SnIrrepObj.hpp:87-88 `index`; 166-169 `apply_left(A,tau)`;
94-98, 126-140 `operator()(sigma)`, `apply_left(A,sigma)`; 142-150 cycles; 157-164 transpositions; 100-107 `character`;
492-505 `JucysMurphy`; 236-238 the action on views. -/
def call (n : Nat) : Call → Tables → Option Tables
  | .index, t => some t
  | .tau _, t => some (computeYOR t)
  | .sigma s, t =>
    if s.length = n then do
      let s ← IrrepObj.shifts n s
      forUp 2 ((n : Int) + 1) t fun i t => do
        let b ← rd s (i - 1)
        forDown (i - 1) b t fun _ t => some (computeYOR t)
    else none
  | .cycle a b, t => cycleT a b t
  | .transposition i j, t => do
      let t ← forDown (max i j - 1) (min i j) t fun _ t => some (computeYOR t)
      forUp (min i j + 1) (max i j) t fun _ t => some (computeYOR t)
  | .character mu, t => charT mu 1 t
  | .jucysMurphy k, t =>
    if k ≤ n then
      if t.yjm.contains k then some t
      else do
        let t ← forDown (k - 1) 1 t fun i t =>
          forUp (i + 1) k (computeYOR t) fun _ t => some (computeYOR t)
        some { t with yjm := t.yjm ++ [k] }
    else none
  | .viewTau _, t => some (computeYORtensors t)

/-- A history of calls. -/
def calls (n : Nat) : List Call → Tables → Option Tables
  | [], t => some t
  | c :: cs, t => (call n c t).bind (calls n cs)

end Snob.Lifetime
