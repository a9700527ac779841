import Verif.Model.Groups
import Verif.Model.SnType
import Verif.Model.Tableau

/-!
Model of printing: the functions `str`, which `operator<<` and Python's `__str__` call.

A string is a list of characters. `to_string(int)` and `ostream<<int` belong to C++; `dec` is decimal notation, as they
give it in the default locale. Not modelled: the printing of real numbers (functions, vectors, tensors), which rounds.
-/

namespace Snob

/-- `to_string(x)`, `oss<<x` for an `int` -/
def dec (x : Int) : List Char := if x < 0 then '-' :: Nat.toDigits 10 (-x).toNat else Nat.toDigits 10 x.toNat

namespace Print

/-- the text `SnIrrep(` -/
def txtSnIrrep : List Char := ['S', 'n', 'I', 'r', 'r', 'e', 'p', '(']

/-- the text `Sn(` -/
def txtSn : List Char := ['S', 'n', '(']

/-- the text `CCycle(` -/
def txtCCycle : List Char := ['C', 'C', 'y', 'c', 'l', 'e', '(']

/-- the text `Cyclic(` -/
def txtCyclic : List Char := ['C', 'y', 'c', 'l', 'i', 'c', '(']

/-- the text `Dihedral(` -/
def txtDihedral : List Char := ['D', 'i', 'h', 'e', 'd', 'r', 'a', 'l', '(']

/-- the text `CyclicGroupIrrep(` -/
def txtCyclicGroupIrrep : List Char := ['C', 'y', 'c', 'l', 'i', 'c', 'G', 'r', 'o', 'u', 'p', 'I', 'r', 'r', 'e', 'p', '(']

/-- the text `DihedralGroupIrrep(` -/
def txtDihedralGroupIrrep : List Char := ['D', 'i', 'h', 'e', 'd', 'r', 'a', 'l', 'G', 'r', 'o', 'u', 'p', 'I', 'r', 'r', 'e', 'p', '(']

/-- the text `Product<` -/
def txtProduct : List Char := ['P', 'r', 'o', 'd', 'u', 'c', 't', '<']

/-- the text `CyclicGroup(` -/
def txtCyclicGroup : List Char := ['C', 'y', 'c', 'l', 'i', 'c', 'G', 'r', 'o', 'u', 'p', '(']

/-- the text `DihedralGroup(` -/
def txtDihedralGroup : List Char := ['D', 'i', 'h', 'e', 'd', 'r', 'a', 'l', 'G', 'r', 'o', 'u', 'p', '(']

/-- the text `SnCClass` -/
def txtSnCClass : List Char := ['S', 'n', 'C', 'C', 'l', 'a', 's', 's']

/-- combinatorial/Permutation.hpp:241; an uninitialised cell is `none` -/
def permLoop : Arr → Option (List Char)
  | [] => some []
  | c :: l => do
    let x ← c
    let t ← permLoop l
    some (dec x ++ ' ' :: t)

/-- combinatorial/Permutation.hpp:238-244 (also for `SnElement`) -/
def perm (p : Arr) : Option (List Char) := do
  let t ← permLoop p
  some ('[' :: ' ' :: t ++ [']'])

/-- combinatorial/IntegerPartition.hpp:241-244 -/
def partLoop : List Nat → List Char
  | [] => []
  | [x] => dec x
  | x :: y :: l => dec x ++ ',' :: partLoop (y :: l)

/-- combinatorial/IntegerPartition.hpp:238-247 -/
def part (p : List Nat) : List Char := '[' :: partLoop p ++ [']']

/-- Sn/SnCClass.hpp:41-43 -/
def cclass (indent : List Char) (p : List Nat) : List Char := indent ++ txtSnCClass ++ part p

/-- Sn/SnIrrep.hpp:129-131 -/
def irrep (p : List Nat) : List Char := txtSnIrrep ++ part p ++ [')']

/-- Sn/Sn.hpp:187-189 -/
def sn (n : Int) : List Char := txtSn ++ dec n ++ [')']

/-- combinatorial/YoungTableau.hpp:138 -/
def rowLoop : List Nat → List Char
  | [] => []
  | x :: l => dec x ++ ' ' :: rowLoop l

/-- combinatorial/YoungTableau.hpp:134-142 -/
def tab (indent : List Char) : Tab → List Char
  | [] => []
  | r :: T => indent ++ rowLoop r ++ '\n' :: tab indent T

/-- combinatorial/ContiguousCycle.hpp:39-41 -/
def cycle (indent : List Char) (c : Int × Int) : List Char :=
  indent ++ txtCCycle ++ dec c.1 ++ ',' :: dec c.2 ++ [')']

/-- combinatorial/Transposition.hpp:41-43 -/
def transposition (indent : List Char) (c : Int × Int) : List Char := indent ++ '(' :: dec c.1 ++ ',' :: dec c.2 ++ [')']

/-- Sn/SnType.hpp:114-117 -/
def typeLoop : SnType → List Char
  | [] => []
  | [e] => part e.1 ++ ':' :: dec e.2
  | e :: e' :: t => part e.1 ++ ':' :: dec e.2 ++ ',' :: typeLoop (e' :: t)

/-- Sn/SnType.hpp:110-120 -/
def type (t : SnType) : List Char := '(' :: typeLoop t ++ [')']

/-- groups/CyclicGroupElement.hpp:52-54 -/
def cyclicElement (x : CycElem) : List Char := txtCyclic ++ dec x.n ++ ',' :: dec x.i ++ [')']

/-- groups/DihedralGroupElement.hpp:54-56 -/
def dihedralElement (x : DihElem) : List Char :=
  txtDihedral ++ dec x.n ++ ',' :: dec x.i ++ ',' :: dec x.s ++ [')']

/-- groups/ProductGroupElement.hpp:50-52 -/
def productElement {E₁ E₂ : Type} (s₁ : E₁ → List Char) (s₂ : E₂ → List Char) (x : E₁ × E₂) : List Char :=
  '(' :: s₁ x.1 ++ ',' :: s₂ x.2 ++ [')']

/-- groups/CyclicGroupIrrep.hpp:58-60: the irrep `(n,k)` -/
def cyclicIrrep (x : Int × Int) : List Char := txtCyclicGroupIrrep ++ dec x.1 ++ ',' :: dec x.2 ++ [')']

/-- groups/DihedralGroupIrrep.hpp:90-92: the irrep `(n,k)` -/
def dihedralIrrep (x : Int × Int) : List Char := txtDihedralGroupIrrep ++ dec x.1 ++ ',' :: dec x.2 ++ [')']

/-- groups/ProductGroupIrrep.hpp:57-59 -/
def productIrrep {E₁ E₂ : Type} (s₁ : E₁ → List Char) (s₂ : E₂ → List Char) (x : E₁ × E₂) : List Char :=
  txtProduct ++ s₁ x.1 ++ ',' :: s₂ x.2 ++ ['>']

/-- groups/CyclicGroup.hpp:66-68 -/
def cyclicGroup (n : Int) : List Char := txtCyclicGroup ++ dec n ++ [')']

/-- groups/DihedralGroup.hpp:77-79 -/
def dihedralGroup (n : Int) : List Char := txtDihedralGroup ++ dec n ++ [')']

/-- groups/ProductGroup.hpp:76-78: `"Product<"+g1.str(),","+g2.str()+">"`, where the first comma is the comma operator,
which drops what stands before it -/
def productGroup {G₁ G₂ : Type} (_s₁ : G₁ → List Char) (s₂ : G₂ → List Char) (x : G₁ × G₂) : List Char :=
  ',' :: s₂ x.2 ++ ['>']

end Print
end Snob
