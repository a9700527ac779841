import Verif.Model.Function
import Verif.Model.Print
import Verif.Model.SnBank

/-!
# Tests: outputs recorded in the documentation

The pages under `/repo/python/doc/source` show what the Python module printed. The model is run on the same calls. These are
tests of the model against the program, not proofs of properties. The numbers of the transforms shown in `SnFFT.rst` are
compared with the formula of C37 and C40 by `/verif/validation/documented.py`.
-/

namespace Snob.Tests

open Snob

/-- a permutation as it is printed -/
def p (l : List Int) : Arr := l.map some

/-- `print(x)` -/
def txt (s : List Char) : String := String.ofList s

-- Sn.rst:15-41: the elements of `Sn(4)`
example : (List.range (snSize 4)).map (fun i : Nat => element 4 i) = [
  some (p [1, 2, 3, 4]),
  some (p [2, 1, 3, 4]),
  some (p [1, 3, 2, 4]),
  some (p [2, 3, 1, 4]),
  some (p [3, 1, 2, 4]),
  some (p [3, 2, 1, 4]),
  some (p [1, 2, 4, 3]),
  some (p [2, 1, 4, 3]),
  some (p [1, 3, 4, 2]),
  some (p [2, 3, 4, 1]),
  some (p [3, 1, 4, 2]),
  some (p [3, 2, 4, 1]),
  some (p [1, 4, 2, 3]),
  some (p [2, 4, 1, 3]),
  some (p [1, 4, 3, 2]),
  some (p [2, 4, 3, 1]),
  some (p [3, 4, 1, 2]),
  some (p [3, 4, 2, 1]),
  some (p [4, 1, 2, 3]),
  some (p [4, 2, 1, 3]),
  some (p [4, 1, 3, 2]),
  some (p [4, 2, 3, 1]),
  some (p [4, 3, 1, 2]),
  some (p [4, 3, 2, 1])] := by decide

-- Sn.rst:55-60
example : element 4 17 = some (p [3, 4, 2, 1]) ∧ index 4 (p [3, 4, 2, 1]) = some 17 := by decide
example : Print.perm (p [3, 4, 2, 1]) = some "[ 3 4 2 1 ]".toList := by decide

-- Sn.rst:77-98: `G.cclass(IntegerPartition([3,2]))` of `Sn(5)`
example : Print.cclass [] [3, 2] = "SnCClass[3,2]".toList := by decide
example : ((SnObjSt.new 5).index [3, 2]).map (·.2) = some 2 := by decide
-- Sn.rst:134-138: the classes of `S5` in the order of the values of a character
example : (List.range 7).map (fun i => ((SnObjSt.new 5).cclass i).map (·.2)) =
    [some [5], some [4, 1], some [3, 2], some [3, 1, 1], some [2, 2, 1], some [2, 1, 1, 1], some [1, 1, 1, 1, 1]] := by decide
-- Sn.rst:157-163
example : Print.irrep [3, 1] = "SnIrrep([3,1])".toList := by decide
example : (tableaux [3, 1]).map List.length = some 3 := by decide
-- Sn.rst:196-203: a type
example : (do
    let t ← SnType.set [] [4, 1] 2
    let t ← t.set [3, 2] 1
    let t ← t.set [3, 1, 1] 1
    some (Print.type t)) = some "([4,1]:2,[3,2]:1,[3,1,1]:1)".toList := by decide

-- combinatorial.rst:17-33
example : Print.perm (p [2, 3, 1, 5, 4]) = some "[ 2 3 1 5 4 ]".toList := by decide
example : Perm.app (p [2, 3, 1, 5, 4]) 3 = some 1 := by decide
example : Perm.mul (p [2, 1, 3, 4, 5]) (p [2, 3, 1, 5, 4]) = some (p [1, 3, 2, 5, 4]) := by decide
example : Perm.inverse (p [2, 3, 1, 5, 4]) = some (p [3, 1, 2, 5, 4]) := by decide
-- combinatorial.rst:50-53
example : Print.part [3, 2, 1] = "[3,2,1]".toList ∧ [3, 2, 1][1]? = some 2 := by decide
-- combinatorial.rst:60-70
example : IP.partitions 5 = [[5], [4, 1], [3, 2], [3, 1, 1], [2, 2, 1], [2, 1, 1, 1], [1, 1, 1, 1, 1]] := by decide
-- combinatorial.rst:83-89
example : Print.tab [] (Tab.ofShape [3, 2, 1]) = "1 2 3 \n4 5 \n6 \n".toList ∧ Tab.shape (Tab.ofShape [3, 2, 1]) = [3, 2, 1] := by decide
-- combinatorial.rst:100-119: the standard tableaux of shape `[3,2]`
example : tableaux [3, 2] = some [[[1, 2, 3], [4, 5]], [[1, 2, 4], [3, 5]], [[1, 3, 4], [2, 5]], [[1, 2, 5], [3, 4]], [[1, 3, 5], [2, 4]]] := by decide

-- SnFunctions.rst:10-69: a function on `S3`, its translates by `pi=[2,1,3]` and its inverse; the values in millionths
def f : Cells Int := [some (-1239740), some (-407472), some 1612010, some 399771, some 1382800, some 52319]

example : (snGroup 3).value f (p [1, 3, 2]) = some 1612010 ∧ rdC f 2 = some 1612010 := by decide
example : (snGroup 3).leftTranslate f (p [2, 1, 3]) =
    some [some (-407472), some (-1239740), some 399771, some 1612010, some 52319, some 1382800] := by decide
example : (snGroup 3).rightTranslate f (p [2, 1, 3]) =
    some [some (-407472), some (-1239740), some 1382800, some 52319, some 1612010, some 399771] := by decide
example : (snGroup 3).invert f = some [some (-1239740), some (-407472), some 1612010, some 1382800, some 399771, some 52319] := by decide

-- SnFFT.rst:140-153: the result of Python's `inv_snsm` for `S4/S2` is printed as a function on `S3` with 12 values; the elements
-- `0` to `5` are those of `S3`, the elements from `6` on are undefined (the page shows entries like `32705` and `519242688`)
example : (List.range 6).map (fun i : Nat => element 3 i) =
    [some (p [1, 2, 3]), some (p [2, 1, 3]), some (p [1, 3, 2]), some (p [2, 3, 1]), some (p [3, 1, 2]), some (p [3, 2, 1])] := by decide
example : (List.range' 6 6).map (fun i : Nat => element 3 i) = List.replicate 6 none := by decide

end Snob.Tests
