import Verif.Model.Partition

/-!
Model of `combinatorial/YoungTableau.hpp` and of `combinatorial/IntegerPartitionObj.hpp`.

A tableau is its vector of rows. Simplifications: entries and positions are `Nat`; `vector::at` outside
the vector (an exception) is `none`; pointers to tableaux are identified with the tableaux.
-/

namespace Snob

/-- combinatorial/YoungTableau.hpp:22 `rows`. -/
abbrev Tab := List (List Nat)

namespace Tab

/-- combinatorial/YoungTableau.hpp:29-33, the constructor with `fill_identity`: one row `1..n`. -/
def ident (n : Nat) : Tab := [List.range' 1 n]

/-- combinatorial/YoungTableau.hpp:36-41: the loop over the rows of `lambda`, filling with the running
counter `t`. -/
def ofShapeFrom : Nat → List Nat → Tab
  | _, [] => []
  | t, x :: lambda => List.range' t x :: ofShapeFrom (t + x) lambda

/-- combinatorial/YoungTableau.hpp:35-42, the constructor from a shape. -/
def ofShape (lambda : List Nat) : Tab := ofShapeFrom 1 lambda

/-- combinatorial/YoungTableau.hpp:61-65 `shape`: starts from `k` zero rows and adds the size of row
`i` to row `i`. -/
def shape (t : Tab) : List Nat :=
  (List.range t.length).foldl (fun r i => IP.add r i ((t[i]?.map List.length).getD 0))
    (List.replicate t.length 0)

/-- combinatorial/YoungTableau.hpp:71-81 `at(r,c)`, `operator()`, `get_value`. -/
def at' (t : Tab) (r c : Nat) : Option Nat := (t[r]?).bind (fun row => row[c]?)

/-- combinatorial/YoungTableau.hpp:89-90: the inner loop of `index` over one row; the position found. -/
def findInRow (m : Nat) : List Nat → Option Nat
  | [] => none
  | x :: xs => if x = m then some 0 else (findInRow m xs).map (· + 1)

/-- combinatorial/YoungTableau.hpp:88-91: the outer loop of `index` over the rows. -/
def findPos (m : Nat) : Tab → Option (Nat × Nat)
  | [] => none
  | row :: t =>
    match findInRow m row with
    | some c => some (0, c)
    | none => (findPos m t).map (fun rc => (rc.1 + 1, rc.2))

/-- combinatorial/YoungTableau.hpp:87-93 `index`; `(0,0)` when `m` does not occur. -/
def index (t : Tab) (m : Nat) : Nat × Nat := (findPos m t).getD (0, 0)

/-- combinatorial/YoungTableau.hpp:100-109 `add(r,j)`. -/
def add (t : Tab) (r j : Nat) : Tab :=
  if r < t.length then t.modify r (· ++ [j]) else t ++ [[j]]

/-- combinatorial/YoungTableau.hpp:111-117 `remove(r)`; `none` when row `r` does not exist. -/
def remove (t : Tab) (r : Nat) : Option Tab :=
  match t[r]? with
  | none => none
  | some row => if row.length > 1 then some (t.modify r List.dropLast) else some t.dropLast

/-- `rows.at(r).at(c)=x` (combinatorial/YoungTableau.hpp:126,127); `none` outside the tableau. -/
def setAt (t : Tab) (rc : Nat × Nat) (x : Nat) : Option Tab :=
  match t[rc.1]? with
  | none => none
  | some row => if rc.2 < row.length then some (t.set rc.1 (row.set rc.2 x)) else none

/-- combinatorial/YoungTableau.hpp:123-129 `apply_transp(i,j)`: the tableau afterwards and the returned
difference of contents. -/
def applyTransp (t : Tab) (i j : Nat) : Option (Tab × Int) :=
  let rc1 := index t i
  let rc2 := index t j
  match setAt t rc1 j with
  | none => none
  | some t1 =>
    match setAt t1 rc2 i with
    | none => none
    | some t2 => some (t2, ((rc2.2 : Int) - rc2.1) - ((rc1.2 : Int) - rc1.1))

/-- combinatorial/IntegerPartitionObj.hpp:57-60: the first row of the parent `mu` shorter than the row
of `lambda`, the height of `mu` if there is none. `none`: `lambda` has fewer rows than `mu` (the code
would read outside). -/
def newRow : List Nat → List Nat → Option Nat
  | [], _ => some 0
  | _ :: _, [] => none
  | b :: mu, a :: lambda => if b < a then some 0 else (newRow mu lambda).map (· + 1)

/-- combinatorial/IntegerPartitionObj.hpp:56-67: the loop over the parents; `rec` lists the tableaux of
a parent. -/
def tableauxLoop (rec : List Nat → Option (List Tab)) (lambda : List Nat) (n : Nat) :
    List (List Nat) → Option (List Tab)
  | [] => some []
  | mu :: parents =>
    match newRow mu lambda, rec mu, tableauxLoop rec lambda n parents with
    | some i, some ts, some rest => some (ts.map (fun t => add t i n) ++ rest)
    | _, _, _ => none

/-- combinatorial/IntegerPartitionObj.hpp:51-68 `make_tableaux` for an object of size `n` (and 43-46
`get_YoungTableaux`; caching is the subject of C46). Size 0 does not exist in the code
(CombinatorialBank.hpp:50). -/
def makeTableaux : Nat → List Nat → Option (List Tab)
  | 0, _ => none
  | 1, _ => some [ident 1]
  | n + 2, lambda =>
    match IP.bankParents lambda with
    | none => none
    | some ps => tableauxLoop (makeTableaux (n + 1)) lambda (n + 2) ps

end Tab

/-- combinatorial/CombinatorialBank.hpp:36-39 `get_YoungTableaux(lambda)`,
combinatorial/StandardYoungTableaux.hpp:41-44. -/
def tableaux (lambda : List Nat) : Option (List Tab) := Tab.makeTableaux (IP.getn lambda) lambda

end Snob
