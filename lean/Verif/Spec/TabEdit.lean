import Verif.Model.TabEdit
import Verif.Spec.Tableau

/-!
Vocabulary for programs that read and change the entries of a tableau.
-/

namespace Snob.ITab

/-- the entry in row `r` and column `c`, if the tableau has that box -/
def entry (t : List (List Int)) (r c : Int) : Option Int :=
  if 0 ≤ r ∧ 0 ≤ c then (t[r.toNat]?).bind (·[c.toNat]?) else none

/-- the value last assigned to row `r`, column `c` -/
def lastWrite : List Stmt → Int → Int → Option Int
  | [], _, _ => none
  | .get _ :: prog, r, c => lastWrite prog r c
  | .set v x :: prog, r, c =>
    match lastWrite prog r c with
    | some y => some y
    | none => if v = [r, c] then some x else none

/-- A statement has two indices, and an assignment is to a box of the tableau or to a row that does not exist. -/
def Safe (t : List (List Int)) : Stmt → Prop
  | .get v => v.length = 2
  | .set v _ => ∃ r c, v = [r, c] ∧ ((entry t r c).isSome ∨ ¬ (0 ≤ r ∧ r < t.length))

/-- what reading row `r`, column `c` shows when the box holds `e` -/
def shows (e : Option Int) : Seen := match e with
  | some x => .read x
  | none => .indexError

end Snob.ITab
