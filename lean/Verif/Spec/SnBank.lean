import Verif.Model.SnBank
import Verif.Spec.Partition

/-!
Specification vocabulary for the state of the banks: which calls respect the preconditions, and which irreps and
characters a program has asked for, in the order of the first request.
-/

namespace Snob

/-- The preconditions: groups have `n≥1`, partitions are partitions of the right number. -/
def Call.Valid : Call → Prop
  | .sn n => 1 ≤ n
  | .ncclasses n => 1 ≤ n
  | .cclass n i => 1 ≤ n ∧ i < (IP.partitions n).length
  | .cclassOf n p => 1 ≤ n ∧ IsPartition n p
  | .index n p => 1 ≤ n ∧ IsPartition n p
  | .classSize n i => 1 ≤ n ∧ i < (IP.partitions n).length
  | .irrep n p => 1 ≤ n ∧ IsPartition n p
  | .irrepAt n i => 1 ≤ n ∧ i < (IP.partitions n).length
  | .irrepBy n p => 1 ≤ n ∧ IsPartition n p
  | .allIrreps n => 1 ≤ n
  | .character p => 1 ≤ p.sum ∧ IsPartition p.sum p
  | .characterAt n _ => 1 ≤ n
  | .charactersAt n i => 1 ≤ n ∧ i < (IP.partitions n).length
  | .charactersBy n p => 1 ≤ n ∧ IsPartition n p
  | .value p mu => 1 ≤ p.sum ∧ IsPartition p.sum p ∧ IsPartition p.sum mu

/-- append `x` unless it is there -/
def addNew (l : List (List Nat)) (x : List Nat) : List (List Nat) := if x ∈ l then l else l ++ [x]

/-- append those that are not there, in order -/
def addAll (l : List (List Nat)) (xs : List (List Nat)) : List (List Nat) := xs.foldl addNew l

/-- The partitions of `n` whose irrep a call asks for. -/
def Call.irrepsOf (n : Nat) : Call → List (List Nat)
  | .irrep m p => if m = n then [p] else []
  | .irrepAt m _ => if m = n then IP.partitions n else []
  | .irrepBy m _ => if m = n then IP.partitions n else []
  | .allIrreps m => if m = n then IP.partitions n else []
  | .character p => if p.sum = n then [p] else []
  | .characterAt m _ => if m = n then [[m]] else []
  | .charactersAt m _ => if m = n then IP.partitions n else []
  | .charactersBy m p => if m = n then [p] else []
  | .value p _ => if p.sum = n then [p] else []
  | _ => []

/-- The partitions of `n` whose character a call asks for. -/
def Call.charsOf (n : Nat) : Call → List (List Nat)
  | .character p => if p.sum = n then [p] else []
  | .characterAt m _ => if m = n then [[m]] else []
  | .charactersAt m _ => if m = n then IP.partitions n else []
  | .charactersBy m p => if m = n then [p] else []
  | .value p _ => if p.sum = n then [p] else []
  | _ => []

/-- The irreps of `Sn` asked for by a program, in order of first request. -/
def requestedIrreps (n : Nat) (cs : List Call) : List (List Nat) :=
  cs.foldl (fun l c => addAll l (c.irrepsOf n)) []

/-- The characters of `Sn` asked for by a program, in order of first request. -/
def requestedChars (n : Nat) (cs : List Call) : List (List Nat) :=
  cs.foldl (fun l c => addAll l (c.charsOf n)) []

end Snob
