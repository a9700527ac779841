/-!
Model of `combinatorial/IntegerPartition.hpp` and of the partition part of
`combinatorial/CombinatorialBankLevel.hpp`.

An `IntegerPartition` is the array `p[0..k)`; here a `List Nat` whose length is `k`.
Simplifications: rows are `Nat` (a call that would make a row negative, or that reads outside the
array, gives `none`); copies are values; `int` does not overflow (see C57).
-/

namespace Snob.IP

/-- combinatorial/IntegerPartition.hpp:94-98 `getn`: the accumulating loop over the rows. -/
def getn (p : List Nat) : Nat := p.foldl (fun n x => n + x) 0

/-- combinatorial/IntegerPartition.hpp:83-85 `factorial`. -/
def factorial : Nat → Nat
  | 0 => 1
  | x + 1 => (x + 1) * factorial x

/-- combinatorial/IntegerPartition.hpp:128-130: number of rows below (`i=r+1..k`) that reach column `c`. -/
def below (rows : List Nat) (c : Nat) : Nat :=
  rows.foldl (fun b x => b + (if c ≤ x then 1 else 0)) 0

/-- combinatorial/IntegerPartition.hpp:126-132: the loop `c=1..p[r-1]` of one row of length `x`
with the rows `xs` under it, dividing `res` by one hook length after the other. -/
def hookRow (x : Nat) (xs : List Nat) (res : Nat) : Nat :=
  (List.range' 1 x).foldl (fun res c => res / ((x - c) + below xs c + 1)) res

/-- combinatorial/IntegerPartition.hpp:125-133: the loop over the rows. -/
def hookLoop : List Nat → Nat → Nat
  | [], res => res
  | x :: xs, res => hookLoop xs (hookRow x xs res)

/-- combinatorial/IntegerPartition.hpp:123-135 `hooklength`. -/
def hooklength (p : List Nat) : Nat := hookLoop p (factorial (getn p))

/-- combinatorial/IntegerPartition.hpp:137-142 `extendable(i)`; `none` when `p[i]` is read outside. -/
def extendable (p : List Nat) (i : Nat) : Option Bool :=
  if i = p.length then some true
  else if i = 0 then some true
  else match p[i-1]?, p[i]? with
    | some a, some b => some (decide (a > b))
    | _, _ => none

/-- combinatorial/IntegerPartition.hpp:144-148 `shortenable(i)`; `none` when read outside. -/
def shortenable (p : List Nat) (i : Nat) : Option Bool :=
  if i + 1 = p.length then some true
  else match p[i+1]?, p[i]? with
    | some b, some a => some (decide (b < a))
    | _, _ => none

/-- combinatorial/IntegerPartition.hpp:154-158: the first row `i` of `mu` with `mu[i]==p[i]-1`,
`mu.height()` if there is none. -/
def rowOfDifference : List Nat → List Nat → Nat
  | _, [] => 0
  | [], _ :: _ => 0
  | a :: p, b :: mu => if (b : Int) = (a : Int) - 1 then 0 else rowOfDifference p mu + 1

/-- combinatorial/IntegerPartition.hpp:150-160 `content_of_difference`; `none` when an assertion
fails or `p[rowix]` is read outside. -/
def contentOfDifference (p mu : List Nat) : Option Int :=
  if getn p = getn mu + 1 ∧ mu.length ≤ p.length then
    match p[rowOfDifference p mu]? with
    | some x => some ((x : Int) - 1 - (rowOfDifference p mu : Int))
    | none => none
  else none

/-- combinatorial/IntegerPartition.hpp:162-168 `add(r,m)`. -/
def add (p : List Nat) (r : Nat) (m : Nat := 1) : List Nat :=
  if r < p.length then p.modify r (· + m) else p ++ [m]

/-- combinatorial/IntegerPartition.hpp:172-176: drop the last row if it is zero. -/
def dropZeroLast (q : List Nat) : List Nat :=
  if q.getLast? = some 0 then q.dropLast else q

/-- combinatorial/IntegerPartition.hpp:170-178 `remove(r,m)`; `none` when `p[r]` is outside the array
or the row would become negative (not representable here). -/
def remove (p : List Nat) (r : Nat) (m : Nat := 1) : Option (List Nat) :=
  match p[r]? with
  | none => none
  | some x => if m ≤ x then some (dropZeroLast (p.set r (x - m))) else none

/-- combinatorial/IntegerPartition.hpp:199-205: the loop `i=k-2..0` of `foreach_sub` on rows `c` to
`0`, `c` being the number of rows still to visit; the list of arguments passed to `fun`. -/
def subsLoop (p : List Nat) : Nat → Option (List (List Nat))
  | 0 => some []
  | i + 1 =>
    match p[i]?, p[i+1]? with
    | some a, some b =>
      match subsLoop p i with
      | none => none
      | some rest => if b < a then some (p.set i (a - 1) :: rest) else some rest
    | _, _ => none

/-- combinatorial/IntegerPartition.hpp:184-207 `foreach_sub` and 228-233 `parents`: the partitions
passed to `fun`, in order. The assertion `k>0` failing, and a last row that is already zero (it would
become -1), give `none`. -/
def parents (p : List Nat) : Option (List (List Nat)) :=
  match p.getLast? with
  | none => none
  | some 0 => none
  | some (x + 1) =>
    match subsLoop p (p.length - 1) with
    | none => none
    | some rest => some ((if x = 0 then p.dropLast else p.set (p.length - 1) x) :: rest)

/-- combinatorial/IntegerPartition.hpp:209-214 `operator==`: the common rows are compared, the rest of
the longer one must be zero. -/
def eqb : List Nat → List Nat → Bool
  | a :: p, b :: q => if a ≠ b then false else eqb p q
  | p, [] => p.all (· == 0)
  | [], q => q.all (· == 0)

/-- combinatorial/IntegerPartition.hpp:218-222: the comparison loop of `operator<`. -/
def ltLoop : List Nat → List Nat → Bool
  | a :: p, b :: q => if a > b then true else if a < b then false else ltLoop p q
  | _, _ => false

/-- combinatorial/IntegerPartition.hpp:216-223 `operator<`; `none` is the failed SNOB2_ASSERT, which
stops the program. -/
def lt (p q : List Nat) : Option Bool :=
  if getn p = getn q then some (ltLoop p q) else none

/-- combinatorial/IntegerPartition.hpp:263-267 `std::hash`; `size_t` is a 64 bit word and
`std::hash<int>` is the identity (libstdc++). -/
def hash1 (p : List Nat) : BitVec 64 :=
  p.foldl (fun r x => (r <<< 1) ^^^ BitVec.ofNat 64 x) 1#64

/-- combinatorial/IntegerPartition.hpp:272-281, the hash of a pair of partitions. -/
def hash2 (p q : List Nat) : BitVec 64 := (hash1 p <<< 1) ^^^ hash1 q

/-- combinatorial/IntegerPartition.hpp:284-294, the hash of a triple of partitions. -/
def hash3 (p q r : List Nat) : BitVec 64 := ((hash1 p <<< 1) ^^^ (hash1 q <<< 1)) ^^^ hash1 r

/-- combinatorial/CombinatorialBankLevel.hpp:103: `k==1||p(k-2)>p(k-1)`. -/
def lastGrows (p : List Nat) : Bool :=
  p.length == 1 ||
    (match p[p.length - 2]?, p[p.length - 1]? with
     | some a, some b => decide (a > b)
     | _, _ => false)

/-- combinatorial/CombinatorialBankLevel.hpp:98-112: one level of `make_partitions` from the next
lower one. -/
def partitionsStep (sub : List (List Nat)) : List (List Nat) :=
  sub.flatMap fun p =>
    (if lastGrows p then [add p (p.length - 1)] else []) ++ [add p p.length]

/-- combinatorial/CombinatorialBankLevel.hpp:93-113 `make_partitions` at level `n` (and
`get_IntegerPartitions`, 53-56; caching is the subject of C46). `n=0` does not exist in the code
(CombinatorialBank.hpp:50 would read `levels[-1]`); the value here is a dummy and all theorems are
about `n≥1`. -/
def partitions : Nat → List (List Nat)
  | 0 => []
  | 1 => [[1]]
  | n + 2 => partitionsStep (partitions (n + 1))

/-- combinatorial/CombinatorialBankLevel.hpp:80-85: the parents of a partition in the bank, the loop
`i=k-1..0` over shortenable rows; `c` rows are still to be visited. -/
def bankParentsLoop (p : List Nat) : Nat → Option (List (List Nat))
  | 0 => some []
  | i + 1 =>
    match shortenable p i with
    | none => none
    | some true =>
      match remove p i, bankParentsLoop p i with
      | some mu, some rest => some (mu :: rest)
      | _, _ => none
    | some false => bankParentsLoop p i

/-- combinatorial/CombinatorialBankLevel.hpp:71-91 `get_IntegerPartitionObj`: the `parents` vector of
the object made for `p` (objects are identified with their partition). For `n=1` it stays empty. -/
def bankParents (p : List Nat) : Option (List (List Nat)) :=
  if getn p > 1 then bankParentsLoop p p.length else some []

/-- State of `make_ROpartitions`: the flags `used` and the indices already pushed to `ROpartitions`. -/
structure ROState where
  used : List Bool
  out : List Nat
deriving DecidableEq, Repr

/-- combinatorial/CombinatorialBankLevel.hpp:126-133: the loop over `j`, calling `rec` for `proposeRO`;
`ok j` says that all subs of `j` are among the subs of `i`. `none`: the recursion ran out of fuel or
`used[j]` is out of range. -/
def roLoop (rec : Nat → ROState → Option ROState) (ok : Nat → Bool) :
    List Nat → ROState → Option ROState
  | [], st => some st
  | j :: js, st =>
    match st.used[j]? with
    | none => none
    | some true => roLoop rec ok js st
    | some false =>
      if ok j then
        match rec j st with
        | none => none
        | some st' => roLoop rec ok js st'
      else roLoop rec ok js st

/-- combinatorial/CombinatorialBankLevel.hpp:123-135 `proposeRO`. `ok i j`: every parent of partition
`j` is a parent of partition `i` (129-131; object pointers are compared, the bank holds one object per
partition). The recursion of the code is bounded here by fuel; running out is `none`. -/
def proposeRO (ok : Nat → Nat → Bool) (N : Nat) : Nat → Nat → ROState → Option ROState
  | 0, _, _ => none
  | fuel + 1, i, st =>
    if i < st.used.length then
      match roLoop (proposeRO ok N fuel) (ok i) (List.range' (i + 1) (N - (i + 1)))
          { st with used := st.used.set i true } with
      | none => none
      | some st' => some { st' with out := st'.out ++ [i] }
    else none

/-- combinatorial/CombinatorialBankLevel.hpp:119-120: the outer loop of `make_ROpartitions`. -/
def roOuter (ok : Nat → Nat → Bool) (N : Nat) : List Nat → ROState → Option ROState
  | [], st => some st
  | i :: is, st =>
    match st.used[i]? with
    | none => none
    | some true => roOuter ok N is st
    | some false =>
      match proposeRO ok N N i st with
      | none => none
      | some st' => roOuter ok N is st'

/-- combinatorial/CombinatorialBankLevel.hpp:129-131: every parent of `q` is a parent of `p`. A
partition whose parents cannot be computed counts as failed. -/
def subsumes (p q : List Nat) : Bool :=
  match bankParents p, bankParents q with
  | some ps, some qs => qs.all (fun x => ps.contains x)
  | _, _ => false

/-- combinatorial/CombinatorialBankLevel.hpp:125,128: the same for `partitions[i]`, `partitions[j]`
(the code only uses indices below `N`). -/
def roOk (ps : List (List Nat)) (i j : Nat) : Bool :=
  match ps[i]?, ps[j]? with
  | some p, some q => subsumes p q
  | _, _ => false

/-- combinatorial/CombinatorialBankLevel.hpp:115-121 `make_ROpartitions` on the list `ps`. -/
def roOrder (ps : List (List Nat)) : Option (List (List Nat)) :=
  match roOuter (roOk ps) ps.length (List.range ps.length)
      ⟨List.replicate ps.length false, []⟩ with
  | none => none
  | some st => st.out.mapM (fun i => ps[i]?)

/-- combinatorial/CombinatorialBankLevel.hpp:63-66 `get_ROpartitions` at level `n`. -/
def roPartitions (n : Nat) : Option (List (List Nat)) := roOrder (partitions n)

end Snob.IP

namespace Snob

/-- include/Snob2_base.hpp:67-83 `order`, over any type with a computable `<`.
(The last line of the function is unreachable.) -/
def order3 {α : Type} (lt : α → α → Bool) (x0 x1 x2 : α) : α × α × α :=
  if lt x0 x1 then
    if lt x1 x2 then (x0, x1, x2)
    else if lt x0 x2 then (x0, x2, x1) else (x2, x0, x1)
  else
    if lt x0 x2 then (x1, x0, x2)
    else if lt x1 x2 then (x1, x2, x0) else (x2, x0, x1)

end Snob
