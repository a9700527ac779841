import Verif.Model.Tableau

/-!
# Model of the combinatorial bank with its caches

`combinatorial/CombinatorialBank.hpp`, `combinatorial/CombinatorialBankLevel.hpp`,
`combinatorial/IntegerPartitionObj.hpp`. The bank is a state threaded through the queries. A pointer to an
`IntegerPartitionObj` is its position in the vector `ip` of its level (objects are neither moved nor deleted while
the bank lives). `ip_map` (an `unordered_map`) is modelled by a search of `ip` with `operator==`; this is right where
equal partitions have equal hashes, which C13 shows for partitions without trailing zeros.
Level `n` is entry `n-1` of the list. `none`: a failed assertion or an access outside a vector.
-/

namespace Snob.Combi

open Snob

/-- combinatorial/IntegerPartitionObj.hpp:20-26. `parents` are positions in the level below; `n` is the level. -/
structure PObj where
  lambda : List Nat
  parents : List Nat
  tableaux : List Tab
deriving DecidableEq

/-- combinatorial/CombinatorialBankLevel.hpp:21-32. -/
structure Level where
  ip : List PObj := []
  partitions : List (List Nat) := []
  ro : List (List Nat) := []
deriving DecidableEq

/-- combinatorial/CombinatorialBank.hpp:24 `levels`. -/
abbrev Bank := List Level

/-- combinatorial/CombinatorialBank.hpp:49-58 `level(n)`: create the missing levels. -/
def level (n : Nat) (b : Bank) : Option Bank :=
  if n = 0 then none
  else if n ≤ b.length then some b
  else some (b ++ List.replicate (n - b.length) ({} : Level))

/-- The object at position `id` of level `n+1`. -/
def obj (b : Bank) (n id : Nat) : Option PObj := (b[n]?).bind fun L => L.ip[id]?

/-- combinatorial/CombinatorialBankLevel.hpp:80-85: the loop `i=k-1..0` over shortenable rows, `c` rows still to
visit, with `rec` for `sub->get_IntegerPartitionObj`. -/
def parentsLoop (rec : List Nat → Bank → Option (Nat × Bank)) (lambda : List Nat) : Nat → Bank → Option (List Nat × Bank)
  | 0, b => some ([], b)
  | i + 1, b => do
      let s ← IP.shortenable lambda i
      if s then do
        let mu ← IP.remove lambda i
        let r ← rec mu b
        let t ← parentsLoop rec lambda i r.2
        some (r.1 :: t.1, t.2)
      else parentsLoop rec lambda i b

/-- combinatorial/CombinatorialBankLevel.hpp:71-91 `get_IntegerPartitionObj(lambda)` at level `n`. -/
def getObj : Nat → List Nat → Bank → Option (Nat × Bank)
  | 0, _, _ => none
  | n + 1, lambda, b =>
    if IP.getn lambda = n + 1 then do
      let L ← b[n]?
      match L.ip.findIdx? (fun o => IP.eqb o.lambda lambda) with
      | some id => some (id, b)
      | none => do
          let r ← if n + 1 > 1 then parentsLoop (getObj n) lambda lambda.length b else some ([], b)
          let L ← r.2[n]?
          some (L.ip.length, r.2.set n { L with ip := L.ip ++ [⟨lambda, r.1, []⟩] })
    else none

/-- combinatorial/CombinatorialBankLevel.hpp:53-56, 93-113 `get_IntegerPartitions`, `make_partitions` at level `n`. -/
def getPartitions : Nat → Bank → Option (List (List Nat) × Bank)
  | 0, _ => none
  | n + 1, b => do
      let L ← b[n]?
      if L.partitions.length = 0 then do
        let r ← if n + 1 = 1 then some ([[1]], b) else (getPartitions n b).map fun r => (IP.partitionsStep r.1, r.2)
        let L ← r.2[n]?
        some (L.partitions ++ r.1, r.2.set n { L with partitions := L.partitions ++ r.1 })
      else some (L.partitions, b)

/-- combinatorial/CombinatorialBankLevel.hpp:126-133: the loop over `j` in `proposeRO` at level `n`, `subs` being the
parents of partition `i` and `rec` the recursive call. -/
def roLoop (n : Nat) (ps : List (List Nat)) (rec : Nat → IP.ROState × Bank → Option (IP.ROState × Bank)) (subs : List Nat) :
    List Nat → IP.ROState × Bank → Option (IP.ROState × Bank)
  | [], st => some st
  | j :: js, st => do
      let u ← st.1.used[j]?
      if u then roLoop n ps rec subs js st
      else do
        let q ← ps[j]?
        let r ← getObj n q st.2
        let o ← obj r.2 (n - 1) r.1
        if o.parents.all (fun x => subs.contains x) then do
          let st ← rec j (st.1, r.2)
          roLoop n ps rec subs js st
        else roLoop n ps rec subs js (st.1, r.2)

/-- combinatorial/CombinatorialBankLevel.hpp:123-135 `proposeRO` at level `n`. The recursion is bounded by fuel;
running out is `none`. The partition pushed to `ROpartitions` is recorded by its index. -/
def proposeRO (n : Nat) (ps : List (List Nat)) : Nat → Nat → IP.ROState × Bank → Option (IP.ROState × Bank)
  | 0, _, _ => none
  | fuel + 1, i, st =>
    if i < st.1.used.length then do
      let p ← ps[i]?
      let r ← getObj n p st.2
      let o ← obj r.2 (n - 1) r.1
      let s ← roLoop n ps (proposeRO n ps fuel) o.parents (List.range' (i + 1) (ps.length - (i + 1)))
        ({ st.1 with used := st.1.used.set i true }, r.2)
      some ({ s.1 with out := s.1.out ++ [i] }, s.2)
    else none

/-- combinatorial/CombinatorialBankLevel.hpp:119-120: the outer loop of `make_ROpartitions`. -/
def roOuter (n : Nat) (ps : List (List Nat)) : List Nat → IP.ROState × Bank → Option (IP.ROState × Bank)
  | [], st => some st
  | i :: is, st => do
      let u ← st.1.used[i]?
      if u then roOuter n ps is st
      else do
        let st ← proposeRO n ps ps.length i st
        roOuter n ps is st

/-- combinatorial/CombinatorialBankLevel.hpp:63-66, 115-121 `get_ROpartitions`, `make_ROpartitions` at level `n`. -/
def getRO (n : Nat) (b : Bank) : Option (List (List Nat) × Bank) := do
  let L ← b[n - 1]?
  if L.ro.length = 0 then do
    let r ← getPartitions n b
    let s ← roOuter n r.1 (List.range r.1.length) (⟨List.replicate r.1.length false, []⟩, r.2)
    let l ← s.1.out.mapM (fun i => r.1[i]?)
    let L ← s.2[n - 1]?
    some (L.ro ++ l, s.2.set (n - 1) { L with ro := L.ro ++ l })
  else some (L.ro, b)

/-- combinatorial/IntegerPartitionObj.hpp:56-67: the loop over the parents, with `rec` for
`parent->get_YoungTableaux()`; `n` is the size of `lambda`. -/
def tabLoop (rec : Nat → Bank → Option (List Tab × Bank)) (n : Nat) (lambda : List Nat) : List Nat → Bank → Option (List Tab × Bank)
  | [], b => some ([], b)
  | id :: ids, b => do
      let o ← obj b (n - 2) id
      let i ← Tab.newRow o.lambda lambda
      let r ← rec id b
      let t ← tabLoop rec n lambda ids r.2
      some (r.1.map (fun t => Tab.add t i n) ++ t.1, t.2)

/-- combinatorial/IntegerPartitionObj.hpp:43-68 `get_YoungTableaux`, `make_tableaux` of the object at position `id` of
level `n`. -/
def getTabs : Nat → Nat → Bank → Option (List Tab × Bank)
  | 0, _, _ => none
  | n + 1, id, b => do
      let o ← obj b n id
      if o.tableaux.length = 0 then do
        let r ← if n + 1 = 1 then some ([Tab.ident 1], b) else tabLoop (getTabs n) (n + 1) o.lambda o.parents b
        let L ← r.2[n]?
        let o ← L.ip[id]?
        some (o.tableaux ++ r.1, r.2.set n { L with ip := L.ip.set id { o with tableaux := o.tableaux ++ r.1 } })
      else some (o.tableaux, b)

/-- The public queries, combinatorial/CombinatorialBank.hpp:32-45, and `get_IntegerPartitionObj` of the level
(combinatorial/CombinatorialBankLevel.hpp:71-91). -/
inductive Query
  | partitions (n : Nat)
  | ro (n : Nat)
  | tableaux (lambda : List Nat)
  | object (lambda : List Nat)
deriving DecidableEq

/-- What a query returns; an object is described by its partition and the partitions of its parents. -/
inductive Answer
  | parts (l : List (List Nat))
  | tabs (l : List Tab)
  | object (lambda : List Nat) (parents : List (List Nat))
deriving DecidableEq

/-- The members of an object at level `n` that its clients read, combinatorial/IntegerPartitionObj.hpp:20-26. -/
def view (b : Bank) (n : Nat) (o : PObj) : Option Answer := do
  let ps ← o.parents.mapM (fun id => (obj b (n - 2) id).map (·.lambda))
  some (.object o.lambda ps)

/-- combinatorial/CombinatorialBank.hpp:32-45; combinatorial/CombinatorialBankLevel.hpp:71-91. -/
def exec : Query → Bank → Option (Answer × Bank)
  | .partitions n, b => do
      let b ← level n b
      let r ← getPartitions n b
      some (.parts r.1, r.2)
  | .ro n, b => do
      let b ← level n b
      let r ← getRO n b
      some (.parts r.1, r.2)
  | .tableaux lambda, b => do
      let b ← level (IP.getn lambda) b
      let r ← getObj (IP.getn lambda) lambda b
      let s ← getTabs (IP.getn lambda) r.1 r.2
      some (.tabs s.1, s.2)
  | .object lambda, b => do
      let b ← level (IP.getn lambda) b
      let r ← getObj (IP.getn lambda) lambda b
      let o ← obj r.2 (IP.getn lambda - 1) r.1
      let a ← view r.2 (IP.getn lambda) o
      some (a, r.2)

/-- A history of queries. -/
def run : List Query → Bank → Option Bank
  | [], b => some b
  | q :: qs, b => do
      let r ← exec q b
      run qs r.2

/-- What the vector a query returned a reference to contains in the state `b`: the member `partitions` or
`ROpartitions` of the level, or `tableaux` of the object found in `ip_map`; `none` if there is no such vector. -/
def look : Query → Bank → Option Answer
  | .partitions n, b => (b[n - 1]?).map fun L => .parts L.partitions
  | .ro n, b => (b[n - 1]?).map fun L => .parts L.ro
  | .tableaux lambda, b => do
      let L ← b[IP.getn lambda - 1]?
      let o ← L.ip.find? (fun o => IP.eqb o.lambda lambda)
      some (.tabs o.tableaux)
  | .object lambda, b => do
      let L ← b[IP.getn lambda - 1]?
      let o ← L.ip.find? (fun o => IP.eqb o.lambda lambda)
      view b (IP.getn lambda) o

end Snob.Combi
