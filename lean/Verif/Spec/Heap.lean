import Verif.Model.Heap

/-! What a user expects of objects that hold a list of integers: value semantics. -/

namespace Snob.Heap

/-- What a user knows of an object: it was destroyed; its value was moved away; it has a value. -/
inductive Val
  | gone
  | moved
  | val (l : List Int)
deriving DecidableEq

/-- The expected effect of a statement on the values; `none`: a user may not do this, namely use an object that is gone,
use the value of one that was moved away, write outside of a list, or assign an object to itself by copying. -/
def vstep (c : Cls) (v : List Val) : Op → Option (List Val)
  | .default => if c = .partition then some (v ++ [.val []]) else none
  | .make l => some (v ++ [.val l])
  | .copy s =>
    match v[s]? with
    | some (.val l) => some (v ++ [.val l])
    | _ => none
  | .move s =>
    match v[s]? with
    | some (.val l) => some (v.set s .moved ++ [.val l])
    | some .moved => some (v ++ [.moved])
    | _ => none
  | .assign d s =>
    match v[d]?, v[s]? with
    | some .gone, _ => none
    | some _, some (.val l) => if d = s then none else some (v.set d (.val l))
    | _, _ => none
  | .moveAssign d s =>
    match v[d]?, v[s]? with
    | some .gone, _ => none
    | some _, some (.val l) => if d = s then some v else some ((v.set d (.val l)).set s .moved)
    | some _, some .moved => some (v.set d .moved)
    | _, _ => none
  | .set d r x =>
    match v[d]? with
    | some (.val l) => if 0 ≤ r ∧ r < l.length then some (v.set d (.val (l.set r.toNat x))) else none
    | _ => none
  | .destroy d =>
    match v[d]? with
    | some .gone => none
    | some _ => some (v.set d .gone)
    | none => none

/-- The expected effect of a program. -/
def vrun (c : Cls) (v : List Val) (l : List Op) : Option (List Val) := l.foldlM (vstep c) v

/-- The same with `x=x` allowed: it changes nothing. -/
def vstepFull (c : Cls) (v : List Val) : Op → Option (List Val)
  | .assign d s =>
    match v[d]?, v[s]? with
    | some (.val _), some (.val l) => if d = s then some v else some (v.set d (.val l))
    | some .moved, some (.val l) => some (v.set d (.val l))
    | _, _ => none
  | op => vstep c v op

/-- The expected effect of a program with `x=x` allowed. -/
def vrunFull (c : Cls) (v : List Val) (l : List Op) : Option (List Val) := l.foldlM (vstepFull c) v

/-- What the objects show is what is expected. -/
def Shows (m : Mem) (v : List Val) : Prop :=
  ∀ (d : Nat) l, v[d]? = some (.val l) →
    m.height d = some l.length ∧ m.getn d = some l.sum ∧ ∀ (r : Nat) (h : r < l.length), m.get d r = some l[r]

/-- No block of memory is in use. -/
def Clean (m : Mem) : Prop := ∀ (a : Nat) b, m.blocks[a]? ≠ some (some b)

end Snob.Heap
