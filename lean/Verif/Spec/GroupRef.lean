import Verif.Model.GroupRef

/-! What the user of `ProductGroup` expects: groups are values. -/

namespace Snob

/-- A group: cyclic, dihedral, or a product. -/
inductive GroupVal
  | factor (f : Factor)
  | prod (s t : GroupVal)
deriving DecidableEq, Repr

/-- The objects that stand for its elements: pairs in a product. -/
def GroupVal.Elem : GroupVal → Type
  | .factor (.cyc _) => CycElem
  | .factor (.dih _) => DihElem
  | .prod s t => s.Elem × t.Elem

/-- Its operations, as in C51, C52 and C54. -/
def GroupVal.ops : (t : GroupVal) → GroupOps t.Elem
  | .factor (.cyc n) => (cyclicGroup n).toGroupOps
  | .factor (.dih n) => (dihedralGroup n).toGroupOps
  | .prod s t => productGroup s.ops t.ops

/-- An element as an object of the program. -/
def GroupVal.obj : (t : GroupVal) → t.Elem → ElemObj
  | .factor (.cyc _), x => .cyc x
  | .factor (.dih _), x => .dih x
  | .prod s t, x => .pair (s.obj x.1) (t.obj x.2)

/-- The value of an expression. -/
def GroupExpr.value (vals : List GroupVal) : GroupExpr → Option GroupVal
  | .var x => vals[x]?
  | .mul e f => do
    let s ← e.value vals
    let t ← f.value vals
    some (.prod s t)

/-- The values of the variables after a statement. -/
def valueStep (vals : List GroupVal) : GroupStmt → Option (List GroupVal)
  | .decl f => some (vals ++ [.factor f])
  | .ret k e => if vals.length < k then none else (e.value vals).map fun t => vals.take (vals.length - k) ++ [t]
  | .leave k => if vals.length < k then none else some (vals.take (vals.length - k))

/-- The values of the variables after a program. -/
def valueRun (vals : List GroupVal) : List GroupStmt → Option (List GroupVal)
  | [] => some vals
  | s :: ss => (valueStep vals s).bind fun v => valueRun v ss

/-- Variable `x` can be used as the group `t`. -/
def UsedAs (S : GroupState) (x : Nat) (t : GroupVal) : Prop :=
  S.size x = some t.ops.size ∧ ∀ i : Int, S.element x i = (t.ops.element i).map t.obj

/-- A statement in which no product has a product as operand and nothing local is returned. -/
def GroupStmt.Flat : GroupStmt → Prop
  | .decl _ => True
  | .ret k (.var _) => k = 0
  | .ret k (.mul (.var _) (.var _)) => k = 0
  | .ret _ _ => False
  | .leave _ => True

end Snob
