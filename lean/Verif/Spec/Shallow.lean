import Verif.Model.Shallow

/-! What a user expects of objects that hold a list of tensors: value semantics. -/

namespace Snob.Shallow

variable {α : Type}

/-- The expected effect of a statement; an object is `none` when it is gone. `none`: a user may not do this, namely use
an object that is gone or a tensor it does not have. -/
def vstep (v : List (Option (List α))) : Op α → Option (List (Option (List α)))
  | .make l => some (v ++ [some l])
  | .copy s =>
    match v[s]? with
    | some (some l) => some (v ++ [some l])
    | _ => none
  | .assign d s =>
    match v[d]?, v[s]? with
    | some (some _), some (some l) => some (v.set d (some l))
    | _, _ => none
  | .set d i x =>
    match v[d]? with
    | some (some l) => if i < l.length then some (v.set d (some (l.set i x))) else none
    | _ => none
  | .destroy d =>
    match v[d]? with
    | some (some _) => some (v.set d none)
    | _ => none

def vrun (v : List (Option (List α))) (l : List (Op α)) : Option (List (Option (List α))) := l.foldlM vstep v

/-- The objects show what is expected. -/
def Shows (m : Mem α) (v : List (Option (List α))) : Prop :=
  ∀ (d : Nat) l, v[d]? = some (some l) → ∀ (i : Nat) (h : i < l.length), m.get d i = some l[i]

/-- No tensor is in use. -/
def Clean (m : Mem α) : Prop := ∀ (a : Nat) x, m.cells[a]? ≠ some (some x)

/-- A statement that does not assign. -/
def NoAssign : Op α → Prop
  | .assign _ _ => False
  | _ => True

/-- The number of tensors in the object that a statement copies. -/
def weight (v : List (Option (List α))) : Op α → Nat
  | .copy s =>
    match v[s]? with
    | some (some l) => l.length
    | _ => 0
  | _ => 0

/-- The number of tensors in the objects that a program copies. -/
def copied (v : List (Option (List α))) : List (Op α) → Nat
  | [] => 0
  | op :: ops =>
    weight v op +
      match vstep v op with
      | some w => copied w ops
      | none => 0

end Snob.Shallow
