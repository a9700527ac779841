import Verif.Model.Irrep

/-!
Model of `Sn/SnProductRepresentation.hpp` and of the action of an irrep on the middle index of a 3-tensor view
(`Sn/SnIrrepObj.hpp:271-343`, `Sn/SnIrrep.hpp:113-124`).

Simplifications: a view carries its dimensions in its type, so that the assertions `T.n1==d` hold by typing (the
product representation passes only views of these dimensions); a view is the function of its indices, and an action in
place returns the new contents. `split0`, `split1`, `fuse01`, `fuse23` of cnine renumber indices in row-major order.
-/

namespace Snob

/-- `cnine::Rtensor3_view` of the given dimensions. -/
abbrev View3 (n0 n1 n2 : Nat) := Fin n0 → Fin n1 → Fin n2 → ℝ

/-- `cnine::Rtensor4_view` of the given dimensions. -/
abbrev View4 (n0 n1 n2 n3 : Nat) := Fin n0 → Fin n1 → Fin n2 → Fin n3 → ℝ

variable {n0 n1 n2 n3 d0 d1 : Nat}

/-- Position of the pair `(i,j)` in an index fused from two of dimensions `a`, `b`. -/
def fuseIx {a b : Nat} (i : Fin a) (j : Fin b) : Fin (a * b) :=
  ⟨i * b + j, calc
    i * b + j < i * b + b := by have := j.2; omega
    _ = (i + 1) * b := by ring
    _ ≤ a * b := Nat.mul_le_mul_right _ i.2⟩

/-- First member of the pair at position `c` of a fused index. -/
def fstIx {a b : Nat} (c : Fin (a * b)) : Fin a := ⟨c / b, Nat.div_lt_of_lt_mul (lt_of_lt_of_eq c.2 (Nat.mul_comm a b))⟩

/-- Second member of the pair at position `c` of a fused index. -/
def sndIx {a b : Nat} (c : Fin (a * b)) : Fin b :=
  ⟨c % b, Nat.mod_lt _ (Nat.pos_of_ne_zero fun h => by subst h; have := c.2; simp at this)⟩

/-- `split1(A,d0,d1)`, and the writes through it. -/
def split1 (T : View3 n0 (d0 * d1) n2) : View4 n0 d0 d1 n2 := fun a i j b => T a (fuseIx i j) b

@[inherit_doc split1] def unsplit1 (V : View4 n0 d0 d1 n2) : View3 n0 (d0 * d1) n2 := fun a x b => V a (fstIx x) (sndIx x) b

/-- `fuse23()`, and the writes through it. -/
def fuse23 (V : View4 n0 n1 n2 n3) : View3 n0 n1 (n2 * n3) := fun a i c => V a i (fstIx c) (sndIx c)

@[inherit_doc fuse23] def unfuse23 (W : View3 n0 n1 (n2 * n3)) : View4 n0 n1 n2 n3 := fun a i j b => W a i (fuseIx j b)

/-- `fuse01()`, and the writes through it. -/
def fuse01 (V : View4 n0 n1 n2 n3) : View3 (n0 * n1) n2 n3 := fun c j b => V (fstIx c) (sndIx c) j b

@[inherit_doc fuse01] def unfuse01 (W : View3 (n0 * n1) n2 n3) : View4 n0 n1 n2 n3 := fun a i j b => W (fuseIx a i) j b

/-- The loops `for a<A, for b<B` of Sn/SnIrrepObj.hpp:325-326, 329-330. -/
def midPairs (A B : Nat) : List (Fin A × Fin B) := (List.finRange A).flatMap fun a => (List.finRange B).map fun b => (a, b)

namespace IrrepObj

/-- Sn/SnIrrepObj.hpp:312-338 `apply(T,tau)` (through `applyTau` of Model/Irrep); 341-343 and Sn/SnIrrep.hpp:113-115
`apply_transp(T,tau)`. -/
noncomputable def midTau (R : IrrepObj) (tau : Int) (T : View3 n0 R.d n2) : Option (View3 n0 R.d n2) := do
  let Y ← R.applyTau (midPairs n0 n2) tau fun i k => if h : i < R.d then T k.1 ⟨i, h⟩ k.2 else 0
  some fun a i b => Y i (a, b)

/-- Sn/SnIrrepObj.hpp:291-299 `apply(A,cyc)`; Sn/SnIrrep.hpp:118-120. -/
noncomputable def midCycle (R : IrrepObj) (a b : Int) (T : View3 n0 R.d n2) : Option (View3 n0 R.d n2) :=
  if a < b then forDown (b - 1) a T fun i T => R.midTau i T else forUp b a T fun i T => R.midTau i T

/-- Sn/SnIrrepObj.hpp:276-288 `apply(A,sigma)`. -/
noncomputable def midSigma (R : IrrepObj) (sigma : Arr) (T : View3 n0 R.d n2) : Option (View3 n0 R.d n2) :=
  if sigma.length = R.n then do
    let s ← shifts R.n sigma
    forUp 2 ((R.n : Int) + 1) T fun i T => do
      let b ← rd s (i - 1)
      forDown (i - 1) b T fun a T => R.midTau a T
  else none

/-- Sn/SnIrrepObj.hpp:302-309 `apply(A,Transposition)`; Sn/SnIrrep.hpp:122-124. -/
noncomputable def midTransposition (R : IrrepObj) (x y : Int) (T : View3 n0 R.d n2) : Option (View3 n0 R.d n2) := do
  let a := min x y
  let b := max x y
  let T ← forDown (b - 1) a T fun i T => R.midTau i T
  forUp (a + 1) b T fun i T => R.midTau i T

end IrrepObj

/-- Sn/SnProductRepresentation.hpp:30-42: the two factors. -/
structure ProductRep where
  rho0 : IrrepObj
  rho1 : IrrepObj

namespace ProductRep

/-- Sn/SnProductRepresentation.hpp:41, 47-49 `dim()`. -/
abbrev d (P : ProductRep) : Nat := P.rho0.d * P.rho1.d

/-- Sn/SnProductRepresentation.hpp:71-74 `apply(A,tau)`, 76-79 `apply_transp(A,tau)` (the same statements). -/
noncomputable def applyTau (P : ProductRep) (tau : Int) (A : View3 n0 P.d n2) : Option (View3 n0 P.d n2) := do
  let W ← P.rho0.midTau tau (fuse23 (split1 (d0 := P.rho0.d) (d1 := P.rho1.d) A))
  let A := unsplit1 (unfuse23 W)
  let W ← P.rho1.midTau tau (fuse01 (split1 (d0 := P.rho0.d) (d1 := P.rho1.d) A))
  some (unsplit1 (unfuse01 W))

/-- Sn/SnProductRepresentation.hpp:81-84 `apply(A,cyc)`. -/
noncomputable def applyCycle (P : ProductRep) (a b : Int) (A : View3 n0 P.d n2) : Option (View3 n0 P.d n2) := do
  let W ← P.rho0.midCycle a b (fuse23 (split1 (d0 := P.rho0.d) (d1 := P.rho1.d) A))
  let A := unsplit1 (unfuse23 W)
  let W ← P.rho1.midCycle a b (fuse01 (split1 (d0 := P.rho0.d) (d1 := P.rho1.d) A))
  some (unsplit1 (unfuse01 W))

/-- Sn/SnProductRepresentation.hpp:55-65 `JucysMurphy(k)`: state `(R,A)`; `split0(A.view2(),1,d)` is the matrix with a
first index of dimension one. -/
noncomputable def jucysMurphy (P : ProductRep) (k : Int) : Option (Fin P.d → Fin P.d → ℝ) := do
  let st ← forDown (k - 1) 1 ((fun _ _ _ => 0 : View3 1 P.d P.d), (fun _ i j => if i = j then 1 else 0 : View3 1 P.d P.d))
    fun i st => do
      let A ← P.applyTau i st.2
      let B ← P.applyCycle k (i + 1) A
      some (fun a x y => st.1 a x y + B a x y, A)
  some (st.1 0)

end ProductRep

end Snob
