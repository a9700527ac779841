import Verif.Spec.SnVecB
import Verif.Spec.SnVec
import Verif.Spec.Perm
import Verif.Model.CheckCG

/-! # Specification: what `CheckCG` prints (C136) -/

namespace Snob

open Perm

/-- `x` is a batch of one part of the partition `a` of `n`, with one column. -/
def BPart.One (n : Nat) (a : List Nat) (x : BPart) : Prop := SnVecB.Ok n 1 [x] ∧ x.irrep.lambda = a ∧ x.m = 1

/-- `x` moved by `t` times `u`. -/
def BPart.plus (x : BPart) (t : ℝ) (u : BPart) : BPart := { x with data := fun k i j => x.data k i j + t * u.data k i j }

/-- The two vectors of each pair are the same. -/
def Agree (L : List (SnVecB × SnVecB)) : Prop := ∀ pr ∈ L, SnVec.obs (SnVecB.member pr.1 0) = SnVec.obs (SnVecB.member pr.2 0)

/-- The product of the parts of the partitions `a` and `b` of `n` commutes with the permutation `s`, for all parts with one column. -/
def CGCommutes (eig : Eig) (n : Nat) (a b : List Nat) (s : Arr) : Prop :=
  ∀ P Q : VPart, SnVec.Ok n [P] → SnVec.Ok n [Q] → P.irrep.lambda = a → Q.irrep.lambda = b → P.m = 1 → Q.m = 1 →
    ∃ S R', (do let x' ← SnVec.apply [P] s; let y' ← SnVec.apply [Q] s; cgVec eig x' y') = some S ∧
      (do let R ← cgVec eig [P] [Q]; R.apply s) = some R' ∧ SnVec.obs S = SnVec.obs R'

end Snob
