import Verif.Model.FloatVec
import Verif.Spec.SnVec
import Verif.Spec.Perm

/-! # What the properties of the vectors in floating point say -/

namespace Snob

/-- one call that acts on a vector -/
inductive ActCall where
  /-- `apply(sigma)` -/
  | perm (sigma : Arr)
  /-- `apply(ContiguousCycle(a,b))` -/
  | cycle (a b : Int)
  /-- `apply_inplace_inv(ContiguousCycle(a,b))` -/
  | cycleInv (a b : Int)
  /-- `apply(Transposition(a,b))` -/
  | swap (a b : Int)

namespace ActCall

/-- what the call does to a vector in floating point -/
noncomputable def exec (F : Rounding) : ActCall → SnVec → Option SnVec
  | perm s, v => F.vecApply v s
  | cycle a b, v => F.vecCycle v a b
  | cycleInv a b, v => F.vecCycleInv v a b
  | swap a b, v => F.vecTransposition v a b

/-- the call stands for the permutation `σ`, by the functions that make an element of the group -/
def Means (n : Nat) : ActCall → Equiv.Perm (Fin n) → Prop
  | perm s, σ => s = enc σ
  | cycle a b, σ => (1 ≤ a ∧ a ≤ n) ∧ (1 ≤ b ∧ b ≤ n) ∧ Perm.contiguousCycle n a b = some (enc σ)
  | cycleInv a b, σ => 1 ≤ a ∧ a ≤ b ∧ b ≤ n ∧ ∃ s, Perm.contiguousCycle n a b = some s ∧ Perm.inverse s = some (enc σ)
  | swap a b, σ => (1 ≤ a ∧ a ≤ n) ∧ (1 ≤ b ∧ b ≤ n) ∧ Perm.transposition n a b = some (enc σ)

/-- the number of adjacent transpositions -/
def cost (n : Nat) : ActCall → Nat
  | perm _ => n * (n - 1) / 2
  | cycle a b => (b - a).natAbs
  | cycleInv a b => (b - a).natAbs
  | swap a b => 2 * (b - a).natAbs - 1

/-- one call after the other -/
noncomputable def run (F : Rounding) : List ActCall → SnVec → Option SnVec
  | [], v => some v
  | c :: cs, v => (c.exec F v).bind (run F cs)

end ActCall

/-- the vector `v'` has the entries of `v`, and its parts point to the irreps computed in floating point -/
def SameEntries (F : Rounding) : SnVec → SnVec → Prop :=
  List.Forall₂ fun P P' => F.mkIrrep P.irrep.lambda = some P'.irrep ∧ P'.d = P.d ∧ P'.m = P.m ∧ P'.data = P.data

/-- the parts of `w` and `w'` correspond, and the Euclidean distance of each two corresponding columns is at most `ε` times the length of
that column of `v` -/
def WithinOf (ε : ℝ) (v w w' : SnVec) : Prop :=
  w.length = v.length ∧ w'.length = v.length ∧ ∀ (k : Nat) (P Q Q' : VPart), v[k]? = some P → w[k]? = some Q → w'[k]? = some Q' →
    Q'.irrep.lambda = Q.irrep.lambda ∧ (Q'.d = Q.d ∧ Q.d = P.d) ∧ (Q'.m = Q.m ∧ Q.m = P.m) ∧ ∀ c < P.m,
      √(∑ i ∈ Finset.range P.d, (Q'.data i c - Q.data i c) ^ 2) ≤ ε * √(∑ i ∈ Finset.range P.d, P.data i c ^ 2)

end Snob
