import Verif.Model.Lifetime
import Verif.Spec.Perm
import Verif.Spec.Partition

/-! # Histories of objects -/

namespace Snob.Lifetime

/-- The kinds of the objects destroyed in a history, in order, starting with objects `ks`; `none` if the history
destroys an object that does not exist. -/
def removed : List Op → List Kind → Option (List Kind)
  | [], _ => some []
  | .mk k :: h, ks => removed h (ks ++ [k])
  | .rm i :: h, ks => do
      let k ← ks[i]?
      let r ← removed h (ks.eraseIdx i)
      some (k :: r)

/-- No global pointer dangles. -/
def Lib.Good (l : Lib) : Prop :=
  l.combi ≠ .dangling ∧ l.snb ≠ .dangling ∧ l.snrep ≠ .dangling ∧ l.snfft ≠ .dangling ∧ l.snchar ≠ .dangling ∧ l.sncg ≠ .dangling

/-- All banks are alive. -/
def Lib.Ready (l : Lib) : Prop :=
  l.combi = .alive ∧ l.snb = .alive ∧ l.snrep = .alive ∧ l.snfft = .alive ∧ l.snchar = .alive ∧ l.sncg = .alive

instance (l : Lib) : Decidable l.Good := by unfold Lib.Good; infer_instance
instance (l : Lib) : Decidable l.Ready := by unfold Lib.Ready; infer_instance

/-- The calls a user may make of the irrep of a partition of `n`. -/
def Call.Valid (n : Nat) : Call → Prop
  | .index => True
  | .tau i => 1 ≤ i ∧ i < n
  | .sigma s => IsPerm n s
  | .cycle a b => 1 ≤ a ∧ a ≤ n ∧ 1 ≤ b ∧ b ≤ n
  | .transposition i j => 1 ≤ i ∧ i ≤ n ∧ 1 ≤ j ∧ j ≤ n
  | .character mu => IsPartition n mu
  | .jucysMurphy k => 1 ≤ k ∧ k ≤ n
  | .viewTau i => 1 ≤ i ∧ i < n

/-- The calls that act on a matrix by at least one adjacent transposition. -/
def Call.Acts (n : Nat) : Call → Prop
  | .index => False
  | .tau _ => True
  | .sigma s => ∃ σ : Equiv.Perm (Fin n), s = enc σ ∧ σ ≠ 1
  | .cycle a b => a ≠ b
  | .transposition i j => i ≠ j
  | .character mu => ∃ x ∈ mu, x ≠ 1
  | .jucysMurphy k => 2 ≤ k
  | .viewTau _ => False

end Snob.Lifetime
