import Verif.Model.FFT
import Verif.Model.SnElements
import Verif.Spec.Tableau

/-!
What a Fourier transform of a function on `Sn` or on `Sn/Sm` is. A function is the sequence of its values; the
value at position `c` belongs to the group element (or coset representative) `x c`.
-/

namespace Snob

/-- The numbers `1..m` all lie in the first row. -/
def StartsWith (m : Nat) (T : List (List Nat)) : Prop := ∀ k, 1 ≤ k → k ≤ m → ∃ c, cell T 0 c = some k

open Classical in
/-- The positions of the tableaux of `L` that have `1..m` in the first row, in increasing order. -/
noncomputable def startCols (m : Nat) (L : List (List (List Nat))) : List Nat :=
  (List.range L.length).filter fun j => decide (∃ T, L[j]? = some T ∧ StartsWith m T)

/-- One part per shape, in this order, each with its irrep, with as many rows as the irrep has and with the columns
`sel`. -/
def HasShape (sel : IrrepObj → List Nat) (shapes : List (List Nat)) (ws : List VPart) : Prop :=
  ws.length = shapes.length ∧ ∀ (i : Nat) (p : List Nat) (W : VPart), shapes[i]? = some p → ws[i]? = some W →
    mkIrrep p = some W.irrep ∧ W.d = W.irrep.d ∧ W.m = (sel W.irrep).length

/-- The part at a shape with irrep `ρ` consists of the columns `sel` of the sum over the `K` values of
`f(c) ρ(x(c)⁻¹)`. -/
def IsTransform (K : Nat) (x : Nat → Option Arr) (f : Nat → ℝ) (sel : IrrepObj → List Nat) (ws : List VPart) : Prop :=
  ∀ W ∈ ws, ∃ ρ : Nat → Nat → Nat → ℝ,
    (∀ c < K, ∃ s t, x c = some s ∧ Perm.inverse s = some t ∧ W.irrep.eval t = some (ρ c)) ∧
    ∀ i < W.d, ∀ (k j : Nat), (sel W.irrep)[k]? = some j → W.data i k = ∑ c ∈ Finset.range K, f c * ρ c i j

/-- The same parts, compared inside their dimensions. -/
def SameVec (ws ws' : List VPart) : Prop :=
  ws.length = ws'.length ∧ ∀ (i : Nat) (W W' : VPart), ws[i]? = some W → ws'[i]? = some W' →
    W.irrep = W'.irrep ∧ W.d = W'.d ∧ W.m = W'.m ∧ ∀ a < W.d, ∀ b < W.m, W.data a b = W'.data a b

end Snob
