import Verif.Proofs.FloatSmall

/-!
# All characters for `n=1` in floating point

The tables, the words of the classes and the values, and the sums of all coefficients.
-/

namespace Snob

open IP FEv

namespace Six

/-- the tables -/
def tabs1 : Nat → List Row
  | _ => []

/-- classes, words, values -/
abbrev L1 : List (List Nat × List Nat × Sg) :=
  [([1], [], ⟨false, 1, 200⟩)]

theorem tables1 : Tables 1 [1] tabs1 where
  rows := fun k hk => absurd hk (by omega)

theorem check1 : checkK (unitCols 1) (L1.map fun x => (x.2.1.map tabs1, x.2.2)) = true := by decide +kernel

theorem chars1 : Rounding.ieee.chars 1 [1] = some (L1.map fun x => x.2.2.val) :=
  chars_eval (n := 1) (p := [1]) (by norm_num) ⟨by simp, by simp, rfl⟩ tables1 (d := 1) (by decide +kernel) L1 (by decide +kernel) (by decide +kernel) check1

/-- sizes of the classes -/
abbrev M1 : List Nat := [1]

/-- the values of all characters -/
abbrev C1 : List (List Nat × List Sg) :=
  [([1], L1.map fun x => x.2.2)]

theorem table1 : CharTable 1 M1 C1 where
  keys := by decide +kernel
  chars := by
    intro x hx
    simp only [C1, List.mem_cons, List.not_mem_nil, or_false] at hx
    subst hx; exact chars1
  sizes := by decide +kernel
  small := by decide +kernel
  len := by
    intro x hx
    simp only [C1, List.mem_cons, List.not_mem_nil, or_false] at hx
    subst hx; rfl

theorem ok1 : allOk 1 M1 C1 = true := by decide +kernel

end Six

end Snob
