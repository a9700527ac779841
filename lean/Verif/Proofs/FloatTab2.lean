import Verif.Proofs.FloatSmall

/-!
# All characters for `n=2` in floating point

The tables, the words of the classes and the values, and the sums of all coefficients.
-/

namespace Snob

open IP FEv

namespace Six

abbrev T2_0 : List Row :=
  [.one false]

/-- the tables -/
def tabs2 : Nat → List Row
  | 0 => T2_0
  | _ => []

/-- classes, words, values -/
abbrev L2 : List (List Nat × List Nat × Sg) :=
  [([2], [0], ⟨false, 1, 200⟩), ([1, 1], [], ⟨false, 1, 200⟩)]

theorem tables2 : Tables 2 [2] tabs2 where
  rows := by
    intro k hk
    have : k = 0 := by omega
    subst this; decide +kernel

theorem check2 : checkK (unitCols 1) (L2.map fun x => (x.2.1.map tabs2, x.2.2)) = true := by decide +kernel

theorem chars2 : Rounding.ieee.chars 2 [2] = some (L2.map fun x => x.2.2.val) :=
  chars_eval (n := 2) (p := [2]) (by norm_num) ⟨by simp, by simp, rfl⟩ tables2 (d := 1) (by decide +kernel) L2 (by decide +kernel) (by decide +kernel) check2

abbrev T11_0 : List Row :=
  [.one true]

/-- the tables -/
def tabs11 : Nat → List Row
  | 0 => T11_0
  | _ => []

/-- classes, words, values -/
abbrev L11 : List (List Nat × List Nat × Sg) :=
  [([2], [0], ⟨true, 1, 200⟩), ([1, 1], [], ⟨false, 1, 200⟩)]

theorem tables11 : Tables 2 [1, 1] tabs11 where
  rows := by
    intro k hk
    have : k = 0 := by omega
    subst this; decide +kernel

theorem check11 : checkK (unitCols 1) (L11.map fun x => (x.2.1.map tabs11, x.2.2)) = true := by decide +kernel

theorem chars11 : Rounding.ieee.chars 2 [1, 1] = some (L11.map fun x => x.2.2.val) :=
  chars_eval (n := 2) (p := [1, 1]) (by norm_num) ⟨by simp, by simp, rfl⟩ tables11 (d := 1) (by decide +kernel) L11 (by decide +kernel) (by decide +kernel) check11

/-- sizes of the classes -/
abbrev M2 : List Nat := [1, 1]

/-- the values of all characters -/
abbrev C2 : List (List Nat × List Sg) :=
  [([2], L2.map fun x => x.2.2), ([1, 1], L11.map fun x => x.2.2)]

theorem table2 : CharTable 2 M2 C2 where
  keys := by decide +kernel
  chars := by
    intro x hx
    simp only [C2, List.mem_cons, List.not_mem_nil, or_false] at hx
    rcases hx with rfl | rfl
    · exact chars2
    · exact chars11
  sizes := by decide +kernel
  small := by decide +kernel
  len := by
    intro x hx
    simp only [C2, List.mem_cons, List.not_mem_nil, or_false] at hx
    rcases hx with rfl | rfl <;> rfl

theorem ok2 : allOk 2 M2 C2 = true := by decide +kernel

end Six

end Snob
