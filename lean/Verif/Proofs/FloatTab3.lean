import Verif.Proofs.FloatSmall

/-!
# All characters for `n=3` in floating point

The tables, the words of the classes and the values, and the sums of all coefficients.
-/

namespace Snob

open IP FEv

namespace Six

abbrev T3_0 : List Row :=
  [.one false]

abbrev T3_1 : List Row :=
  [.one false]

/-- the tables -/
def tabs3 : Nat → List Row
  | 0 => T3_0
  | 1 => T3_1
  | _ => []

/-- classes, words, values -/
abbrev L3 : List (List Nat × List Nat × Sg) :=
  [([3], [1, 0], ⟨false, 1, 200⟩), ([2, 1], [0], ⟨false, 1, 200⟩), ([1, 1, 1], [], ⟨false, 1, 200⟩)]

theorem tables3 : Tables 3 [3] tabs3 where
  rows := by
    intro k hk
    have : k = 0 ∨ k = 1 := by omega
    rcases this with rfl | rfl <;> decide +kernel

theorem check3 : checkK (unitCols 1) (L3.map fun x => (x.2.1.map tabs3, x.2.2)) = true := by decide +kernel

theorem chars3 : Rounding.ieee.chars 3 [3] = some (L3.map fun x => x.2.2.val) :=
  chars_eval (n := 3) (p := [3]) (by norm_num) ⟨by simp, by simp, rfl⟩ tables3 (d := 1) (by decide +kernel) L3 (by decide +kernel) (by decide +kernel) check3

abbrev T21_0 : List Row :=
  [.one false, .one true]

abbrev T21_1 : List Row :=
  [.two 1 true 18014398509481984 31201853486215848, .two 0 false 18014398509481984 31201853486215848]

/-- the tables -/
def tabs21 : Nat → List Row
  | 0 => T21_0
  | 1 => T21_1
  | _ => []

/-- classes, words, values -/
abbrev L21 : List (List Nat × List Nat × Sg) :=
  [([3], [1, 0], ⟨true, 1, 200⟩), ([2, 1], [0], ⟨false, 0, 200⟩), ([1, 1, 1], [], ⟨false, 1, 201⟩)]

theorem tables21 : Tables 3 [2, 1] tabs21 where
  rows := by
    intro k hk
    have : k = 0 ∨ k = 1 := by omega
    rcases this with rfl | rfl <;> decide +kernel

theorem check21 : checkK (unitCols 2) (L21.map fun x => (x.2.1.map tabs21, x.2.2)) = true := by decide +kernel

theorem chars21 : Rounding.ieee.chars 3 [2, 1] = some (L21.map fun x => x.2.2.val) :=
  chars_eval (n := 3) (p := [2, 1]) (by norm_num) ⟨by simp, by simp, rfl⟩ tables21 (d := 2) (by decide +kernel) L21 (by decide +kernel) (by decide +kernel) check21

abbrev T111_0 : List Row :=
  [.one true]

abbrev T111_1 : List Row :=
  [.one true]

/-- the tables -/
def tabs111 : Nat → List Row
  | 0 => T111_0
  | 1 => T111_1
  | _ => []

/-- classes, words, values -/
abbrev L111 : List (List Nat × List Nat × Sg) :=
  [([3], [1, 0], ⟨false, 1, 200⟩), ([2, 1], [0], ⟨true, 1, 200⟩), ([1, 1, 1], [], ⟨false, 1, 200⟩)]

theorem tables111 : Tables 3 [1, 1, 1] tabs111 where
  rows := by
    intro k hk
    have : k = 0 ∨ k = 1 := by omega
    rcases this with rfl | rfl <;> decide +kernel

theorem check111 : checkK (unitCols 1) (L111.map fun x => (x.2.1.map tabs111, x.2.2)) = true := by decide +kernel

theorem chars111 : Rounding.ieee.chars 3 [1, 1, 1] = some (L111.map fun x => x.2.2.val) :=
  chars_eval (n := 3) (p := [1, 1, 1]) (by norm_num) ⟨by simp, by simp, rfl⟩ tables111 (d := 1) (by decide +kernel) L111 (by decide +kernel) (by decide +kernel) check111

/-- sizes of the classes -/
abbrev M3 : List Nat := [2, 3, 1]

/-- the values of all characters -/
abbrev C3 : List (List Nat × List Sg) :=
  [([3], L3.map fun x => x.2.2), ([2, 1], L21.map fun x => x.2.2), ([1, 1, 1], L111.map fun x => x.2.2)]

theorem table3 : CharTable 3 M3 C3 where
  keys := by decide +kernel
  chars := by
    intro x hx
    simp only [C3, List.mem_cons, List.not_mem_nil, or_false] at hx
    rcases hx with rfl | rfl | rfl
    · exact chars3
    · exact chars21
    · exact chars111
  sizes := by decide +kernel
  small := by decide +kernel
  len := by
    intro x hx
    simp only [C3, List.mem_cons, List.not_mem_nil, or_false] at hx
    rcases hx with rfl | rfl | rfl <;> rfl

theorem ok3 : allOk 6 M3 C3 = true := by decide +kernel

end Six

end Snob
