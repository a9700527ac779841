import Verif.Proofs.FloatSmall

/-!
# All characters for `n=4` in floating point

The tables, the words of the classes and the values, and the sums of all coefficients.
-/

namespace Snob

open IP FEv

namespace Six

abbrev T4_0 : List Row :=
  [.one false]

abbrev T4_1 : List Row :=
  [.one false]

abbrev T4_2 : List Row :=
  [.one false]

/-- the tables -/
def tabs4 : Nat → List Row
  | 0 => T4_0
  | 1 => T4_1
  | 2 => T4_2
  | _ => []

/-- classes, words, values -/
abbrev L4 : List (List Nat × List Nat × Sg) :=
  [([4], [2, 1, 0], ⟨false, 1, 200⟩), ([3, 1], [1, 0], ⟨false, 1, 200⟩), ([2, 2], [0, 2], ⟨false, 1, 200⟩), ([2, 1, 1], [0], ⟨false, 1, 200⟩),
   ([1, 1, 1, 1], [], ⟨false, 1, 200⟩)]

theorem tables4 : Tables 4 [4] tabs4 where
  rows := by
    intro k hk
    have : k = 0 ∨ k = 1 ∨ k = 2 := by omega
    rcases this with rfl | rfl | rfl <;> decide +kernel

theorem check4 : checkK (unitCols 1) (L4.map fun x => (x.2.1.map tabs4, x.2.2)) = true := by decide +kernel

theorem chars4 : Rounding.ieee.chars 4 [4] = some (L4.map fun x => x.2.2.val) :=
  chars_eval (n := 4) (p := [4]) (by norm_num) ⟨by simp, by simp, rfl⟩ tables4 (d := 1) (by decide +kernel) L4 (by decide +kernel) (by decide +kernel) check4

abbrev T31_0 : List Row :=
  [.one false, .one false, .one true]

abbrev T31_1 : List Row :=
  [.one false, .two 2 true 18014398509481984 31201853486215848, .two 1 false 18014398509481984 31201853486215848]

abbrev T31_2 : List Row :=
  [.two 1 true 12009599006321322 33968275586804120, .two 0 false 12009599006321322 33968275586804120, .one false]

/-- the tables -/
def tabs31 : Nat → List Row
  | 0 => T31_0
  | 1 => T31_1
  | 2 => T31_2
  | _ => []

/-- classes, words, values -/
abbrev L31 : List (List Nat × List Nat × Sg) :=
  [([4], [2, 1, 0], ⟨true, 1, 200⟩), ([3, 1], [1, 0], ⟨false, 0, 200⟩), ([2, 2], [0, 2], ⟨true, 1, 200⟩), ([2, 1, 1], [0], ⟨false, 1, 200⟩),
   ([1, 1, 1, 1], [], ⟨false, 3, 200⟩)]

theorem tables31 : Tables 4 [3, 1] tabs31 where
  rows := by
    intro k hk
    have : k = 0 ∨ k = 1 ∨ k = 2 := by omega
    rcases this with rfl | rfl | rfl <;> decide +kernel

theorem check31 : checkK (unitCols 3) (L31.map fun x => (x.2.1.map tabs31, x.2.2)) = true := by decide +kernel

theorem chars31 : Rounding.ieee.chars 4 [3, 1] = some (L31.map fun x => x.2.2.val) :=
  chars_eval (n := 4) (p := [3, 1]) (by norm_num) ⟨by simp, by simp, rfl⟩ tables31 (d := 3) (by decide +kernel) L31 (by decide +kernel) (by decide +kernel) check31

abbrev T22_0 : List Row :=
  [.one false, .one true]

abbrev T22_1 : List Row :=
  [.two 1 true 18014398509481984 31201853486215848, .two 0 false 18014398509481984 31201853486215848]

abbrev T22_2 : List Row :=
  [.one false, .one true]

/-- the tables -/
def tabs22 : Nat → List Row
  | 0 => T22_0
  | 1 => T22_1
  | 2 => T22_2
  | _ => []

/-- classes, words, values -/
abbrev L22 : List (List Nat × List Nat × Sg) :=
  [([4], [2, 1, 0], ⟨false, 0, 200⟩), ([3, 1], [1, 0], ⟨true, 1, 200⟩), ([2, 2], [0, 2], ⟨false, 1, 201⟩), ([2, 1, 1], [0], ⟨false, 0, 200⟩),
   ([1, 1, 1, 1], [], ⟨false, 1, 201⟩)]

theorem tables22 : Tables 4 [2, 2] tabs22 where
  rows := by
    intro k hk
    have : k = 0 ∨ k = 1 ∨ k = 2 := by omega
    rcases this with rfl | rfl | rfl <;> decide +kernel

theorem check22 : checkK (unitCols 2) (L22.map fun x => (x.2.1.map tabs22, x.2.2)) = true := by decide +kernel

theorem chars22 : Rounding.ieee.chars 4 [2, 2] = some (L22.map fun x => x.2.2.val) :=
  chars_eval (n := 4) (p := [2, 2]) (by norm_num) ⟨by simp, by simp, rfl⟩ tables22 (d := 2) (by decide +kernel) L22 (by decide +kernel) (by decide +kernel) check22

abbrev T211_0 : List Row :=
  [.one false, .one true, .one true]

abbrev T211_1 : List Row :=
  [.two 1 true 18014398509481984 31201853486215848, .two 0 false 18014398509481984 31201853486215848, .one true]

abbrev T211_2 : List Row :=
  [.one true, .two 2 true 12009599006321322 33968275586804120, .two 1 false 12009599006321322 33968275586804120]

/-- the tables -/
def tabs211 : Nat → List Row
  | 0 => T211_0
  | 1 => T211_1
  | 2 => T211_2
  | _ => []

/-- classes, words, values -/
abbrev L211 : List (List Nat × List Nat × Sg) :=
  [([4], [2, 1, 0], ⟨false, 1, 200⟩), ([3, 1], [1, 0], ⟨false, 0, 200⟩), ([2, 2], [0, 2], ⟨true, 1, 200⟩), ([2, 1, 1], [0], ⟨true, 1, 200⟩),
   ([1, 1, 1, 1], [], ⟨false, 3, 200⟩)]

theorem tables211 : Tables 4 [2, 1, 1] tabs211 where
  rows := by
    intro k hk
    have : k = 0 ∨ k = 1 ∨ k = 2 := by omega
    rcases this with rfl | rfl | rfl <;> decide +kernel

theorem check211 : checkK (unitCols 3) (L211.map fun x => (x.2.1.map tabs211, x.2.2)) = true := by decide +kernel

theorem chars211 : Rounding.ieee.chars 4 [2, 1, 1] = some (L211.map fun x => x.2.2.val) :=
  chars_eval (n := 4) (p := [2, 1, 1]) (by norm_num) ⟨by simp, by simp, rfl⟩ tables211 (d := 3) (by decide +kernel) L211 (by decide +kernel) (by decide +kernel) check211

abbrev T1111_0 : List Row :=
  [.one true]

abbrev T1111_1 : List Row :=
  [.one true]

abbrev T1111_2 : List Row :=
  [.one true]

/-- the tables -/
def tabs1111 : Nat → List Row
  | 0 => T1111_0
  | 1 => T1111_1
  | 2 => T1111_2
  | _ => []

/-- classes, words, values -/
abbrev L1111 : List (List Nat × List Nat × Sg) :=
  [([4], [2, 1, 0], ⟨true, 1, 200⟩), ([3, 1], [1, 0], ⟨false, 1, 200⟩), ([2, 2], [0, 2], ⟨false, 1, 200⟩), ([2, 1, 1], [0], ⟨true, 1, 200⟩),
   ([1, 1, 1, 1], [], ⟨false, 1, 200⟩)]

theorem tables1111 : Tables 4 [1, 1, 1, 1] tabs1111 where
  rows := by
    intro k hk
    have : k = 0 ∨ k = 1 ∨ k = 2 := by omega
    rcases this with rfl | rfl | rfl <;> decide +kernel

theorem check1111 : checkK (unitCols 1) (L1111.map fun x => (x.2.1.map tabs1111, x.2.2)) = true := by decide +kernel

theorem chars1111 : Rounding.ieee.chars 4 [1, 1, 1, 1] = some (L1111.map fun x => x.2.2.val) :=
  chars_eval (n := 4) (p := [1, 1, 1, 1]) (by norm_num) ⟨by simp, by simp, rfl⟩ tables1111 (d := 1) (by decide +kernel) L1111 (by decide +kernel) (by decide +kernel) check1111

/-- sizes of the classes -/
abbrev M4 : List Nat := [6, 8, 3, 6, 1]

/-- the values of all characters -/
abbrev C4 : List (List Nat × List Sg) :=
  [([4], L4.map fun x => x.2.2), ([3, 1], L31.map fun x => x.2.2), ([2, 2], L22.map fun x => x.2.2), ([2, 1, 1], L211.map fun x => x.2.2),
   ([1, 1, 1, 1], L1111.map fun x => x.2.2)]

theorem table4 : CharTable 4 M4 C4 where
  keys := by decide +kernel
  chars := by
    intro x hx
    simp only [C4, List.mem_cons, List.not_mem_nil, or_false] at hx
    rcases hx with rfl | rfl | rfl | rfl | rfl
    · exact chars4
    · exact chars31
    · exact chars22
    · exact chars211
    · exact chars1111
  sizes := by decide +kernel
  small := by decide +kernel
  len := by
    intro x hx
    simp only [C4, List.mem_cons, List.not_mem_nil, or_false] at hx
    rcases hx with rfl | rfl | rfl | rfl | rfl <;> rfl

theorem ok4 : allOk 24 M4 C4 = true := by decide +kernel

end Six

end Snob
