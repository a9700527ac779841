import Verif.Proofs.FloatSmall

/-!
# All characters for `n=5` in floating point

The tables, the words of the classes and the values, and the sums of all coefficients.
-/

namespace Snob

open IP FEv

namespace Six

abbrev T5_0 : List Row :=
  [.one false]

abbrev T5_1 : List Row :=
  [.one false]

abbrev T5_2 : List Row :=
  [.one false]

abbrev T5_3 : List Row :=
  [.one false]

/-- the tables -/
def tabs5 : Nat → List Row
  | 0 => T5_0
  | 1 => T5_1
  | 2 => T5_2
  | 3 => T5_3
  | _ => []

/-- classes, words, values -/
abbrev L5 : List (List Nat × List Nat × Sg) :=
  [([5], [3, 2, 1, 0], ⟨false, 1, 200⟩), ([4, 1], [2, 1, 0], ⟨false, 1, 200⟩), ([3, 2], [1, 0, 3], ⟨false, 1, 200⟩),
   ([3, 1, 1], [1, 0], ⟨false, 1, 200⟩), ([2, 2, 1], [0, 2], ⟨false, 1, 200⟩), ([2, 1, 1, 1], [0], ⟨false, 1, 200⟩),
   ([1, 1, 1, 1, 1], [], ⟨false, 1, 200⟩)]

theorem tables5 : Tables 5 [5] tabs5 where
  rows := by
    intro k hk
    have : k = 0 ∨ k = 1 ∨ k = 2 ∨ k = 3 := by omega
    rcases this with rfl | rfl | rfl | rfl <;> decide +kernel

theorem check5 : checkK (unitCols 1) (L5.map fun x => (x.2.1.map tabs5, x.2.2)) = true := by decide +kernel

theorem chars5 : Rounding.ieee.chars 5 [5] = some (L5.map fun x => x.2.2.val) :=
  chars_eval (n := 5) (p := [5]) (by norm_num) ⟨by simp, by simp, rfl⟩ tables5 (d := 1) (by decide +kernel) L5 (by decide +kernel) (by decide +kernel) check5

abbrev T41_0 : List Row :=
  [.one false, .one false, .one false, .one true]

abbrev T41_1 : List Row :=
  [.one false, .one false, .two 3 true 18014398509481984 31201853486215848, .two 2 false 18014398509481984 31201853486215848]

abbrev T41_2 : List Row :=
  [.one false, .two 2 true 12009599006321322 33968275586804120, .two 1 false 12009599006321322 33968275586804120, .one false]

abbrev T41_3 : List Row :=
  [.two 1 true 9007199254740992 34884732709583720, .two 0 false 9007199254740992 34884732709583720, .one false, .one false]

/-- the tables -/
def tabs41 : Nat → List Row
  | 0 => T41_0
  | 1 => T41_1
  | 2 => T41_2
  | 3 => T41_3
  | _ => []

/-- classes, words, values -/
abbrev L41 : List (List Nat × List Nat × Sg) :=
  [([5], [3, 2, 1, 0], ⟨true, 1, 200⟩), ([4, 1], [2, 1, 0], ⟨true, 1, 176⟩), ([3, 2], [1, 0, 3], ⟨true, 1, 200⟩), ([3, 1, 1], [1, 0], ⟨false, 1, 200⟩),
   ([2, 2, 1], [0, 2], ⟨false, 0, 200⟩), ([2, 1, 1, 1], [0], ⟨false, 1, 201⟩), ([1, 1, 1, 1, 1], [], ⟨false, 1, 202⟩)]

theorem tables41 : Tables 5 [4, 1] tabs41 where
  rows := by
    intro k hk
    have : k = 0 ∨ k = 1 ∨ k = 2 ∨ k = 3 := by omega
    rcases this with rfl | rfl | rfl | rfl <;> decide +kernel

theorem check41 : checkK (unitCols 4) (L41.map fun x => (x.2.1.map tabs41, x.2.2)) = true := by decide +kernel

theorem chars41 : Rounding.ieee.chars 5 [4, 1] = some (L41.map fun x => x.2.2.val) :=
  chars_eval (n := 5) (p := [4, 1]) (by norm_num) ⟨by simp, by simp, rfl⟩ tables41 (d := 4) (by decide +kernel) L41 (by decide +kernel) (by decide +kernel) check41

abbrev T32_0 : List Row :=
  [.one false, .one false, .one true, .one false, .one true]

abbrev T32_1 : List Row :=
  [.one false, .two 2 true 18014398509481984 31201853486215848, .two 1 false 18014398509481984 31201853486215848,
   .two 4 true 18014398509481984 31201853486215848, .two 3 false 18014398509481984 31201853486215848]

abbrev T32_2 : List Row :=
  [.two 1 true 12009599006321322 33968275586804120, .two 0 false 12009599006321322 33968275586804120, .one false, .one false, .one true]

abbrev T32_3 : List Row :=
  [.one false, .two 3 true 18014398509481984 31201853486215848, .two 4 true 18014398509481984 31201853486215848,
   .two 1 false 18014398509481984 31201853486215848, .two 2 false 18014398509481984 31201853486215848]

/-- the tables -/
def tabs32 : Nat → List Row
  | 0 => T32_0
  | 1 => T32_1
  | 2 => T32_2
  | 3 => T32_3
  | _ => []

/-- classes, words, values -/
abbrev L32 : List (List Nat × List Nat × Sg) :=
  [([5], [3, 2, 1, 0], ⟨false, 0, 200⟩), ([4, 1], [2, 1, 0], ⟨true, 1, 200⟩), ([3, 2], [1, 0, 3], ⟨false, 1, 200⟩), ([3, 1, 1], [1, 0], ⟨true, 1, 200⟩),
   ([2, 2, 1], [0, 2], ⟨false, 1, 200⟩), ([2, 1, 1, 1], [0], ⟨false, 1, 200⟩), ([1, 1, 1, 1, 1], [], ⟨false, 5, 200⟩)]

theorem tables32 : Tables 5 [3, 2] tabs32 where
  rows := by
    intro k hk
    have : k = 0 ∨ k = 1 ∨ k = 2 ∨ k = 3 := by omega
    rcases this with rfl | rfl | rfl | rfl <;> decide +kernel

theorem check32 : checkK (unitCols 5) (L32.map fun x => (x.2.1.map tabs32, x.2.2)) = true := by decide +kernel

theorem chars32 : Rounding.ieee.chars 5 [3, 2] = some (L32.map fun x => x.2.2.val) :=
  chars_eval (n := 5) (p := [3, 2]) (by norm_num) ⟨by simp, by simp, rfl⟩ tables32 (d := 5) (by decide +kernel) L32 (by decide +kernel) (by decide +kernel) check32

abbrev T311_0 : List Row :=
  [.one false, .one false, .one true, .one false, .one true, .one true]

abbrev T311_1 : List Row :=
  [.one false, .two 2 true 18014398509481984 31201853486215848, .two 1 false 18014398509481984 31201853486215848,
   .two 4 true 18014398509481984 31201853486215848, .two 3 false 18014398509481984 31201853486215848, .one true]

abbrev T311_2 : List Row :=
  [.two 1 true 12009599006321322 33968275586804120, .two 0 false 12009599006321322 33968275586804120, .one false, .one true,
   .two 5 true 12009599006321322 33968275586804120, .two 4 false 12009599006321322 33968275586804120]

abbrev T311_3 : List Row :=
  [.one true, .two 3 true 9007199254740992 34884732709583720, .two 4 true 9007199254740992 34884732709583720,
   .two 1 false 9007199254740992 34884732709583720, .two 2 false 9007199254740992 34884732709583720, .one false]

/-- the tables -/
def tabs311 : Nat → List Row
  | 0 => T311_0
  | 1 => T311_1
  | 2 => T311_2
  | 3 => T311_3
  | _ => []

/-- classes, words, values -/
abbrev L311 : List (List Nat × List Nat × Sg) :=
  [([5], [3, 2, 1, 0], ⟨false, 1, 200⟩), ([4, 1], [2, 1, 0], ⟨false, 1, 175⟩), ([3, 2], [1, 0, 3], ⟨false, 0, 200⟩),
   ([3, 1, 1], [1, 0], ⟨false, 0, 200⟩), ([2, 2, 1], [0, 2], ⟨true, 1, 201⟩), ([2, 1, 1, 1], [0], ⟨false, 0, 200⟩),
   ([1, 1, 1, 1, 1], [], ⟨false, 3, 201⟩)]

theorem tables311 : Tables 5 [3, 1, 1] tabs311 where
  rows := by
    intro k hk
    have : k = 0 ∨ k = 1 ∨ k = 2 ∨ k = 3 := by omega
    rcases this with rfl | rfl | rfl | rfl <;> decide +kernel

theorem check311 : checkK (unitCols 6) (L311.map fun x => (x.2.1.map tabs311, x.2.2)) = true := by decide +kernel

theorem chars311 : Rounding.ieee.chars 5 [3, 1, 1] = some (L311.map fun x => x.2.2.val) :=
  chars_eval (n := 5) (p := [3, 1, 1]) (by norm_num) ⟨by simp, by simp, rfl⟩ tables311 (d := 6) (by decide +kernel) L311 (by decide +kernel) (by decide +kernel) check311

abbrev T221_0 : List Row :=
  [.one false, .one true, .one false, .one true, .one true]

abbrev T221_1 : List Row :=
  [.two 1 true 18014398509481984 31201853486215848, .two 0 false 18014398509481984 31201853486215848, .two 3 true 18014398509481984 31201853486215848,
   .two 2 false 18014398509481984 31201853486215848, .one true]

abbrev T221_2 : List Row :=
  [.one false, .one true, .one true, .two 4 true 12009599006321322 33968275586804120, .two 3 false 12009599006321322 33968275586804120]

abbrev T221_3 : List Row :=
  [.two 2 true 18014398509481984 31201853486215848, .two 3 true 18014398509481984 31201853486215848, .two 0 false 18014398509481984 31201853486215848,
   .two 1 false 18014398509481984 31201853486215848, .one true]

/-- the tables -/
def tabs221 : Nat → List Row
  | 0 => T221_0
  | 1 => T221_1
  | 2 => T221_2
  | 3 => T221_3
  | _ => []

/-- classes, words, values -/
abbrev L221 : List (List Nat × List Nat × Sg) :=
  [([5], [3, 2, 1, 0], ⟨false, 0, 200⟩), ([4, 1], [2, 1, 0], ⟨false, 1, 200⟩), ([3, 2], [1, 0, 3], ⟨true, 1, 200⟩), ([3, 1, 1], [1, 0], ⟨true, 1, 200⟩),
   ([2, 2, 1], [0, 2], ⟨false, 1, 200⟩), ([2, 1, 1, 1], [0], ⟨true, 1, 200⟩), ([1, 1, 1, 1, 1], [], ⟨false, 5, 200⟩)]

theorem tables221 : Tables 5 [2, 2, 1] tabs221 where
  rows := by
    intro k hk
    have : k = 0 ∨ k = 1 ∨ k = 2 ∨ k = 3 := by omega
    rcases this with rfl | rfl | rfl | rfl <;> decide +kernel

theorem check221 : checkK (unitCols 5) (L221.map fun x => (x.2.1.map tabs221, x.2.2)) = true := by decide +kernel

theorem chars221 : Rounding.ieee.chars 5 [2, 2, 1] = some (L221.map fun x => x.2.2.val) :=
  chars_eval (n := 5) (p := [2, 2, 1]) (by norm_num) ⟨by simp, by simp, rfl⟩ tables221 (d := 5) (by decide +kernel) L221 (by decide +kernel) (by decide +kernel) check221

abbrev T2111_0 : List Row :=
  [.one false, .one true, .one true, .one true]

abbrev T2111_1 : List Row :=
  [.two 1 true 18014398509481984 31201853486215848, .two 0 false 18014398509481984 31201853486215848, .one true, .one true]

abbrev T2111_2 : List Row :=
  [.one true, .two 2 true 12009599006321322 33968275586804120, .two 1 false 12009599006321322 33968275586804120, .one true]

abbrev T2111_3 : List Row :=
  [.one true, .one true, .two 3 true 9007199254740992 34884732709583720, .two 2 false 9007199254740992 34884732709583720]

/-- the tables -/
def tabs2111 : Nat → List Row
  | 0 => T2111_0
  | 1 => T2111_1
  | 2 => T2111_2
  | 3 => T2111_3
  | _ => []

/-- classes, words, values -/
abbrev L2111 : List (List Nat × List Nat × Sg) :=
  [([5], [3, 2, 1, 0], ⟨true, 1, 200⟩), ([4, 1], [2, 1, 0], ⟨false, 0, 200⟩), ([3, 2], [1, 0, 3], ⟨false, 1, 200⟩), ([3, 1, 1], [1, 0], ⟨false, 1, 200⟩),
   ([2, 2, 1], [0, 2], ⟨false, 0, 200⟩), ([2, 1, 1, 1], [0], ⟨true, 1, 201⟩), ([1, 1, 1, 1, 1], [], ⟨false, 1, 202⟩)]

theorem tables2111 : Tables 5 [2, 1, 1, 1] tabs2111 where
  rows := by
    intro k hk
    have : k = 0 ∨ k = 1 ∨ k = 2 ∨ k = 3 := by omega
    rcases this with rfl | rfl | rfl | rfl <;> decide +kernel

theorem check2111 : checkK (unitCols 4) (L2111.map fun x => (x.2.1.map tabs2111, x.2.2)) = true := by decide +kernel

theorem chars2111 : Rounding.ieee.chars 5 [2, 1, 1, 1] = some (L2111.map fun x => x.2.2.val) :=
  chars_eval (n := 5) (p := [2, 1, 1, 1]) (by norm_num) ⟨by simp, by simp, rfl⟩ tables2111 (d := 4) (by decide +kernel) L2111 (by decide +kernel) (by decide +kernel) check2111

abbrev T11111_0 : List Row :=
  [.one true]

abbrev T11111_1 : List Row :=
  [.one true]

abbrev T11111_2 : List Row :=
  [.one true]

abbrev T11111_3 : List Row :=
  [.one true]

/-- the tables -/
def tabs11111 : Nat → List Row
  | 0 => T11111_0
  | 1 => T11111_1
  | 2 => T11111_2
  | 3 => T11111_3
  | _ => []

/-- classes, words, values -/
abbrev L11111 : List (List Nat × List Nat × Sg) :=
  [([5], [3, 2, 1, 0], ⟨false, 1, 200⟩), ([4, 1], [2, 1, 0], ⟨true, 1, 200⟩), ([3, 2], [1, 0, 3], ⟨true, 1, 200⟩), ([3, 1, 1], [1, 0], ⟨false, 1, 200⟩),
   ([2, 2, 1], [0, 2], ⟨false, 1, 200⟩), ([2, 1, 1, 1], [0], ⟨true, 1, 200⟩), ([1, 1, 1, 1, 1], [], ⟨false, 1, 200⟩)]

theorem tables11111 : Tables 5 [1, 1, 1, 1, 1] tabs11111 where
  rows := by
    intro k hk
    have : k = 0 ∨ k = 1 ∨ k = 2 ∨ k = 3 := by omega
    rcases this with rfl | rfl | rfl | rfl <;> decide +kernel

theorem check11111 : checkK (unitCols 1) (L11111.map fun x => (x.2.1.map tabs11111, x.2.2)) = true := by decide +kernel

theorem chars11111 : Rounding.ieee.chars 5 [1, 1, 1, 1, 1] = some (L11111.map fun x => x.2.2.val) :=
  chars_eval (n := 5) (p := [1, 1, 1, 1, 1]) (by norm_num) ⟨by simp, by simp, rfl⟩ tables11111 (d := 1) (by decide +kernel) L11111 (by decide +kernel) (by decide +kernel) check11111

/-- sizes of the classes -/
abbrev M5 : List Nat := [24, 30, 20, 20, 15, 10, 1]

/-- the values of all characters -/
abbrev C5 : List (List Nat × List Sg) :=
  [([5], L5.map fun x => x.2.2), ([4, 1], L41.map fun x => x.2.2), ([3, 2], L32.map fun x => x.2.2), ([3, 1, 1], L311.map fun x => x.2.2),
   ([2, 2, 1], L221.map fun x => x.2.2), ([2, 1, 1, 1], L2111.map fun x => x.2.2), ([1, 1, 1, 1, 1], L11111.map fun x => x.2.2)]

theorem table5 : CharTable 5 M5 C5 where
  keys := by decide +kernel
  chars := by
    intro x hx
    simp only [C5, List.mem_cons, List.not_mem_nil, or_false] at hx
    rcases hx with rfl | rfl | rfl | rfl | rfl | rfl | rfl
    · exact chars5
    · exact chars41
    · exact chars32
    · exact chars311
    · exact chars221
    · exact chars2111
    · exact chars11111
  sizes := by decide +kernel
  small := by decide +kernel
  len := by
    intro x hx
    simp only [C5, List.mem_cons, List.not_mem_nil, or_false] at hx
    rcases hx with rfl | rfl | rfl | rfl | rfl | rfl | rfl <;> rfl

theorem ok5 : allOk 120 M5 C5 = true := by decide +kernel

end Six

end Snob
