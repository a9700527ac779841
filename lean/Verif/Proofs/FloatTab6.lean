import Verif.Proofs.FloatSmall

/-!
# All characters for `n=6` in floating point

The tables, the words of the classes and the values, and the sums of all coefficients.
-/

namespace Snob

open IP FEv

namespace Six

abbrev T6_0 : List Row :=
  [.one false]

abbrev T6_1 : List Row :=
  [.one false]

abbrev T6_2 : List Row :=
  [.one false]

abbrev T6_3 : List Row :=
  [.one false]

abbrev T6_4 : List Row :=
  [.one false]

/-- the tables -/
def tabs6 : Nat → List Row
  | 0 => T6_0
  | 1 => T6_1
  | 2 => T6_2
  | 3 => T6_3
  | 4 => T6_4
  | _ => []

/-- classes, words, values -/
abbrev L6 : List (List Nat × List Nat × Sg) :=
  [([6], [4, 3, 2, 1, 0], ⟨false, 1, 200⟩), ([5, 1], [3, 2, 1, 0], ⟨false, 1, 200⟩), ([4, 2], [2, 1, 0, 4], ⟨false, 1, 200⟩),
   ([4, 1, 1], [2, 1, 0], ⟨false, 1, 200⟩), ([3, 3], [1, 0, 4, 3], ⟨false, 1, 200⟩), ([3, 2, 1], [1, 0, 3], ⟨false, 1, 200⟩),
   ([3, 1, 1, 1], [1, 0], ⟨false, 1, 200⟩), ([2, 2, 2], [0, 2, 4], ⟨false, 1, 200⟩), ([2, 2, 1, 1], [0, 2], ⟨false, 1, 200⟩),
   ([2, 1, 1, 1, 1], [0], ⟨false, 1, 200⟩), ([1, 1, 1, 1, 1, 1], [], ⟨false, 1, 200⟩)]

theorem tables6 : Tables 6 [6] tabs6 where
  rows := by
    intro k hk
    have : k = 0 ∨ k = 1 ∨ k = 2 ∨ k = 3 ∨ k = 4 := by omega
    rcases this with rfl | rfl | rfl | rfl | rfl <;> decide +kernel

theorem check6 : checkK (unitCols 1) (L6.map fun x => (x.2.1.map tabs6, x.2.2)) = true := by decide +kernel

theorem chars6 : Rounding.ieee.chars 6 [6] = some (L6.map fun x => x.2.2.val) :=
  chars_eval (n := 6) (p := [6]) (by norm_num) ⟨by simp, by simp, rfl⟩ tables6 (d := 1) (by decide +kernel) L6 (by decide +kernel) (by decide +kernel) check6

abbrev T51_0 : List Row :=
  [.one false, .one false, .one false, .one false, .one true]

abbrev T51_1 : List Row :=
  [.one false, .one false, .one false, .two 4 true 18014398509481984 31201853486215848, .two 3 false 18014398509481984 31201853486215848]

abbrev T51_2 : List Row :=
  [.one false, .one false, .two 3 true 12009599006321322 33968275586804120, .two 2 false 12009599006321322 33968275586804120, .one false]

abbrev T51_3 : List Row :=
  [.one false, .two 2 true 9007199254740992 34884732709583720, .two 1 false 9007199254740992 34884732709583720, .one false, .one false]

abbrev T51_4 : List Row :=
  [.two 1 true 7205759403792794 35300867497107752, .two 0 false 7205759403792794 35300867497107752, .one false, .one false, .one false]

/-- the tables -/
def tabs51 : Nat → List Row
  | 0 => T51_0
  | 1 => T51_1
  | 2 => T51_2
  | 3 => T51_3
  | 4 => T51_4
  | _ => []

/-- classes, words, values -/
abbrev L51 : List (List Nat × List Nat × Sg) :=
  [([6], [4, 3, 2, 1, 0], ⟨true, 1, 200⟩), ([5, 1], [3, 2, 1, 0], ⟨false, 0, 200⟩), ([4, 2], [2, 1, 0, 4], ⟨true, 1, 200⟩),
   ([4, 1, 1], [2, 1, 0], ⟨false, 1, 200⟩), ([3, 3], [1, 0, 4, 3], ⟨true, 1, 200⟩), ([3, 2, 1], [1, 0, 3], ⟨false, 0, 200⟩),
   ([3, 1, 1, 1], [1, 0], ⟨false, 1, 201⟩), ([2, 2, 2], [0, 2, 4], ⟨true, 1, 200⟩), ([2, 2, 1, 1], [0, 2], ⟨false, 1, 200⟩),
   ([2, 1, 1, 1, 1], [0], ⟨false, 3, 200⟩), ([1, 1, 1, 1, 1, 1], [], ⟨false, 5, 200⟩)]

theorem tables51 : Tables 6 [5, 1] tabs51 where
  rows := by
    intro k hk
    have : k = 0 ∨ k = 1 ∨ k = 2 ∨ k = 3 ∨ k = 4 := by omega
    rcases this with rfl | rfl | rfl | rfl | rfl <;> decide +kernel

theorem check51 : checkK (unitCols 5) (L51.map fun x => (x.2.1.map tabs51, x.2.2)) = true := by decide +kernel

theorem chars51 : Rounding.ieee.chars 6 [5, 1] = some (L51.map fun x => x.2.2.val) :=
  chars_eval (n := 6) (p := [5, 1]) (by norm_num) ⟨by simp, by simp, rfl⟩ tables51 (d := 5) (by decide +kernel) L51 (by decide +kernel) (by decide +kernel) check51

abbrev T42_0 : List Row :=
  [.one false, .one false, .one false, .one true, .one false, .one false, .one true, .one false, .one true]

abbrev T42_1 : List Row :=
  [.one false, .one false, .two 3 true 18014398509481984 31201853486215848, .two 2 false 18014398509481984 31201853486215848, .one false,
   .two 6 true 18014398509481984 31201853486215848, .two 5 false 18014398509481984 31201853486215848, .two 8 true 18014398509481984 31201853486215848,
   .two 7 false 18014398509481984 31201853486215848]

abbrev T42_2 : List Row :=
  [.one false, .two 2 true 12009599006321322 33968275586804120, .two 1 false 12009599006321322 33968275586804120, .one false,
   .two 5 true 12009599006321322 33968275586804120, .two 4 false 12009599006321322 33968275586804120, .one false, .one false, .one true]

abbrev T42_3 : List Row :=
  [.two 1 true 9007199254740992 34884732709583720, .two 0 false 9007199254740992 34884732709583720, .one false, .one false, .one false,
   .two 7 true 18014398509481984 31201853486215848, .two 8 true 18014398509481984 31201853486215848, .two 5 false 18014398509481984 31201853486215848,
   .two 6 false 18014398509481984 31201853486215848]

abbrev T42_4 : List Row :=
  [.one false, .two 4 true 12009599006321322 33968275586804120, .two 5 true 12009599006321322 33968275586804120,
   .two 6 true 12009599006321322 33968275586804120, .two 1 false 12009599006321322 33968275586804120, .two 2 false 12009599006321322 33968275586804120,
   .two 3 false 12009599006321322 33968275586804120, .one false, .one false]

/-- the tables -/
def tabs42 : Nat → List Row
  | 0 => T42_0
  | 1 => T42_1
  | 2 => T42_2
  | 3 => T42_3
  | 4 => T42_4
  | _ => []

/-- classes, words, values -/
abbrev L42 : List (List Nat × List Nat × Sg) :=
  [([6], [4, 3, 2, 1, 0], ⟨false, 0, 200⟩), ([5, 1], [3, 2, 1, 0], ⟨true, 1, 200⟩), ([4, 2], [2, 1, 0, 4], ⟨false, 16777215, 176⟩),
   ([4, 1, 1], [2, 1, 0], ⟨true, 1, 200⟩), ([3, 3], [1, 0, 4, 3], ⟨false, 0, 200⟩), ([3, 2, 1], [1, 0, 3], ⟨false, 0, 200⟩),
   ([3, 1, 1, 1], [1, 0], ⟨false, 0, 200⟩), ([2, 2, 2], [0, 2, 4], ⟨false, 3, 200⟩), ([2, 2, 1, 1], [0, 2], ⟨false, 1, 200⟩),
   ([2, 1, 1, 1, 1], [0], ⟨false, 3, 200⟩), ([1, 1, 1, 1, 1, 1], [], ⟨false, 9, 200⟩)]

theorem tables42 : Tables 6 [4, 2] tabs42 where
  rows := by
    intro k hk
    have : k = 0 ∨ k = 1 ∨ k = 2 ∨ k = 3 ∨ k = 4 := by omega
    rcases this with rfl | rfl | rfl | rfl | rfl <;> decide +kernel

theorem check42 : checkK (unitCols 9) (L42.map fun x => (x.2.1.map tabs42, x.2.2)) = true := by decide +kernel

theorem chars42 : Rounding.ieee.chars 6 [4, 2] = some (L42.map fun x => x.2.2.val) :=
  chars_eval (n := 6) (p := [4, 2]) (by norm_num) ⟨by simp, by simp, rfl⟩ tables42 (d := 9) (by decide +kernel) L42 (by decide +kernel) (by decide +kernel) check42

abbrev T411_0 : List Row :=
  [.one false, .one false, .one false, .one true, .one false, .one false, .one true, .one false, .one true, .one true]

abbrev T411_1 : List Row :=
  [.one false, .one false, .two 3 true 18014398509481984 31201853486215848, .two 2 false 18014398509481984 31201853486215848, .one false,
   .two 6 true 18014398509481984 31201853486215848, .two 5 false 18014398509481984 31201853486215848, .two 8 true 18014398509481984 31201853486215848,
   .two 7 false 18014398509481984 31201853486215848, .one true]

abbrev T411_2 : List Row :=
  [.one false, .two 2 true 12009599006321322 33968275586804120, .two 1 false 12009599006321322 33968275586804120, .one false,
   .two 5 true 12009599006321322 33968275586804120, .two 4 false 12009599006321322 33968275586804120, .one false, .one true,
   .two 9 true 12009599006321322 33968275586804120, .two 8 false 12009599006321322 33968275586804120]

abbrev T411_3 : List Row :=
  [.two 1 true 9007199254740992 34884732709583720, .two 0 false 9007199254740992 34884732709583720, .one false, .one false, .one true,
   .two 7 true 9007199254740992 34884732709583720, .two 8 true 9007199254740992 34884732709583720, .two 5 false 9007199254740992 34884732709583720,
   .two 6 false 9007199254740992 34884732709583720, .one false]

abbrev T411_4 : List Row :=
  [.one true, .two 4 true 7205759403792794 35300867497107752, .two 5 true 7205759403792794 35300867497107752,
   .two 6 true 7205759403792794 35300867497107752, .two 1 false 7205759403792794 35300867497107752, .two 2 false 7205759403792794 35300867497107752,
   .two 3 false 7205759403792794 35300867497107752, .one false, .one false, .one false]

/-- the tables -/
def tabs411 : Nat → List Row
  | 0 => T411_0
  | 1 => T411_1
  | 2 => T411_2
  | 3 => T411_3
  | 4 => T411_4
  | _ => []

/-- classes, words, values -/
abbrev L411 : List (List Nat × List Nat × Sg) :=
  [([6], [4, 3, 2, 1, 0], ⟨false, 1, 200⟩), ([5, 1], [3, 2, 1, 0], ⟨false, 1, 176⟩), ([4, 2], [2, 1, 0, 4], ⟨false, 1, 175⟩),
   ([4, 1, 1], [2, 1, 0], ⟨false, 1, 175⟩), ([3, 3], [1, 0, 4, 3], ⟨false, 1, 200⟩), ([3, 2, 1], [1, 0, 3], ⟨true, 1, 200⟩),
   ([3, 1, 1, 1], [1, 0], ⟨false, 1, 200⟩), ([2, 2, 2], [0, 2, 4], ⟨true, 1, 201⟩), ([2, 2, 1, 1], [0, 2], ⟨true, 1, 201⟩),
   ([2, 1, 1, 1, 1], [0], ⟨false, 1, 201⟩), ([1, 1, 1, 1, 1, 1], [], ⟨false, 5, 201⟩)]

theorem tables411 : Tables 6 [4, 1, 1] tabs411 where
  rows := by
    intro k hk
    have : k = 0 ∨ k = 1 ∨ k = 2 ∨ k = 3 ∨ k = 4 := by omega
    rcases this with rfl | rfl | rfl | rfl | rfl <;> decide +kernel

theorem check411 : checkK (unitCols 10) (L411.map fun x => (x.2.1.map tabs411, x.2.2)) = true := by decide +kernel

theorem chars411 : Rounding.ieee.chars 6 [4, 1, 1] = some (L411.map fun x => x.2.2.val) :=
  chars_eval (n := 6) (p := [4, 1, 1]) (by norm_num) ⟨by simp, by simp, rfl⟩ tables411 (d := 10) (by decide +kernel) L411 (by decide +kernel) (by decide +kernel) check411

abbrev T33_0 : List Row :=
  [.one false, .one false, .one true, .one false, .one true]

abbrev T33_1 : List Row :=
  [.one false, .two 2 true 18014398509481984 31201853486215848, .two 1 false 18014398509481984 31201853486215848,
   .two 4 true 18014398509481984 31201853486215848, .two 3 false 18014398509481984 31201853486215848]

abbrev T33_2 : List Row :=
  [.two 1 true 12009599006321322 33968275586804120, .two 0 false 12009599006321322 33968275586804120, .one false, .one false, .one true]

abbrev T33_3 : List Row :=
  [.one false, .two 3 true 18014398509481984 31201853486215848, .two 4 true 18014398509481984 31201853486215848,
   .two 1 false 18014398509481984 31201853486215848, .two 2 false 18014398509481984 31201853486215848]

abbrev T33_4 : List Row :=
  [.one false, .one false, .one false, .one true, .one true]

/-- the tables -/
def tabs33 : Nat → List Row
  | 0 => T33_0
  | 1 => T33_1
  | 2 => T33_2
  | 3 => T33_3
  | 4 => T33_4
  | _ => []

/-- classes, words, values -/
abbrev L33 : List (List Nat × List Nat × Sg) :=
  [([6], [4, 3, 2, 1, 0], ⟨false, 0, 200⟩), ([5, 1], [3, 2, 1, 0], ⟨false, 0, 200⟩), ([4, 2], [2, 1, 0, 4], ⟨true, 1, 200⟩),
   ([4, 1, 1], [2, 1, 0], ⟨true, 1, 200⟩), ([3, 3], [1, 0, 4, 3], ⟨false, 1, 201⟩), ([3, 2, 1], [1, 0, 3], ⟨false, 1, 200⟩),
   ([3, 1, 1, 1], [1, 0], ⟨true, 1, 200⟩), ([2, 2, 2], [0, 2, 4], ⟨true, 3, 200⟩), ([2, 2, 1, 1], [0, 2], ⟨false, 1, 200⟩),
   ([2, 1, 1, 1, 1], [0], ⟨false, 1, 200⟩), ([1, 1, 1, 1, 1, 1], [], ⟨false, 5, 200⟩)]

theorem tables33 : Tables 6 [3, 3] tabs33 where
  rows := by
    intro k hk
    have : k = 0 ∨ k = 1 ∨ k = 2 ∨ k = 3 ∨ k = 4 := by omega
    rcases this with rfl | rfl | rfl | rfl | rfl <;> decide +kernel

theorem check33 : checkK (unitCols 5) (L33.map fun x => (x.2.1.map tabs33, x.2.2)) = true := by decide +kernel

theorem chars33 : Rounding.ieee.chars 6 [3, 3] = some (L33.map fun x => x.2.2.val) :=
  chars_eval (n := 6) (p := [3, 3]) (by norm_num) ⟨by simp, by simp, rfl⟩ tables33 (d := 5) (by decide +kernel) L33 (by decide +kernel) (by decide +kernel) check33

abbrev T321_0 : List Row :=
  [.one false, .one false, .one true, .one false, .one true, .one false, .one false, .one true, .one false, .one true, .one true, .one false, .one true,
   .one false, .one true, .one true]

abbrev T321_1 : List Row :=
  [.one false, .two 2 true 18014398509481984 31201853486215848, .two 1 false 18014398509481984 31201853486215848,
   .two 4 true 18014398509481984 31201853486215848, .two 3 false 18014398509481984 31201853486215848, .one false,
   .two 7 true 18014398509481984 31201853486215848, .two 6 false 18014398509481984 31201853486215848, .two 9 true 18014398509481984 31201853486215848,
   .two 8 false 18014398509481984 31201853486215848, .one true, .two 12 true 18014398509481984 31201853486215848,
   .two 11 false 18014398509481984 31201853486215848, .two 14 true 18014398509481984 31201853486215848,
   .two 13 false 18014398509481984 31201853486215848, .one true]

abbrev T321_2 : List Row :=
  [.two 1 true 12009599006321322 33968275586804120, .two 0 false 12009599006321322 33968275586804120, .one false, .one false, .one true,
   .two 6 true 12009599006321322 33968275586804120, .two 5 false 12009599006321322 33968275586804120, .one false, .one true,
   .two 10 true 12009599006321322 33968275586804120, .two 9 false 12009599006321322 33968275586804120, .one false, .one true, .one true,
   .two 15 true 12009599006321322 33968275586804120, .two 14 false 12009599006321322 33968275586804120]

abbrev T321_3 : List Row :=
  [.one false, .two 3 true 18014398509481984 31201853486215848, .two 4 true 18014398509481984 31201853486215848,
   .two 1 false 18014398509481984 31201853486215848, .two 2 false 18014398509481984 31201853486215848, .one true,
   .two 8 true 9007199254740992 34884732709583720, .two 9 true 9007199254740992 34884732709583720, .two 6 false 9007199254740992 34884732709583720,
   .two 7 false 9007199254740992 34884732709583720, .one false, .two 13 true 18014398509481984 31201853486215848,
   .two 14 true 18014398509481984 31201853486215848, .two 11 false 18014398509481984 31201853486215848,
   .two 12 false 18014398509481984 31201853486215848, .one true]

abbrev T321_4 : List Row :=
  [.two 5 true 18014398509481984 31201853486215848, .two 6 true 18014398509481984 31201853486215848, .two 7 true 18014398509481984 31201853486215848,
   .two 11 true 9007199254740992 34884732709583720, .two 12 true 9007199254740992 34884732709583720, .two 0 false 18014398509481984 31201853486215848,
   .two 1 false 18014398509481984 31201853486215848, .two 2 false 18014398509481984 31201853486215848, .two 13 true 18014398509481984 31201853486215848,
   .two 14 true 18014398509481984 31201853486215848, .two 15 true 18014398509481984 31201853486215848, .two 3 false 9007199254740992 34884732709583720,
   .two 4 false 9007199254740992 34884732709583720, .two 8 false 18014398509481984 31201853486215848, .two 9 false 18014398509481984 31201853486215848,
   .two 10 false 18014398509481984 31201853486215848]

/-- the tables -/
def tabs321 : Nat → List Row
  | 0 => T321_0
  | 1 => T321_1
  | 2 => T321_2
  | 3 => T321_3
  | 4 => T321_4
  | _ => []

/-- classes, words, values -/
abbrev L321 : List (List Nat × List Nat × Sg) :=
  [([6], [4, 3, 2, 1, 0], ⟨false, 0, 200⟩), ([5, 1], [3, 2, 1, 0], ⟨false, 1, 200⟩), ([4, 2], [2, 1, 0, 4], ⟨true, 3, 174⟩),
   ([4, 1, 1], [2, 1, 0], ⟨false, 1, 175⟩), ([3, 3], [1, 0, 4, 3], ⟨true, 1, 201⟩), ([3, 2, 1], [1, 0, 3], ⟨false, 0, 200⟩),
   ([3, 1, 1, 1], [1, 0], ⟨true, 1, 201⟩), ([2, 2, 2], [0, 2, 4], ⟨false, 0, 200⟩), ([2, 2, 1, 1], [0, 2], ⟨false, 0, 200⟩),
   ([2, 1, 1, 1, 1], [0], ⟨false, 0, 200⟩), ([1, 1, 1, 1, 1, 1], [], ⟨false, 1, 204⟩)]

theorem tables321 : Tables 6 [3, 2, 1] tabs321 where
  rows := by
    intro k hk
    have : k = 0 ∨ k = 1 ∨ k = 2 ∨ k = 3 ∨ k = 4 := by omega
    rcases this with rfl | rfl | rfl | rfl | rfl <;> decide +kernel

theorem check321 : checkK (unitCols 16) (L321.map fun x => (x.2.1.map tabs321, x.2.2)) = true := by decide +kernel

theorem chars321 : Rounding.ieee.chars 6 [3, 2, 1] = some (L321.map fun x => x.2.2.val) :=
  chars_eval (n := 6) (p := [3, 2, 1]) (by norm_num) ⟨by simp, by simp, rfl⟩ tables321 (d := 16) (by decide +kernel) L321 (by decide +kernel) (by decide +kernel) check321

abbrev T3111_0 : List Row :=
  [.one false, .one false, .one true, .one false, .one true, .one true, .one false, .one true, .one true, .one true]

abbrev T3111_1 : List Row :=
  [.one false, .two 2 true 18014398509481984 31201853486215848, .two 1 false 18014398509481984 31201853486215848,
   .two 4 true 18014398509481984 31201853486215848, .two 3 false 18014398509481984 31201853486215848, .one true,
   .two 7 true 18014398509481984 31201853486215848, .two 6 false 18014398509481984 31201853486215848, .one true, .one true]

abbrev T3111_2 : List Row :=
  [.two 1 true 12009599006321322 33968275586804120, .two 0 false 12009599006321322 33968275586804120, .one false, .one true,
   .two 5 true 12009599006321322 33968275586804120, .two 4 false 12009599006321322 33968275586804120, .one true,
   .two 8 true 12009599006321322 33968275586804120, .two 7 false 12009599006321322 33968275586804120, .one true]

abbrev T3111_3 : List Row :=
  [.one true, .two 3 true 9007199254740992 34884732709583720, .two 4 true 9007199254740992 34884732709583720,
   .two 1 false 9007199254740992 34884732709583720, .two 2 false 9007199254740992 34884732709583720, .one false, .one true, .one true,
   .two 9 true 9007199254740992 34884732709583720, .two 8 false 9007199254740992 34884732709583720]

abbrev T3111_4 : List Row :=
  [.one true, .one true, .one true, .two 6 true 7205759403792794 35300867497107752, .two 7 true 7205759403792794 35300867497107752,
   .two 8 true 7205759403792794 35300867497107752, .two 3 false 7205759403792794 35300867497107752, .two 4 false 7205759403792794 35300867497107752,
   .two 5 false 7205759403792794 35300867497107752, .one false]

/-- the tables -/
def tabs3111 : Nat → List Row
  | 0 => T3111_0
  | 1 => T3111_1
  | 2 => T3111_2
  | 3 => T3111_3
  | 4 => T3111_4
  | _ => []

/-- classes, words, values -/
abbrev L3111 : List (List Nat × List Nat × Sg) :=
  [([6], [4, 3, 2, 1, 0], ⟨true, 1, 200⟩), ([5, 1], [3, 2, 1, 0], ⟨true, 1, 175⟩), ([4, 2], [2, 1, 0, 4], ⟨false, 0, 200⟩),
   ([4, 1, 1], [2, 1, 0], ⟨false, 0, 200⟩), ([3, 3], [1, 0, 4, 3], ⟨false, 1, 200⟩), ([3, 2, 1], [1, 0, 3], ⟨false, 1, 200⟩),
   ([3, 1, 1, 1], [1, 0], ⟨false, 1, 200⟩), ([2, 2, 2], [0, 2, 4], ⟨false, 1, 201⟩), ([2, 2, 1, 1], [0, 2], ⟨true, 1, 201⟩),
   ([2, 1, 1, 1, 1], [0], ⟨true, 1, 201⟩), ([1, 1, 1, 1, 1, 1], [], ⟨false, 5, 201⟩)]

theorem tables3111 : Tables 6 [3, 1, 1, 1] tabs3111 where
  rows := by
    intro k hk
    have : k = 0 ∨ k = 1 ∨ k = 2 ∨ k = 3 ∨ k = 4 := by omega
    rcases this with rfl | rfl | rfl | rfl | rfl <;> decide +kernel

theorem check3111 : checkK (unitCols 10) (L3111.map fun x => (x.2.1.map tabs3111, x.2.2)) = true := by decide +kernel

theorem chars3111 : Rounding.ieee.chars 6 [3, 1, 1, 1] = some (L3111.map fun x => x.2.2.val) :=
  chars_eval (n := 6) (p := [3, 1, 1, 1]) (by norm_num) ⟨by simp, by simp, rfl⟩ tables3111 (d := 10) (by decide +kernel) L3111 (by decide +kernel) (by decide +kernel) check3111

abbrev T222_0 : List Row :=
  [.one false, .one true, .one false, .one true, .one true]

abbrev T222_1 : List Row :=
  [.two 1 true 18014398509481984 31201853486215848, .two 0 false 18014398509481984 31201853486215848, .two 3 true 18014398509481984 31201853486215848,
   .two 2 false 18014398509481984 31201853486215848, .one true]

abbrev T222_2 : List Row :=
  [.one false, .one true, .one true, .two 4 true 12009599006321322 33968275586804120, .two 3 false 12009599006321322 33968275586804120]

abbrev T222_3 : List Row :=
  [.two 2 true 18014398509481984 31201853486215848, .two 3 true 18014398509481984 31201853486215848, .two 0 false 18014398509481984 31201853486215848,
   .two 1 false 18014398509481984 31201853486215848, .one true]

abbrev T222_4 : List Row :=
  [.one false, .one false, .one true, .one true, .one true]

/-- the tables -/
def tabs222 : Nat → List Row
  | 0 => T222_0
  | 1 => T222_1
  | 2 => T222_2
  | 3 => T222_3
  | 4 => T222_4
  | _ => []

/-- classes, words, values -/
abbrev L222 : List (List Nat × List Nat × Sg) :=
  [([6], [4, 3, 2, 1, 0], ⟨false, 0, 200⟩), ([5, 1], [3, 2, 1, 0], ⟨false, 0, 200⟩), ([4, 2], [2, 1, 0, 4], ⟨true, 1, 200⟩),
   ([4, 1, 1], [2, 1, 0], ⟨false, 1, 200⟩), ([3, 3], [1, 0, 4, 3], ⟨false, 1, 201⟩), ([3, 2, 1], [1, 0, 3], ⟨true, 1, 200⟩),
   ([3, 1, 1, 1], [1, 0], ⟨true, 1, 200⟩), ([2, 2, 2], [0, 2, 4], ⟨false, 3, 200⟩), ([2, 2, 1, 1], [0, 2], ⟨false, 1, 200⟩),
   ([2, 1, 1, 1, 1], [0], ⟨true, 1, 200⟩), ([1, 1, 1, 1, 1, 1], [], ⟨false, 5, 200⟩)]

theorem tables222 : Tables 6 [2, 2, 2] tabs222 where
  rows := by
    intro k hk
    have : k = 0 ∨ k = 1 ∨ k = 2 ∨ k = 3 ∨ k = 4 := by omega
    rcases this with rfl | rfl | rfl | rfl | rfl <;> decide +kernel

theorem check222 : checkK (unitCols 5) (L222.map fun x => (x.2.1.map tabs222, x.2.2)) = true := by decide +kernel

theorem chars222 : Rounding.ieee.chars 6 [2, 2, 2] = some (L222.map fun x => x.2.2.val) :=
  chars_eval (n := 6) (p := [2, 2, 2]) (by norm_num) ⟨by simp, by simp, rfl⟩ tables222 (d := 5) (by decide +kernel) L222 (by decide +kernel) (by decide +kernel) check222

abbrev T2211_0 : List Row :=
  [.one false, .one true, .one false, .one true, .one true, .one false, .one true, .one true, .one true]

abbrev T2211_1 : List Row :=
  [.two 1 true 18014398509481984 31201853486215848, .two 0 false 18014398509481984 31201853486215848, .two 3 true 18014398509481984 31201853486215848,
   .two 2 false 18014398509481984 31201853486215848, .one true, .two 6 true 18014398509481984 31201853486215848,
   .two 5 false 18014398509481984 31201853486215848, .one true, .one true]

abbrev T2211_2 : List Row :=
  [.one false, .one true, .one true, .two 4 true 12009599006321322 33968275586804120, .two 3 false 12009599006321322 33968275586804120, .one true,
   .two 7 true 12009599006321322 33968275586804120, .two 6 false 12009599006321322 33968275586804120, .one true]

abbrev T2211_3 : List Row :=
  [.two 2 true 18014398509481984 31201853486215848, .two 3 true 18014398509481984 31201853486215848, .two 0 false 18014398509481984 31201853486215848,
   .two 1 false 18014398509481984 31201853486215848, .one true, .one true, .one true, .two 8 true 9007199254740992 34884732709583720,
   .two 7 false 9007199254740992 34884732709583720]

abbrev T2211_4 : List Row :=
  [.one true, .one true, .two 5 true 12009599006321322 33968275586804120, .two 6 true 12009599006321322 33968275586804120,
   .two 7 true 12009599006321322 33968275586804120, .two 2 false 12009599006321322 33968275586804120, .two 3 false 12009599006321322 33968275586804120,
   .two 4 false 12009599006321322 33968275586804120, .one true]

/-- the tables -/
def tabs2211 : Nat → List Row
  | 0 => T2211_0
  | 1 => T2211_1
  | 2 => T2211_2
  | 3 => T2211_3
  | 4 => T2211_4
  | _ => []

/-- classes, words, values -/
abbrev L2211 : List (List Nat × List Nat × Sg) :=
  [([6], [4, 3, 2, 1, 0], ⟨false, 0, 200⟩), ([5, 1], [3, 2, 1, 0], ⟨true, 1, 200⟩), ([4, 2], [2, 1, 0, 4], ⟨false, 1, 200⟩),
   ([4, 1, 1], [2, 1, 0], ⟨false, 1, 200⟩), ([3, 3], [1, 0, 4, 3], ⟨false, 1, 175⟩), ([3, 2, 1], [1, 0, 3], ⟨false, 0, 200⟩),
   ([3, 1, 1, 1], [1, 0], ⟨false, 0, 200⟩), ([2, 2, 2], [0, 2, 4], ⟨true, 3, 200⟩), ([2, 2, 1, 1], [0, 2], ⟨false, 1, 200⟩),
   ([2, 1, 1, 1, 1], [0], ⟨true, 3, 200⟩), ([1, 1, 1, 1, 1, 1], [], ⟨false, 9, 200⟩)]

theorem tables2211 : Tables 6 [2, 2, 1, 1] tabs2211 where
  rows := by
    intro k hk
    have : k = 0 ∨ k = 1 ∨ k = 2 ∨ k = 3 ∨ k = 4 := by omega
    rcases this with rfl | rfl | rfl | rfl | rfl <;> decide +kernel

theorem check2211 : checkK (unitCols 9) (L2211.map fun x => (x.2.1.map tabs2211, x.2.2)) = true := by decide +kernel

theorem chars2211 : Rounding.ieee.chars 6 [2, 2, 1, 1] = some (L2211.map fun x => x.2.2.val) :=
  chars_eval (n := 6) (p := [2, 2, 1, 1]) (by norm_num) ⟨by simp, by simp, rfl⟩ tables2211 (d := 9) (by decide +kernel) L2211 (by decide +kernel) (by decide +kernel) check2211

abbrev T21111_0 : List Row :=
  [.one false, .one true, .one true, .one true, .one true]

abbrev T21111_1 : List Row :=
  [.two 1 true 18014398509481984 31201853486215848, .two 0 false 18014398509481984 31201853486215848, .one true, .one true, .one true]

abbrev T21111_2 : List Row :=
  [.one true, .two 2 true 12009599006321322 33968275586804120, .two 1 false 12009599006321322 33968275586804120, .one true, .one true]

abbrev T21111_3 : List Row :=
  [.one true, .one true, .two 3 true 9007199254740992 34884732709583720, .two 2 false 9007199254740992 34884732709583720, .one true]

abbrev T21111_4 : List Row :=
  [.one true, .one true, .one true, .two 4 true 7205759403792794 35300867497107752, .two 3 false 7205759403792794 35300867497107752]

/-- the tables -/
def tabs21111 : Nat → List Row
  | 0 => T21111_0
  | 1 => T21111_1
  | 2 => T21111_2
  | 3 => T21111_3
  | 4 => T21111_4
  | _ => []

/-- classes, words, values -/
abbrev L21111 : List (List Nat × List Nat × Sg) :=
  [([6], [4, 3, 2, 1, 0], ⟨false, 1, 200⟩), ([5, 1], [3, 2, 1, 0], ⟨false, 0, 200⟩), ([4, 2], [2, 1, 0, 4], ⟨true, 1, 200⟩),
   ([4, 1, 1], [2, 1, 0], ⟨true, 1, 200⟩), ([3, 3], [1, 0, 4, 3], ⟨true, 1, 200⟩), ([3, 2, 1], [1, 0, 3], ⟨false, 0, 200⟩),
   ([3, 1, 1, 1], [1, 0], ⟨false, 1, 201⟩), ([2, 2, 2], [0, 2, 4], ⟨false, 1, 200⟩), ([2, 2, 1, 1], [0, 2], ⟨false, 1, 200⟩),
   ([2, 1, 1, 1, 1], [0], ⟨true, 3, 200⟩), ([1, 1, 1, 1, 1, 1], [], ⟨false, 5, 200⟩)]

theorem tables21111 : Tables 6 [2, 1, 1, 1, 1] tabs21111 where
  rows := by
    intro k hk
    have : k = 0 ∨ k = 1 ∨ k = 2 ∨ k = 3 ∨ k = 4 := by omega
    rcases this with rfl | rfl | rfl | rfl | rfl <;> decide +kernel

theorem check21111 : checkK (unitCols 5) (L21111.map fun x => (x.2.1.map tabs21111, x.2.2)) = true := by decide +kernel

theorem chars21111 : Rounding.ieee.chars 6 [2, 1, 1, 1, 1] = some (L21111.map fun x => x.2.2.val) :=
  chars_eval (n := 6) (p := [2, 1, 1, 1, 1]) (by norm_num) ⟨by simp, by simp, rfl⟩ tables21111 (d := 5) (by decide +kernel) L21111 (by decide +kernel) (by decide +kernel) check21111

abbrev T111111_0 : List Row :=
  [.one true]

abbrev T111111_1 : List Row :=
  [.one true]

abbrev T111111_2 : List Row :=
  [.one true]

abbrev T111111_3 : List Row :=
  [.one true]

abbrev T111111_4 : List Row :=
  [.one true]

/-- the tables -/
def tabs111111 : Nat → List Row
  | 0 => T111111_0
  | 1 => T111111_1
  | 2 => T111111_2
  | 3 => T111111_3
  | 4 => T111111_4
  | _ => []

/-- classes, words, values -/
abbrev L111111 : List (List Nat × List Nat × Sg) :=
  [([6], [4, 3, 2, 1, 0], ⟨true, 1, 200⟩), ([5, 1], [3, 2, 1, 0], ⟨false, 1, 200⟩), ([4, 2], [2, 1, 0, 4], ⟨false, 1, 200⟩),
   ([4, 1, 1], [2, 1, 0], ⟨true, 1, 200⟩), ([3, 3], [1, 0, 4, 3], ⟨false, 1, 200⟩), ([3, 2, 1], [1, 0, 3], ⟨true, 1, 200⟩),
   ([3, 1, 1, 1], [1, 0], ⟨false, 1, 200⟩), ([2, 2, 2], [0, 2, 4], ⟨true, 1, 200⟩), ([2, 2, 1, 1], [0, 2], ⟨false, 1, 200⟩),
   ([2, 1, 1, 1, 1], [0], ⟨true, 1, 200⟩), ([1, 1, 1, 1, 1, 1], [], ⟨false, 1, 200⟩)]

theorem tables111111 : Tables 6 [1, 1, 1, 1, 1, 1] tabs111111 where
  rows := by
    intro k hk
    have : k = 0 ∨ k = 1 ∨ k = 2 ∨ k = 3 ∨ k = 4 := by omega
    rcases this with rfl | rfl | rfl | rfl | rfl <;> decide +kernel

theorem check111111 : checkK (unitCols 1) (L111111.map fun x => (x.2.1.map tabs111111, x.2.2)) = true := by decide +kernel

theorem chars111111 : Rounding.ieee.chars 6 [1, 1, 1, 1, 1, 1] = some (L111111.map fun x => x.2.2.val) :=
  chars_eval (n := 6) (p := [1, 1, 1, 1, 1, 1]) (by norm_num) ⟨by simp, by simp, rfl⟩ tables111111 (d := 1) (by decide +kernel) L111111 (by decide +kernel) (by decide +kernel) check111111

/-- sizes of the classes -/
abbrev M6 : List Nat := [120, 144, 90, 90, 40, 120, 40, 15, 45, 15, 1]

/-- the values of all characters -/
abbrev C6 : List (List Nat × List Sg) :=
  [([6], L6.map fun x => x.2.2), ([5, 1], L51.map fun x => x.2.2), ([4, 2], L42.map fun x => x.2.2), ([4, 1, 1], L411.map fun x => x.2.2),
   ([3, 3], L33.map fun x => x.2.2), ([3, 2, 1], L321.map fun x => x.2.2), ([3, 1, 1, 1], L3111.map fun x => x.2.2),
   ([2, 2, 2], L222.map fun x => x.2.2), ([2, 2, 1, 1], L2211.map fun x => x.2.2), ([2, 1, 1, 1, 1], L21111.map fun x => x.2.2),
   ([1, 1, 1, 1, 1, 1], L111111.map fun x => x.2.2)]

theorem table6 : CharTable 6 M6 C6 where
  keys := by decide +kernel
  chars := by
    intro x hx
    simp only [C6, List.mem_cons, List.not_mem_nil, or_false] at hx
    rcases hx with rfl | rfl | rfl | rfl | rfl | rfl | rfl | rfl | rfl | rfl | rfl
    · exact chars6
    · exact chars51
    · exact chars42
    · exact chars411
    · exact chars33
    · exact chars321
    · exact chars3111
    · exact chars222
    · exact chars2211
    · exact chars21111
    · exact chars111111
  sizes := by decide +kernel
  small := by decide +kernel
  len := by
    intro x hx
    simp only [C6, List.mem_cons, List.not_mem_nil, or_false] at hx
    rcases hx with rfl | rfl | rfl | rfl | rfl | rfl | rfl | rfl | rfl | rfl | rfl <;> rfl

theorem ok6 : allOk 720 M6 C6 = true := by decide +kernel

end Six

end Snob
