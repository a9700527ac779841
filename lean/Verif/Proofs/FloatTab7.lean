import Verif.Proofs.FloatSmall

/-!
# Three characters for `n=7` in floating point

The tables, the words of the classes and the values, and the sums of two coefficients.
-/

namespace Snob

open IP FEv

namespace Six

abbrev T511_0 : List Row :=
  [.one false, .one false, .one false, .one false, .one true, .one false, .one false, .one false, .one true, .one false, .one false, .one true,
   .one false, .one true, .one true]

abbrev T511_1 : List Row :=
  [.one false, .one false, .one false, .two 4 true 18014398509481984 31201853486215848, .two 3 false 18014398509481984 31201853486215848, .one false,
   .one false, .two 8 true 18014398509481984 31201853486215848, .two 7 false 18014398509481984 31201853486215848, .one false,
   .two 11 true 18014398509481984 31201853486215848, .two 10 false 18014398509481984 31201853486215848, .two 13 true 18014398509481984 31201853486215848,
   .two 12 false 18014398509481984 31201853486215848, .one true]

abbrev T511_2 : List Row :=
  [.one false, .one false, .two 3 true 12009599006321322 33968275586804120, .two 2 false 12009599006321322 33968275586804120, .one false, .one false,
   .two 7 true 12009599006321322 33968275586804120, .two 6 false 12009599006321322 33968275586804120, .one false,
   .two 10 true 12009599006321322 33968275586804120, .two 9 false 12009599006321322 33968275586804120, .one false, .one true,
   .two 14 true 12009599006321322 33968275586804120, .two 13 false 12009599006321322 33968275586804120]

abbrev T511_3 : List Row :=
  [.one false, .two 2 true 9007199254740992 34884732709583720, .two 1 false 9007199254740992 34884732709583720, .one false, .one false,
   .two 6 true 9007199254740992 34884732709583720, .two 5 false 9007199254740992 34884732709583720, .one false, .one false, .one true,
   .two 12 true 9007199254740992 34884732709583720, .two 13 true 9007199254740992 34884732709583720, .two 10 false 9007199254740992 34884732709583720,
   .two 11 false 9007199254740992 34884732709583720, .one false]

abbrev T511_4 : List Row :=
  [.two 1 true 7205759403792794 35300867497107752, .two 0 false 7205759403792794 35300867497107752, .one false, .one false, .one false, .one true,
   .two 9 true 7205759403792794 35300867497107752, .two 10 true 7205759403792794 35300867497107752, .two 11 true 7205759403792794 35300867497107752,
   .two 6 false 7205759403792794 35300867497107752, .two 7 false 7205759403792794 35300867497107752, .two 8 false 7205759403792794 35300867497107752,
   .one false, .one false, .one false]

abbrev T511_5 : List Row :=
  [.one true, .two 5 true 6004799503160661 35524872942215408, .two 6 true 6004799503160661 35524872942215408,
   .two 7 true 6004799503160661 35524872942215408, .two 8 true 6004799503160661 35524872942215408, .two 1 false 6004799503160661 35524872942215408,
   .two 2 false 6004799503160661 35524872942215408, .two 3 false 6004799503160661 35524872942215408, .two 4 false 6004799503160661 35524872942215408,
   .one false, .one false, .one false, .one false, .one false, .one false]

/-- the tables -/
def tabs511 : Nat → List Row
  | 0 => T511_0
  | 1 => T511_1
  | 2 => T511_2
  | 3 => T511_3
  | 4 => T511_4
  | 5 => T511_5
  | _ => []

/-- classes, words, values -/
abbrev L511 : List (List Nat × List Nat × Sg) :=
  [([7], [5, 4, 3, 2, 1, 0], ⟨false, 8388609, 177⟩), ([6, 1], [4, 3, 2, 1, 0], ⟨false, 1, 175⟩), ([5, 2], [3, 2, 1, 0, 5], ⟨false, 1, 176⟩),
   ([5, 1, 1], [3, 2, 1, 0], ⟨false, 1, 176⟩), ([4, 3], [2, 1, 0, 5, 4], ⟨false, 1, 200⟩), ([4, 2, 1], [2, 1, 0, 4], ⟨true, 1, 200⟩),
   ([4, 1, 1, 1], [2, 1, 0], ⟨false, 1, 200⟩), ([3, 3, 1], [1, 0, 4, 3], ⟨false, 0, 200⟩), ([3, 2, 2], [1, 0, 3, 5], ⟨true, 1, 200⟩),
   ([3, 2, 1, 1], [1, 0, 3], ⟨true, 1, 200⟩), ([3, 1, 1, 1, 1], [1, 0], ⟨false, 3, 200⟩), ([2, 2, 2, 1], [0, 2, 4], ⟨true, 3, 200⟩),
   ([2, 2, 1, 1, 1], [0, 2], ⟨true, 1, 200⟩), ([2, 1, 1, 1, 1, 1], [0], ⟨false, 5, 200⟩), ([1, 1, 1, 1, 1, 1, 1], [], ⟨false, 15, 200⟩)]

theorem tables511 : Tables 7 [5, 1, 1] tabs511 where
  rows := by
    intro k hk
    have : k = 0 ∨ k = 1 ∨ k = 2 ∨ k = 3 ∨ k = 4 ∨ k = 5 := by omega
    rcases this with rfl | rfl | rfl | rfl | rfl | rfl <;> decide +kernel

theorem check511 : checkK (unitCols 15) (L511.map fun x => (x.2.1.map tabs511, x.2.2)) = true := by decide +kernel

theorem chars511 : Rounding.ieee.chars 7 [5, 1, 1] = some (L511.map fun x => x.2.2.val) :=
  chars_eval (n := 7) (p := [5, 1, 1]) (by norm_num) ⟨by simp, by simp, rfl⟩ tables511 (d := 15) (by decide +kernel) L511 (by decide +kernel) (by decide +kernel) check511

abbrev T322_0 : List Row :=
  [.one false, .one false, .one true, .one false, .one true, .one false, .one false, .one true, .one false, .one true, .one true, .one false, .one true,
   .one false, .one true, .one true, .one false, .one true, .one false, .one true, .one true]

abbrev T322_1 : List Row :=
  [.one false, .two 2 true 18014398509481984 31201853486215848, .two 1 false 18014398509481984 31201853486215848,
   .two 4 true 18014398509481984 31201853486215848, .two 3 false 18014398509481984 31201853486215848, .one false,
   .two 7 true 18014398509481984 31201853486215848, .two 6 false 18014398509481984 31201853486215848, .two 9 true 18014398509481984 31201853486215848,
   .two 8 false 18014398509481984 31201853486215848, .one true, .two 12 true 18014398509481984 31201853486215848,
   .two 11 false 18014398509481984 31201853486215848, .two 14 true 18014398509481984 31201853486215848,
   .two 13 false 18014398509481984 31201853486215848, .one true, .two 17 true 18014398509481984 31201853486215848,
   .two 16 false 18014398509481984 31201853486215848, .two 19 true 18014398509481984 31201853486215848,
   .two 18 false 18014398509481984 31201853486215848, .one true]

abbrev T322_2 : List Row :=
  [.two 1 true 12009599006321322 33968275586804120, .two 0 false 12009599006321322 33968275586804120, .one false, .one false, .one true,
   .two 6 true 12009599006321322 33968275586804120, .two 5 false 12009599006321322 33968275586804120, .one false, .one true,
   .two 10 true 12009599006321322 33968275586804120, .two 9 false 12009599006321322 33968275586804120, .one false, .one true, .one true,
   .two 15 true 12009599006321322 33968275586804120, .two 14 false 12009599006321322 33968275586804120, .one false, .one true, .one true,
   .two 20 true 12009599006321322 33968275586804120, .two 19 false 12009599006321322 33968275586804120]

abbrev T322_3 : List Row :=
  [.one false, .two 3 true 18014398509481984 31201853486215848, .two 4 true 18014398509481984 31201853486215848,
   .two 1 false 18014398509481984 31201853486215848, .two 2 false 18014398509481984 31201853486215848, .one true,
   .two 8 true 9007199254740992 34884732709583720, .two 9 true 9007199254740992 34884732709583720, .two 6 false 9007199254740992 34884732709583720,
   .two 7 false 9007199254740992 34884732709583720, .one false, .two 13 true 18014398509481984 31201853486215848,
   .two 14 true 18014398509481984 31201853486215848, .two 11 false 18014398509481984 31201853486215848,
   .two 12 false 18014398509481984 31201853486215848, .one true, .two 18 true 18014398509481984 31201853486215848,
   .two 19 true 18014398509481984 31201853486215848, .two 16 false 18014398509481984 31201853486215848,
   .two 17 false 18014398509481984 31201853486215848, .one true]

abbrev T322_4 : List Row :=
  [.two 5 true 18014398509481984 31201853486215848, .two 6 true 18014398509481984 31201853486215848, .two 7 true 18014398509481984 31201853486215848,
   .two 11 true 9007199254740992 34884732709583720, .two 12 true 9007199254740992 34884732709583720, .two 0 false 18014398509481984 31201853486215848,
   .two 1 false 18014398509481984 31201853486215848, .two 2 false 18014398509481984 31201853486215848, .two 13 true 18014398509481984 31201853486215848,
   .two 14 true 18014398509481984 31201853486215848, .two 15 true 18014398509481984 31201853486215848, .two 3 false 9007199254740992 34884732709583720,
   .two 4 false 9007199254740992 34884732709583720, .two 8 false 18014398509481984 31201853486215848, .two 9 false 18014398509481984 31201853486215848,
   .two 10 false 18014398509481984 31201853486215848, .one false, .one false, .one true, .one true, .one true]

abbrev T322_5 : List Row :=
  [.one false, .one false, .one false, .one false, .one false, .one true, .one true, .one true, .one true, .one true, .one true,
   .two 16 true 12009599006321322 33968275586804120, .two 17 true 12009599006321322 33968275586804120, .two 18 true 12009599006321322 33968275586804120,
   .two 19 true 12009599006321322 33968275586804120, .two 20 true 12009599006321322 33968275586804120, .two 11 false 12009599006321322 33968275586804120,
   .two 12 false 12009599006321322 33968275586804120, .two 13 false 12009599006321322 33968275586804120,
   .two 14 false 12009599006321322 33968275586804120, .two 15 false 12009599006321322 33968275586804120]

/-- the tables -/
def tabs322 : Nat → List Row
  | 0 => T322_0
  | 1 => T322_1
  | 2 => T322_2
  | 3 => T322_3
  | 4 => T322_4
  | 5 => T322_5
  | _ => []

/-- classes, words, values -/
abbrev L322 : List (List Nat × List Nat × Sg) :=
  [([7], [5, 4, 3, 2, 1, 0], ⟨false, 0, 200⟩), ([6, 1], [4, 3, 2, 1, 0], ⟨false, 0, 200⟩), ([5, 2], [3, 2, 1, 0, 5], ⟨true, 1, 200⟩),
   ([5, 1, 1], [3, 2, 1, 0], ⟨false, 1, 200⟩), ([4, 3], [2, 1, 0, 5, 4], ⟨false, 16777215, 176⟩), ([4, 2, 1], [2, 1, 0, 4], ⟨true, 8388609, 177⟩),
   ([4, 1, 1, 1], [2, 1, 0], ⟨false, 1, 200⟩), ([3, 3, 1], [1, 0, 4, 3], ⟨false, 0, 200⟩), ([3, 2, 2], [1, 0, 3, 5], ⟨false, 1, 200⟩),
   ([3, 2, 1, 1], [1, 0, 3], ⟨true, 1, 200⟩), ([3, 1, 1, 1, 1], [1, 0], ⟨true, 3, 200⟩), ([2, 2, 2, 1], [0, 2, 4], ⟨false, 3, 200⟩),
   ([2, 2, 1, 1, 1], [0, 2], ⟨false, 1, 200⟩), ([2, 1, 1, 1, 1, 1], [0], ⟨true, 1, 200⟩), ([1, 1, 1, 1, 1, 1, 1], [], ⟨false, 21, 200⟩)]

theorem tables322 : Tables 7 [3, 2, 2] tabs322 where
  rows := by
    intro k hk
    have : k = 0 ∨ k = 1 ∨ k = 2 ∨ k = 3 ∨ k = 4 ∨ k = 5 := by omega
    rcases this with rfl | rfl | rfl | rfl | rfl | rfl <;> decide +kernel

theorem check322 : checkK (unitCols 21) (L322.map fun x => (x.2.1.map tabs322, x.2.2)) = true := by decide +kernel

theorem chars322 : Rounding.ieee.chars 7 [3, 2, 2] = some (L322.map fun x => x.2.2.val) :=
  chars_eval (n := 7) (p := [3, 2, 2]) (by norm_num) ⟨by simp, by simp, rfl⟩ tables322 (d := 21) (by decide +kernel) L322 (by decide +kernel) (by decide +kernel) check322

abbrev T22111_0 : List Row :=
  [.one false, .one true, .one false, .one true, .one true, .one false, .one true, .one true, .one true, .one false, .one true, .one true, .one true,
   .one true]

abbrev T22111_1 : List Row :=
  [.two 1 true 18014398509481984 31201853486215848, .two 0 false 18014398509481984 31201853486215848, .two 3 true 18014398509481984 31201853486215848,
   .two 2 false 18014398509481984 31201853486215848, .one true, .two 6 true 18014398509481984 31201853486215848,
   .two 5 false 18014398509481984 31201853486215848, .one true, .one true, .two 10 true 18014398509481984 31201853486215848,
   .two 9 false 18014398509481984 31201853486215848, .one true, .one true, .one true]

abbrev T22111_2 : List Row :=
  [.one false, .one true, .one true, .two 4 true 12009599006321322 33968275586804120, .two 3 false 12009599006321322 33968275586804120, .one true,
   .two 7 true 12009599006321322 33968275586804120, .two 6 false 12009599006321322 33968275586804120, .one true, .one true,
   .two 11 true 12009599006321322 33968275586804120, .two 10 false 12009599006321322 33968275586804120, .one true, .one true]

abbrev T22111_3 : List Row :=
  [.two 2 true 18014398509481984 31201853486215848, .two 3 true 18014398509481984 31201853486215848, .two 0 false 18014398509481984 31201853486215848,
   .two 1 false 18014398509481984 31201853486215848, .one true, .one true, .one true, .two 8 true 9007199254740992 34884732709583720,
   .two 7 false 9007199254740992 34884732709583720, .one true, .one true, .two 12 true 9007199254740992 34884732709583720,
   .two 11 false 9007199254740992 34884732709583720, .one true]

abbrev T22111_4 : List Row :=
  [.one true, .one true, .two 5 true 12009599006321322 33968275586804120, .two 6 true 12009599006321322 33968275586804120,
   .two 7 true 12009599006321322 33968275586804120, .two 2 false 12009599006321322 33968275586804120, .two 3 false 12009599006321322 33968275586804120,
   .two 4 false 12009599006321322 33968275586804120, .one true, .one true, .one true, .one true, .two 13 true 7205759403792794 35300867497107752,
   .two 12 false 7205759403792794 35300867497107752]

abbrev T22111_5 : List Row :=
  [.one true, .one true, .one true, .one true, .one true, .two 9 true 9007199254740992 34884732709583720,
   .two 10 true 9007199254740992 34884732709583720, .two 11 true 9007199254740992 34884732709583720, .two 12 true 9007199254740992 34884732709583720,
   .two 5 false 9007199254740992 34884732709583720, .two 6 false 9007199254740992 34884732709583720, .two 7 false 9007199254740992 34884732709583720,
   .two 8 false 9007199254740992 34884732709583720, .one true]

/-- the tables -/
def tabs22111 : Nat → List Row
  | 0 => T22111_0
  | 1 => T22111_1
  | 2 => T22111_2
  | 3 => T22111_3
  | 4 => T22111_4
  | 5 => T22111_5
  | _ => []

/-- classes, words, values -/
abbrev L22111 : List (List Nat × List Nat × Sg) :=
  [([7], [5, 4, 3, 2, 1, 0], ⟨false, 0, 200⟩), ([6, 1], [4, 3, 2, 1, 0], ⟨false, 1, 200⟩), ([5, 2], [3, 2, 1, 0, 5], ⟨true, 1, 200⟩),
   ([5, 1, 1], [3, 2, 1, 0], ⟨true, 1, 200⟩), ([4, 3], [2, 1, 0, 5, 4], ⟨false, 0, 200⟩), ([4, 2, 1], [2, 1, 0, 4], ⟨true, 1, 175⟩),
   ([4, 1, 1, 1], [2, 1, 0], ⟨false, 0, 200⟩), ([3, 3, 1], [1, 0, 4, 3], ⟨true, 1, 200⟩), ([3, 2, 2], [1, 0, 3, 5], ⟨false, 1, 201⟩),
   ([3, 2, 1, 1], [1, 0, 3], ⟨false, 0, 200⟩), ([3, 1, 1, 1, 1], [1, 0], ⟨false, 1, 201⟩), ([2, 2, 2, 1], [0, 2, 4], ⟨true, 8388607, 178⟩),
   ([2, 2, 1, 1, 1], [0, 2], ⟨false, 1, 201⟩), ([2, 1, 1, 1, 1, 1], [0], ⟨true, 3, 201⟩), ([1, 1, 1, 1, 1, 1, 1], [], ⟨false, 7, 201⟩)]

theorem tables22111 : Tables 7 [2, 2, 1, 1, 1] tabs22111 where
  rows := by
    intro k hk
    have : k = 0 ∨ k = 1 ∨ k = 2 ∨ k = 3 ∨ k = 4 ∨ k = 5 := by omega
    rcases this with rfl | rfl | rfl | rfl | rfl | rfl <;> decide +kernel

theorem check22111 : checkK (unitCols 14) (L22111.map fun x => (x.2.1.map tabs22111, x.2.2)) = true := by decide +kernel

theorem chars22111 : Rounding.ieee.chars 7 [2, 2, 1, 1, 1] = some (L22111.map fun x => x.2.2.val) :=
  chars_eval (n := 7) (p := [2, 2, 1, 1, 1]) (by norm_num) ⟨by simp, by simp, rfl⟩ tables22111 (d := 14) (by decide +kernel) L22111 (by decide +kernel) (by decide +kernel) check22111

/-- sizes of the classes -/
abbrev M7 : List Nat := [720, 840, 504, 504, 420, 630, 210, 280, 210, 420, 70, 105, 105, 21, 1]

/-- the values of the three characters -/
abbrev C7 : List (List Nat × List Sg) :=
  [([5, 1, 1], L511.map fun x => x.2.2), ([3, 2, 2], L322.map fun x => x.2.2), ([2, 2, 1, 1, 1], L22111.map fun x => x.2.2)]

theorem table7 : SomeChars 7 M7 C7 where
  chars := by
    intro x hx
    simp only [C7, List.mem_cons, List.not_mem_nil, or_false] at hx
    rcases hx with rfl | rfl | rfl
    · exact chars511
    · exact chars322
    · exact chars22111
  sizes := by decide +kernel
  small := by decide +kernel
  len := by
    intro x hx
    simp only [C7, List.mem_cons, List.not_mem_nil, or_false] at hx
    rcases hx with rfl | rfl | rfl <;> rfl

theorem good7 : okSum 5040 (sumK (zip4 (L511.map fun x => x.2.2) (L322.map fun x => x.2.2) (L22111.map fun x => x.2.2) M7) false 0 200) = true := by
  decide +kernel

theorem bad7a : eqK (sumK (zip4 (L511.map fun x => x.2.2) (L22111.map fun x => x.2.2) (L322.map fun x => x.2.2) M7) false 0 200) ⟨false, 10321919, 189⟩ = true := by
  decide +kernel

theorem bad7b : eqK (sumK (zip4 (L22111.map fun x => x.2.2) (L322.map fun x => x.2.2) (L511.map fun x => x.2.2) M7) false 0 200) ⟨false, 10321919, 189⟩ = true := by
  decide +kernel

end Six

end Snob
