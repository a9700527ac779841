import Verif.Proofs.FloatEval

/-!
# The characters of `[5,2]` and `[2,2,2,1]` in floating point

The tables, the words of the classes and the values, and the coefficient computed from them.
-/

namespace Snob

open IP FEv

namespace Seven

abbrev T52_0 : List Row :=
  [.one false, .one false, .one false, .one false, .one true, .one false, .one false, .one false, .one true, .one false, .one false, .one true,
   .one false, .one true]

abbrev T52_1 : List Row :=
  [.one false, .one false, .one false, .two 4 true 18014398509481984 31201853486215848, .two 3 false 18014398509481984 31201853486215848, .one false,
   .one false, .two 8 true 18014398509481984 31201853486215848, .two 7 false 18014398509481984 31201853486215848, .one false,
   .two 11 true 18014398509481984 31201853486215848, .two 10 false 18014398509481984 31201853486215848, .two 13 true 18014398509481984 31201853486215848,
   .two 12 false 18014398509481984 31201853486215848]

abbrev T52_2 : List Row :=
  [.one false, .one false, .two 3 true 12009599006321322 33968275586804120, .two 2 false 12009599006321322 33968275586804120, .one false, .one false,
   .two 7 true 12009599006321322 33968275586804120, .two 6 false 12009599006321322 33968275586804120, .one false,
   .two 10 true 12009599006321322 33968275586804120, .two 9 false 12009599006321322 33968275586804120, .one false, .one false, .one true]

abbrev T52_3 : List Row :=
  [.one false, .two 2 true 9007199254740992 34884732709583720, .two 1 false 9007199254740992 34884732709583720, .one false, .one false,
   .two 6 true 9007199254740992 34884732709583720, .two 5 false 9007199254740992 34884732709583720, .one false, .one false, .one false,
   .two 12 true 18014398509481984 31201853486215848, .two 13 true 18014398509481984 31201853486215848, .two 10 false 18014398509481984 31201853486215848,
   .two 11 false 18014398509481984 31201853486215848]

abbrev T52_4 : List Row :=
  [.two 1 true 7205759403792794 35300867497107752, .two 0 false 7205759403792794 35300867497107752, .one false, .one false, .one false, .one false,
   .two 9 true 12009599006321322 33968275586804120, .two 10 true 12009599006321322 33968275586804120, .two 11 true 12009599006321322 33968275586804120,
   .two 6 false 12009599006321322 33968275586804120, .two 7 false 12009599006321322 33968275586804120, .two 8 false 12009599006321322 33968275586804120,
   .one false, .one false]

abbrev T52_5 : List Row :=
  [.one false, .two 5 true 9007199254740992 34884732709583720, .two 6 true 9007199254740992 34884732709583720,
   .two 7 true 9007199254740992 34884732709583720, .two 8 true 9007199254740992 34884732709583720, .two 1 false 9007199254740992 34884732709583720,
   .two 2 false 9007199254740992 34884732709583720, .two 3 false 9007199254740992 34884732709583720, .two 4 false 9007199254740992 34884732709583720,
   .one false, .one false, .one false, .one false, .one false]

/-- the tables -/
def tabs52 : Nat → List Row
  | 0 => T52_0
  | 1 => T52_1
  | 2 => T52_2
  | 3 => T52_3
  | 4 => T52_4
  | 5 => T52_5
  | _ => []

/-- classes, words, values -/
abbrev L52 : List (List Nat × List Nat × Sg) :=
  [([7], [5, 4, 3, 2, 1, 0], ⟨false, 0, 200⟩), ([6, 1], [4, 3, 2, 1, 0], ⟨true, 1, 200⟩), ([5, 2], [3, 2, 1, 0, 5], ⟨false, 16777215, 176⟩),
   ([5, 1, 1], [3, 2, 1, 0], ⟨true, 1, 200⟩), ([4, 3], [2, 1, 0, 5, 4], ⟨false, 0, 200⟩), ([4, 2, 1], [2, 1, 0, 4], ⟨false, 0, 200⟩),
   ([4, 1, 1, 1], [2, 1, 0], ⟨true, 1, 176⟩), ([3, 3, 1], [1, 0, 4, 3], ⟨true, 8388609, 177⟩), ([3, 2, 2], [1, 0, 3, 5], ⟨false, 1, 201⟩),
   ([3, 2, 1, 1], [1, 0, 3], ⟨false, 0, 200⟩), ([3, 1, 1, 1, 1], [1, 0], ⟨false, 1, 201⟩), ([2, 2, 2, 1], [0, 2, 4], ⟨false, 1, 201⟩),
   ([2, 2, 1, 1, 1], [0, 2], ⟨false, 1, 201⟩), ([2, 1, 1, 1, 1, 1], [0], ⟨false, 3, 201⟩), ([1, 1, 1, 1, 1, 1, 1], [], ⟨false, 7, 201⟩)]

theorem tables52 : Tables 7 [5, 2] tabs52 where
  rows := by
    intro k hk
    have : k = 0 ∨ k = 1 ∨ k = 2 ∨ k = 3 ∨ k = 4 ∨ k = 5 := by omega
    rcases this with rfl | rfl | rfl | rfl | rfl | rfl <;> decide +kernel

theorem check52 : checkK (unitCols 14) (L52.map fun x => (x.2.1.map tabs52, x.2.2)) = true := by decide +kernel

abbrev T2221_0 : List Row :=
  [.one false, .one true, .one false, .one true, .one true, .one false, .one true, .one false, .one true, .one true, .one false, .one true, .one true,
   .one true]

abbrev T2221_1 : List Row :=
  [.two 1 true 18014398509481984 31201853486215848, .two 0 false 18014398509481984 31201853486215848, .two 3 true 18014398509481984 31201853486215848,
   .two 2 false 18014398509481984 31201853486215848, .one true, .two 6 true 18014398509481984 31201853486215848,
   .two 5 false 18014398509481984 31201853486215848, .two 8 true 18014398509481984 31201853486215848, .two 7 false 18014398509481984 31201853486215848,
   .one true, .two 11 true 18014398509481984 31201853486215848, .two 10 false 18014398509481984 31201853486215848, .one true, .one true]

abbrev T2221_2 : List Row :=
  [.one false, .one true, .one true, .two 4 true 12009599006321322 33968275586804120, .two 3 false 12009599006321322 33968275586804120, .one false,
   .one true, .one true, .two 9 true 12009599006321322 33968275586804120, .two 8 false 12009599006321322 33968275586804120, .one true,
   .two 12 true 12009599006321322 33968275586804120, .two 11 false 12009599006321322 33968275586804120, .one true]

abbrev T2221_3 : List Row :=
  [.two 2 true 18014398509481984 31201853486215848, .two 3 true 18014398509481984 31201853486215848, .two 0 false 18014398509481984 31201853486215848,
   .two 1 false 18014398509481984 31201853486215848, .one true, .two 7 true 18014398509481984 31201853486215848,
   .two 8 true 18014398509481984 31201853486215848, .two 5 false 18014398509481984 31201853486215848, .two 6 false 18014398509481984 31201853486215848,
   .one true, .one true, .one true, .two 13 true 9007199254740992 34884732709583720, .two 12 false 9007199254740992 34884732709583720]

abbrev T2221_4 : List Row :=
  [.one false, .one false, .one true, .one true, .one true, .one true, .one true, .two 10 true 12009599006321322 33968275586804120,
   .two 11 true 12009599006321322 33968275586804120, .two 12 true 12009599006321322 33968275586804120, .two 7 false 12009599006321322 33968275586804120,
   .two 8 false 12009599006321322 33968275586804120, .two 9 false 12009599006321322 33968275586804120, .one true]

abbrev T2221_5 : List Row :=
  [.two 5 true 18014398509481984 31201853486215848, .two 6 true 18014398509481984 31201853486215848, .two 7 true 18014398509481984 31201853486215848,
   .two 8 true 18014398509481984 31201853486215848, .two 9 true 18014398509481984 31201853486215848, .two 0 false 18014398509481984 31201853486215848,
   .two 1 false 18014398509481984 31201853486215848, .two 2 false 18014398509481984 31201853486215848, .two 3 false 18014398509481984 31201853486215848,
   .two 4 false 18014398509481984 31201853486215848, .one true, .one true, .one true, .one true]

/-- the tables -/
def tabs2221 : Nat → List Row
  | 0 => T2221_0
  | 1 => T2221_1
  | 2 => T2221_2
  | 3 => T2221_3
  | 4 => T2221_4
  | 5 => T2221_5
  | _ => []

/-- classes, words, values -/
abbrev L2221 : List (List Nat × List Nat × Sg) :=
  [([7], [5, 4, 3, 2, 1, 0], ⟨false, 0, 200⟩), ([6, 1], [4, 3, 2, 1, 0], ⟨false, 0, 200⟩), ([5, 2], [3, 2, 1, 0, 5], ⟨false, 1, 200⟩),
   ([5, 1, 1], [3, 2, 1, 0], ⟨true, 1, 200⟩), ([4, 3], [2, 1, 0, 5, 4], ⟨true, 1, 200⟩), ([4, 2, 1], [2, 1, 0, 4], ⟨false, 0, 200⟩),
   ([4, 1, 1, 1], [2, 1, 0], ⟨false, 1, 201⟩), ([3, 3, 1], [1, 0, 4, 3], ⟨false, 8388609, 178⟩), ([3, 2, 2], [1, 0, 3, 5], ⟨true, 1, 200⟩),
   ([3, 2, 1, 1], [1, 0, 3], ⟨true, 1, 200⟩), ([3, 1, 1, 1, 1], [1, 0], ⟨true, 1, 200⟩), ([2, 2, 2, 1], [0, 2, 4], ⟨false, 0, 200⟩),
   ([2, 2, 1, 1, 1], [0, 2], ⟨false, 16777215, 177⟩), ([2, 1, 1, 1, 1, 1], [0], ⟨true, 1, 202⟩), ([1, 1, 1, 1, 1, 1, 1], [], ⟨false, 7, 201⟩)]

theorem tables2221 : Tables 7 [2, 2, 2, 1] tabs2221 where
  rows := by
    intro k hk
    have : k = 0 ∨ k = 1 ∨ k = 2 ∨ k = 3 ∨ k = 4 ∨ k = 5 := by omega
    rcases this with rfl | rfl | rfl | rfl | rfl | rfl <;> decide +kernel

theorem check2221 : checkK (unitCols 14) (L2221.map fun x => (x.2.1.map tabs2221, x.2.2)) = true := by decide +kernel

/-- values and class sizes -/
abbrev LS : List (Sg × Sg × Sg × Nat) :=
  [(⟨false, 0, 200⟩, ⟨false, 0, 200⟩, ⟨false, 0, 200⟩, 720), (⟨true, 1, 200⟩, ⟨false, 0, 200⟩, ⟨false, 0, 200⟩, 840),
   (⟨false, 16777215, 176⟩, ⟨false, 1, 200⟩, ⟨false, 1, 200⟩, 504), (⟨true, 1, 200⟩, ⟨true, 1, 200⟩, ⟨true, 1, 200⟩, 504),
   (⟨false, 0, 200⟩, ⟨true, 1, 200⟩, ⟨true, 1, 200⟩, 420), (⟨false, 0, 200⟩, ⟨false, 0, 200⟩, ⟨false, 0, 200⟩, 630),
   (⟨true, 1, 176⟩, ⟨false, 1, 201⟩, ⟨false, 1, 201⟩, 210), (⟨true, 8388609, 177⟩, ⟨false, 8388609, 178⟩, ⟨false, 8388609, 178⟩, 280),
   (⟨false, 1, 201⟩, ⟨true, 1, 200⟩, ⟨true, 1, 200⟩, 210), (⟨false, 0, 200⟩, ⟨true, 1, 200⟩, ⟨true, 1, 200⟩, 420),
   (⟨false, 1, 201⟩, ⟨true, 1, 200⟩, ⟨true, 1, 200⟩, 70), (⟨false, 1, 201⟩, ⟨false, 0, 200⟩, ⟨false, 0, 200⟩, 105),
   (⟨false, 1, 201⟩, ⟨false, 16777215, 177⟩, ⟨false, 16777215, 177⟩, 105), (⟨false, 3, 201⟩, ⟨true, 1, 202⟩, ⟨true, 1, 202⟩, 21),
   (⟨false, 7, 201⟩, ⟨false, 7, 201⟩, ⟨false, 7, 201⟩, 1)]

theorem partition52 : IsPartition 7 [5, 2] := ⟨by simp, by simp, rfl⟩

theorem partition2221 : IsPartition 7 [2, 2, 2, 1] := ⟨by simp, by simp, rfl⟩

theorem partitions7 : partitions 7 = L52.map fun x => x.1 := by decide +kernel

theorem chars52 : Rounding.ieee.chars 7 [5, 2] = some (L52.map fun x => x.2.2.val) :=
  chars_eval (by norm_num) partition52 tables52 (d := 14) (by decide +kernel) L52 partitions7 (by decide +kernel) check52

theorem chars2221 : Rounding.ieee.chars 7 [2, 2, 2, 1] = some (L2221.map fun x => x.2.2.val) :=
  chars_eval (by norm_num) partition2221 tables2221 (d := 14) (by decide +kernel) L2221 (by decide +kernel) (by decide +kernel) check2221

theorem checkSum : eqK (sumK LS false 0 200) ⟨false, 10321919, 189⟩ = true := by decide +kernel

/-- the `float` of `coeff` -/
theorem coeffFloat7 : Rounding.ieee.coeffFloat [5, 2] [2, 2, 2, 1] [2, 2, 2, 1] = some (16777214 / 16777216) := by
  obtain ⟨y, hy, hv⟩ := eqK_val checkSum
  have hs : Rounding.ieee.sumLoop 7 (partitions 7) (L52.map fun x => x.2.2.val) (L2221.map fun x => x.2.2.val) (L2221.map fun x => x.2.2.val) 0 =
      some (10321919 / 2048) := by
    have e0 : (Sg.mk false 0 200).val = 0 := by simp [Sg.val, val0]
    rcases sumK_eq 7 (partitions 7) LS (by decide +kernel) (by decide) false 0 200 with h | ⟨z, h1, h2⟩
    · rw [h] at hy; cases hy
    · rw [h1] at hy
      rw [Option.some.inj hy, hv, e0] at h2
      have e1 : (⟨false, 10321919, 189⟩ : Sg).val = 10321919 / 2048 := by
        norm_num [Sg.val, val0, sgn]
      rw [e1] at h2
      exact h2
  have hf : rnd 24 ((7).factorial : ℝ) = 5040 := by
    rw [rnd_exact (by norm_num) ⟨5040, 0, by norm_num, by norm_num [Nat.factorial]⟩]
    norm_num [Nat.factorial]
  have hd : rnd 24 ((10321919 : ℝ) / 2048 / 5040) = (16777214 : ℤ) * 2 ^ (-24 : ℤ) :=
    rnd_of_near (by norm_num) (by norm_num) (by norm_num)
  unfold Rounding.coeffFloat
  rw [show getn [5, 2] = 7 from rfl]
  simp only [chars52, chars2221, Option.bind_eq_bind, Option.bind_some, hs]
  show some (rnd 24 (_ / rnd 24 _)) = _
  rw [hf, hd]
  norm_num

end Seven

end Snob
