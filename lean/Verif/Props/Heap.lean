import Verif.Proofs.Heap

/-! # C90: partitions and permutations are values

`IntegerPartition` and `Permutation` own a block of memory each. A user copies, moves, assigns, changes and drops them
and expects that they behave like values, that memory is never used after it was given back or given back twice, and
that none is lost. `run` keeps the blocks and the pointers, `vrun` the values. -/

namespace Snob.Props

open Snob.Heap

/-- **C90, the part that holds.** A program that does not use what is gone or was moved away, does not write outside of a
list and does not assign an object to itself by copying is defined — no block is used after it was given back or given
back twice, no cell is read before it is written — and every object then shows the value a user expects. The same for
`x=x`, which a user expects to be without effect, is false (`C90_self_assign`). -/
theorem C90_values_partial (c : Cls) (ops : List Op) (v : List Val) (h : vrun c [] ops = some v) :
    ∃ m, run c {} ops = some m ∧ Shows m v := by
  obtain ⟨m, h1, h2⟩ := run_ok c ops (m := {}) ok_nil h
  refine ⟨m, h1, fun d l hl => ?_⟩
  obtain ⟨o, ho, x, rfl, hx⟩ := h2.get hl
  exact ⟨height_eq ho hx, getn_eq ho hx, fun r hr => get_eq ho hx hr⟩

/-- **C90, no memory is lost.** If all objects of such a program are gone at its end, all memory was given back. -/
theorem C90_clean_partial (c : Cls) (ops : List Op) (v : List Val) (h : vrun c [] ops = some v) (hv : ∀ s ∈ v, s = .gone) :
    ∃ m, run c {} ops = some m ∧ Clean m := by
  obtain ⟨m, h1, h2⟩ := run_ok c ops (m := {}) ok_nil h
  refine ⟨m, h1, fun a b hb => ?_⟩
  obtain ⟨d, x, hx, hp⟩ := h2.cov a b hb
  have hd : d < v.length := by rw [← h2.len]; exact (List.getElem?_eq_some_iff.1 hx).1
  have hg : v[d]? = some .gone := by rw [List.getElem?_eq_getElem hd, hv _ (List.getElem_mem hd)]
  have := h2.st _ _ _ hx hg
  simp [St] at this

/-- **C90, the exceptions: `x=x`.** Copy assignment frees the block and then copies from the new one, which holds
nothing: undefined for every object that is not empty. -/
theorem C90_self_assign (c : Cls) (x : Int) (l : List Int) : run c {} [.make (x :: l), .assign 0 0] = none := by
  simp only [run, List.foldlM_cons, step, make_eq, Option.bind_eq_bind, Option.bind_some]
  simp [Mem.assign, Mem.obj, Mem.free, Mem.alloc, List.range_succ_eq_map, Mem.copyLoop, Mem.load, rd, raw]

/-- **C90, the exceptions: objects moved from.** `height()` still gives the old length, but `getn()` and copying read
through a null pointer, whatever the object was (if it was not empty). -/
theorem C90_moved_from (c : Cls) (x : Int) (l : List Int) :
    run c {} [.make (x :: l), .move 0, .copy 0] = none ∧
    ∃ m, run c {} [.make (x :: l), .move 0] = some m ∧ m.height 0 = some (l.length + 1) ∧ m.getn 0 = none := by
  constructor
  · simp only [run, List.foldlM_cons, step, make_eq, Option.bind_eq_bind, Option.bind_some]
    simp [Mem.move, Mem.copy, Mem.copyOf, Mem.obj, Mem.alloc, List.range_succ_eq_map, Mem.copyLoop, Mem.load]
  · simp only [run, List.foldlM_cons, step, make_eq, Option.bind_eq_bind, Option.bind_some]
    simp [Mem.move, Mem.obj, Mem.height, Mem.getn, List.range_succ_eq_map, Mem.sumLoop, Mem.load]

/-- **C90 as it stands is false**: with `x=x` allowed. -/
theorem C90_full_fails (c : Cls) : ¬ ∀ (ops : List Op) (v : List Val), vrunFull c [] ops = some v →
    ∃ m, run c {} ops = some m ∧ Shows m v := by
  intro h
  obtain ⟨m, hm, _⟩ := h [.make [2, 1], .assign 0 0] [.val [2, 1]] (by cases c <;> decide)
  rw [C90_self_assign] at hm
  simp at hm

/-- the value of a copy does not follow its original; `std::swap` of two permutations; all are dropped -/
example : vrun .permutation [] [.make [3, 1], .copy 0, .set 0 1 7, .move 0, .moveAssign 0 1, .moveAssign 1 2] =
    some [.val [3, 1], .val [3, 7], .moved] := by decide

example : (run .permutation {} [.make [3, 1], .copy 0, .set 0 1 7, .move 0, .moveAssign 0 1, .moveAssign 1 2]).map
    (fun m => (m.get 0 1, m.get 1 1, m.getn 1)) = some (some 1, some 7, some 10) := by decide

example : (run .permutation {} [.make [3, 1], .make [5], .assign 1 0, .assign 0 1, .destroy 0, .destroy 1]).map Mem.blocks =
    some [none, none, none, none, none, none] := by decide

/-- an object used after it is gone -/
example : run .partition {} [.make [3, 1], .destroy 0, .destroy 0] = none := by decide

/-- **C90, memory given back is gone.** Giving back the same block again, reading it and writing to it are all undefined,
so that the theorems above say that no such thing happens. -/
theorem C90_no_double_free (m m' : Mem) (a : Nat) (h : m.free (some a) = some m') :
    m'.free (some a) = none ∧ (∀ i, m'.load (some a) i = none) ∧ ∀ i x, m'.store (some a) i x = none := by
  unfold Mem.free at h
  simp only at h
  split at h
  · next b hb =>
    cases h
    have e : (m.blocks.set a none)[a]? = some none := by
      rw [List.getElem?_set_self (List.getElem?_eq_some_iff.1 hb).1]
    refine ⟨?_, fun i => ?_, fun i x => ?_⟩ <;> simp only [Mem.free, Mem.load, Mem.store, e]
  · cases h

/-- **C90, the default constructor.** Partitions have one, and it gives the empty partition; permutations have none. -/
theorem C90_default (ops : List Op) :
    run .permutation {} (.default :: ops) = none ∧
    ∃ m, run .partition {} [.default] = some m ∧ m.height 0 = some 0 ∧ m.getn 0 = some 0 := by
  refine ⟨by simp [run, step], ?_⟩
  exact ⟨_, rfl, rfl, rfl⟩

example : ∃ m m' : Mem, run .partition {} [.make [3, 1]] = some m ∧ m.free (some 0) = some m' := ⟨_, _, rfl, rfl⟩

end Snob.Props
