import Verif.Proofs.Shallow

/-! # C91: weights and Fourier transforms as values

`SnWeights` and `FourierOnGroup` delete their tensors and let the compiler copy their pointers. -/

namespace Snob.Props

open Snob.Shallow

variable {α : Type}

/-- **C91, the part that holds.** A program that copies only objects without tensors and does not assign is defined, shows
the expected values, and gives all tensors back when all objects are gone. -/
theorem C91_values_partial (ops : List (Op α)) (v : List (Option (List α))) (h : vrun [] ops = some v)
    (ha : ∀ op ∈ ops, NoAssign op) (hc : copied [] ops = 0) :
    ∃ m, run {} ops = some m ∧ Shows m v ∧ ((∀ w ∈ v, w = none) → Clean m) := by
  obtain ⟨m, h1, h2⟩ := run_ok ops (m := {}) ok_nil h ha hc
  refine ⟨m, h1, fun d l hl i hi => ?_, fun hv a x hx => ?_⟩
  · obtain ⟨o, ho, hr⟩ := forall2_get h2.rel hl
    match o, hr with
    | some ps, hr =>
    obtain ⟨a, ha, hax⟩ := forall2_get hr (List.getElem?_eq_getElem hi)
    simp [Mem.get, Mem.obj, ho, ha, Mem.load, hax]
  · have hf : a ∈ flat m.objs := (h2.live a).2 ⟨x, hx⟩
    obtain ⟨o, ho, hao⟩ := List.mem_flatMap.1 hf
    obtain ⟨d, hd, rfl⟩ := List.getElem_of_mem ho
    have hd' : d < v.length := by rw [← h2.rel.length_eq]; exact hd
    have hr := (List.forall₂_iff_get.1 h2.rel).2 d hd hd'
    simp only [List.get_eq_getElem] at hr
    rw [hv _ (List.getElem_mem hd')] at hr
    cases hO : m.objs[d] with
    | none => rw [hO] at hao; simp at hao
    | some ps => rw [hO] at hr; exact hr

/-- **C91, exactly when.** A program without assignments after which all objects are gone is defined exactly if it copied
only objects without tensors. -/
theorem C91_copies (ops : List (Op α)) (v : List (Option (List α))) (h : vrun [] ops = some v)
    (ha : ∀ op ∈ ops, NoAssign op) (hv : ∀ w ∈ v, w = none) : (∃ m, run {} ops = some m) ↔ copied [] ops = 0 := by
  refine ⟨fun ⟨m, hm⟩ => ?_, fun hc => (C91_values_partial ops v h ha hc).imp fun m hm => hm.1⟩
  obtain ⟨s1, s2⟩ := run_count ops (m := {}) 0 .nil h ha hm (by simp [flat, nlive])
  have hf : flat m.objs = [] := by
    rw [List.eq_nil_iff_forall_not_mem]
    intro a haf
    obtain ⟨o, ho, hao⟩ := List.mem_flatMap.1 haf
    obtain ⟨d, hd, rfl⟩ := List.getElem_of_mem ho
    have hd' : d < v.length := by rw [← s1.length_eq]; exact hd
    have hr := (List.forall₂_iff_get.1 s1).2 d hd hd'
    simp only [List.get_eq_getElem] at hr
    rw [hv _ (List.getElem_mem hd')] at hr
    cases hO : m.objs[d] with
    | none => rw [hO] at hao; simp at hao
    | some ps => rw [hO] at hr; simp at hr
  rw [hf] at s2
  simp at s2
  omega

/-- **C91, the exceptions: copies share.** Writing to the tensor of a copy changes the original. -/
theorem C91_shared (l : List α) (i : Nat) (hi : i < l.length) (x : α) :
    ∃ m, run {} [.make l, .copy 0, .set 1 i x] = some m ∧ m.get 0 i = some x := by
  refine ⟨⟨(l.map some).set i (some x), [some (List.range l.length), some (List.range l.length)]⟩, ?_, ?_⟩
  · simp [run, step, make_eq, Mem.copy, Mem.obj, Mem.set, Mem.load, hi, List.range_eq_range']
  · simp [Mem.get, Mem.obj, Mem.load, hi]

/-- **C91, the exceptions: assignment loses.** After assigning an object without tensors, and with all objects gone, the
tensors are still there. -/
theorem C91_lost (x : α) (l : List α) :
    ∃ m, run {} [.make (x :: l), .make [], .assign 0 1, .destroy 0, .destroy 1] = some m ∧ ¬ Clean m := by
  refine ⟨⟨(x :: l).map some, [none, none]⟩, ?_, fun h => h 0 x (by simp)⟩
  simp [run, step, make_eq, Mem.assign, Mem.obj, Mem.destroy, Mem.deleteLoop]

/-- **C91 as it stands is false.** -/
theorem C91_full_fails : ¬ ∀ (ops : List (Op Nat)) (v : List (Option (List Nat))), vrun [] ops = some v →
    ∃ m, run {} ops = some m ∧ Shows m v ∧ ((∀ w ∈ v, w = none) → Clean m) := by
  intro h
  obtain ⟨m, hm, -⟩ := h [.make [5], .copy 0, .destroy 0, .destroy 1] [none, none] rfl
  have := (C91_copies [.make [5], .copy 0, .destroy 0, .destroy 1] [none, none] rfl (by simp [NoAssign]) (by simp)).1 ⟨m, hm⟩
  simp [copied, vstep, weight] at this

/-- two objects with two and one tensors, changed and dropped -/
example : (run ({} : Mem Nat) [.make [3, 4], .make [5], .set 0 1 7]).bind (fun m => m.get 0 1) = some 7 ∧
    (run ({} : Mem Nat) [.make [3, 4], .make [5], .set 0 1 7, .destroy 1, .destroy 0]).map Mem.cells = some [none, none, none] ∧
    (run ({} : Mem Nat) [.make [3, 4], .copy 0, .destroy 1, .destroy 0]).isNone := by decide

end Snob.Props
