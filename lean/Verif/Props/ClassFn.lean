import Verif.Spec.ClassFn
import Verif.Props.Classes

/-! # Properties C87, C88: class functions -/

namespace Snob.Props

open Snob IP

open scoped Nat

variable {n : Nat} {w : World} {ir ch : Nat → List (List Nat)}

theorem Rel.index (h : Rel w ir ch) {m : Nat} (hm : 1 ≤ m) {p : List Nat} (hp : IsPartition m p) :
    ∃ w', w.onSn (getn p) (·.index p) = some (w', (partitions m).idxOf p) ∧ Rel w' ir ch := by
  have hs : getn p = m := by rw [getn_eq, hp.sum]
  obtain ⟨w', e, h', -⟩ := h.onSn_id hm (index_ok (ir m) hp)
  rw [hs]
  exact ⟨w', e, h'⟩

/-- the list of values of a function of partitions -/
def Holds (n : Nat) (f : ClassFn) (F : List Nat → ℝ) : Prop := f.n = n ∧ f.vals = (partitions n).map F

theorem Holds.at {f : ClassFn} {F : List Nat → ℝ} (h : Holds n f F) (i : Nat) (hi : i < (partitions n).length) :
    f.getAt i = some (F (partitions n)[i]) := by
  unfold ClassFn.getAt
  rw [h.2, List.getElem?_map, List.getElem?_eq_getElem hi]
  rfl

theorem Holds.by {f : ClassFn} {F : List Nat → ℝ} (hn : 1 ≤ n) (h : Holds n f F) (hr : Rel w ir ch) {p : List Nat}
    (hp : IsPartition n p) : ∃ w', f.getBy w p = some (w', F p) ∧ Rel w' ir ch := by
  obtain ⟨w', e, h'⟩ := Rel.index hr hn hp
  refine ⟨w', ?_, h'⟩
  have hm := (mem_partitions n hn p).2 hp
  unfold ClassFn.getBy
  rw [e]
  simp only [Option.bind_eq_bind, Option.bind_some]
  rw [h.2, List.getElem?_map, List.getElem?_eq_getElem (List.idxOf_lt_length_of_mem hm), List.getElem_idxOf]
  rfl

theorem Holds.set {f : ClassFn} {F : List Nat → ℝ} (h : Holds n f F) (i : Nat) (hi : i < (partitions n).length) (x : ℝ) :
    ∃ g, f.setAt i x = some g ∧ Holds n g fun q => if (partitions n)[i]? = some q then x else F q := by
  unfold ClassFn.setAt
  rw [if_pos (by rw [h.2]; simpa using hi)]
  refine ⟨_, rfl, h.1, ?_⟩
  simp only
  rw [h.2]
  refine List.ext_getElem? fun k => ?_
  rw [List.getElem?_set, List.getElem?_map, List.getElem?_map]
  by_cases hk : k < (partitions n).length
  · rw [List.getElem?_eq_getElem hk, List.getElem?_eq_getElem hi]
    simp only [List.length_map, Option.map_some, Option.some.injEq, (partitions_nodup n).getElem_inj_iff]
    split_ifs <;> rfl
  · rw [List.getElem?_eq_none (by omega), if_neg (by omega)]
    rfl

/-- **C87 (partial).** A class function over `S_n` is a function of the partitions of `n`: after every history of calls,
and every sequence of reading and writing in between other calls, it has for every class the value written last, or that
of the filling, whether it is read by partition or by number. Missing: nothing is refused if a partition of another
number is given (`C87_foreign`, `C87_foreign_false`). -/
theorem C87_class_function_partial (hn : 1 ≤ n) (cs : List Call) (hv : ∀ c ∈ cs, c.Valid) (fill : Nat → ℝ) (l : List FnStep)
    (hl : ∀ s ∈ l, s.Valid n) : ∃ w w1 f w2 g, World.empty.run cs = some w ∧ ClassFn.new w n fill = some (w1, f) ∧
      FnStep.runAll (w1, f) l = some (w2, g) ∧ g.vals.length = (partitions n).length ∧
      (∀ p, IsPartition n p → ∃ w3, g.getBy w2 p = some (w3, l.foldl (FnStep.effect n) (fun q => fill ((partitions n).idxOf q)) p)) ∧
      ∀ i p, (partitions n)[i]? = some p → g.getAt i = some (l.foldl (FnStep.effect n) (fun q => fill ((partitions n).idxOf q)) p) := by
  obtain ⟨w, e, h, hch⟩ := history cs hv
  obtain ⟨w1, e1, h1, -⟩ := h.onSn_id hn (ncclasses_ok n _)
  have hf : Holds n ⟨n, (List.range (partitions n).length).map fill⟩ fun q => fill ((partitions n).idxOf q) := by
    refine ⟨rfl, ?_⟩
    refine List.ext_getElem (by simp) fun k a b => ?_
    simp only [List.getElem_map, List.getElem_range]
    rw [(partitions_nodup n).idxOf_getElem]
  have key : ∀ (l : List FnStep) (w : World) (ir ch : Nat → List (List Nat)) (f : ClassFn) (F : List Nat → ℝ), Rel w ir ch →
      (∀ n, (ch n).Nodup) → Holds n f F → (∀ s ∈ l, s.Valid n) →
      ∃ w' g ir' ch', FnStep.runAll (w, f) l = some (w', g) ∧ Rel w' ir' ch' ∧ Holds n g (l.foldl (FnStep.effect n) F) := by
    intro l
    induction l with
    | nil => exact fun w ir ch f F h1 h2 h3 _ => ⟨w, f, ir, ch, rfl, h1, h3⟩
    | cons s l ih =>
      intro w ir ch f F h1 h2 h3 h4
      have hs := h4 s (by simp)
      have : ∃ w' g ir' ch', s.run (w, f) = some (w', g) ∧ Rel w' ir' ch' ∧ (∀ n, (ch' n).Nodup) ∧ Holds n g (s.effect n F) := by
        cases s with
        | call c =>
          obtain ⟨w', e', h'⟩ := h1.exec h2 c hs
          exact ⟨w', f, _, _, by simp only [FnStep.run, e', Option.bind_eq_bind, Option.bind_some], h', fun n => addAll_nodup (h2 n), h3⟩
        | getBy p =>
          obtain ⟨w', e', h'⟩ := h3.by hn h1 hs
          exact ⟨w', f, _, _, by simp only [FnStep.run, e', Option.bind_eq_bind, Option.bind_some], h', h2, h3⟩
        | setBy p x =>
          obtain ⟨w', e', h'⟩ := Rel.index h1 hn hs
          have hm := (mem_partitions n hn p).2 hs
          have hi := List.idxOf_lt_length_of_mem hm
          obtain ⟨g, e2, h5⟩ := h3.set _ hi x
          refine ⟨w', g, _, _, by simp only [FnStep.run, ClassFn.setBy, e', e2, Option.bind_eq_bind, Option.bind_some], h', h2, ?_⟩
          rw [List.getElem?_eq_getElem hi, List.getElem_idxOf] at h5
          have : (fun q => if some p = some q then x else F q) = FnStep.effect n F (.setBy p x) := by
            funext q
            simp only [FnStep.effect, Option.some.injEq, eq_comm]
          rwa [this] at h5
        | setAt i x =>
          obtain ⟨g, e2, h5⟩ := h3.set _ hs x
          exact ⟨w, g, _, _, by simp only [FnStep.run, e2, Option.bind_eq_bind, Option.bind_some], h1, h2, h5⟩
      obtain ⟨w', g, ir', ch', a1, a2, a3, a4⟩ := this
      obtain ⟨w2, g2, ir2, ch2, b1, b2, b3⟩ := ih w' ir' ch' g _ a2 a3 a4 fun s hs => h4 s (by simp [hs])
      refine ⟨w2, g2, ir2, ch2, ?_, b2, b3⟩
      unfold FnStep.runAll at b1 ⊢
      rw [List.foldlM_cons, a1]
      exact b1
  obtain ⟨w2, g, ir', ch', a1, a2, a3⟩ := key l w1 _ _ _ _ h1 hch hf hl
  refine ⟨w, w1, _, w2, g, e, ?_, a1, by rw [a3.2, List.length_map], fun p hp => ?_, fun i p hi => ?_⟩
  · unfold ClassFn.new
    rw [e1]
    rfl
  · obtain ⟨w3, e3, -⟩ := a3.by hn a2 hp
    exact ⟨w3, e3⟩
  · obtain ⟨hi', rfl⟩ := List.getElem?_eq_some_iff.1 hi
    exact a3.at i hi'

/-- What the code does with a partition of any number `m`: the value of the class of `S_n` with the number that the class
has in `S_m`. -/
theorem C87_foreign {m : Nat} (hm : 1 ≤ m) {p : List Nat} (hp : IsPartition m p) (cs : List Call) (hv : ∀ c ∈ cs, c.Valid)
    (f : ClassFn) (i : Nat) (hi : (partitions m)[i]? = some p) :
    ∃ w, World.empty.run cs = some w ∧ (f.getBy w p).map Prod.snd = f.getAt i ∧ ∀ x, (f.setBy w p x).map Prod.snd = f.setAt i x := by
  obtain ⟨w, e, h, -⟩ := history cs hv
  obtain ⟨w', e', -⟩ := Rel.index h hm hp
  obtain ⟨hi', rfl⟩ := List.getElem?_eq_some_iff.1 hi
  rw [(partitions_nodup m).idxOf_getElem] at e'
  refine ⟨w, e, ?_, fun x => ?_⟩
  · unfold ClassFn.getBy
    rw [e']
    simp only [Option.bind_eq_bind, Option.bind_some]
    cases h : f.getAt i with
    | none => rw [show f.vals[i]? = none from h]; rfl
    | some y => rw [show f.vals[i]? = some y from h]; rfl
  · unfold ClassFn.setBy
    rw [e']
    simp only [Option.bind_eq_bind, Option.bind_some]
    cases h : f.setAt i x <;> rfl

/-- **C87** is false of the code for partitions of other numbers: a class function over `S_3` with the values 0, 1, 2 can be
read at the partition `(2,2)` of 4, with the value of the class `(1,1,1)`, and written there; reading at `(1,1,1,1)` goes
outside the tensor. -/
theorem C87_foreign_false : ∃ w w1 f, World.empty.run [] = some w ∧ ClassFn.new w 3 (fun i => (i : ℝ)) = some (w1, f) ∧
    (f.getBy w [2, 2]).map Prod.snd = some 2 ∧ (f.getBy w [1, 1, 1]).map Prod.snd = some 2 ∧
    (∃ g, (f.setBy w [2, 2] 7).map Prod.snd = some g ∧ (g.getBy w [1, 1, 1]).map Prod.snd = some 7) ∧
    f.getBy w [1, 1, 1, 1] = none := by
  obtain ⟨w, w1, f, w2, g, e1, e2, e3, hl, -, e4⟩ := C87_class_function_partial (n := 3) (by norm_num) [] (by simp) (fun i => (i : ℝ)) [] (by simp)
  obtain ⟨-, rfl⟩ := Prod.mk.inj (Option.some.inj (show some (w1, f) = some (w2, g) from e3))
  have p4 : partitions 4 = [[4], [3, 1], [2, 2], [2, 1, 1], [1, 1, 1, 1]] := by decide +kernel
  have p3 : partitions 3 = [[3], [2, 1], [1, 1, 1]] := by decide +kernel
  have c22 : IsPartition 4 [2, 2] := (mem_partitions 4 (by norm_num) _).1 (by rw [p4]; simp)
  have c4 : IsPartition 4 [1, 1, 1, 1] := (mem_partitions 4 (by norm_num) _).1 (by rw [p4]; simp)
  have c3 : IsPartition 3 [1, 1, 1] := (mem_partitions 3 (by norm_num) _).1 (by rw [p3]; simp)
  have hf : f.getAt 2 = some 2 := by
    rw [e4 2 [1, 1, 1] (by rw [p3]; rfl), p3]
    simp [List.idxOf_cons]
  rw [p3] at hl
  have hl : f.vals.length = 3 := hl
  have at_ : ∀ {m : Nat} {p : List Nat} (h : ClassFn) (i : Nat), 1 ≤ m → IsPartition m p → (partitions m)[i]? = some p →
      (h.getBy w p).map Prod.snd = h.getAt i ∧ ∀ x, (h.setBy w p x).map Prod.snd = h.setAt i x := by
    intro m p h i hm hp hi
    obtain ⟨w', e', a⟩ := C87_foreign hm hp [] (by simp) h i hi
    obtain rfl : w' = w := Option.some.inj (e'.symm.trans e1)
    exact a
  have hs : f.setAt 2 7 = some { f with vals := f.vals.set 2 7 } := if_pos (by omega)
  refine ⟨w, w1, f, e1, e2, ?_, ?_, ⟨{ f with vals := f.vals.set 2 7 }, ?_, ?_⟩, ?_⟩
  · rw [(at_ f 2 (by norm_num) c22 (by rw [p4]; rfl)).1, hf]
  · rw [(at_ f 2 (by norm_num) c3 (by rw [p3]; rfl)).1, hf]
  · rw [(at_ f 2 (by norm_num) c22 (by rw [p4]; rfl)).2, hs]
  · rw [(at_ _ 2 (by norm_num) c3 (by rw [p3]; rfl)).1]
    unfold ClassFn.getAt
    simp only
    rw [List.getElem?_set_self (by omega)]
  · have := (at_ f 4 (by norm_num) c4 (by rw [p4]; rfl)).1
    rw [show f.getAt 4 = none from List.getElem?_eq_none (by omega)] at this
    exact Option.map_eq_none_iff.1 this

/-- writing 5 at the class of the transpositions and 7 at class number 0, in between other calls -/
example : ∃ w w1 f w2 g, World.empty.run [.character [2, 1]] = some w ∧ ClassFn.new w 3 (fun _ => 1) = some (w1, f) ∧
    FnStep.runAll (w1, f) [.setBy [2, 1] 5, .call (.ncclasses 4), .setAt 0 7] = some (w2, g) ∧
    (∃ w3, g.getBy w2 [3] = some (w3, 7)) ∧ (∃ w3, g.getBy w2 [2, 1] = some (w3, 5)) ∧ g.getAt 2 = some 1 := by
  have p3 : partitions 3 = [[3], [2, 1], [1, 1, 1]] := by decide +kernel
  have c1 : IsPartition 3 [3] := (mem_partitions 3 (by norm_num) _).1 (by rw [p3]; simp)
  have c2 : IsPartition 3 [2, 1] := (mem_partitions 3 (by norm_num) _).1 (by rw [p3]; simp)
  obtain ⟨w, w1, f, w2, g, e1, e2, e3, -, e4, e5⟩ := C87_class_function_partial (n := 3) (by norm_num) [.character [2, 1]]
    (by simp only [List.mem_singleton, forall_eq]; exact ⟨by norm_num, c2⟩) (fun _ => 1) [.setBy [2, 1] 5, .call (.ncclasses 4), .setAt 0 7]
    (by
      simp only [List.mem_cons, List.not_mem_nil, or_false, forall_eq_or_imp, forall_eq]
      exact ⟨c2, by norm_num [FnStep.Valid, Call.Valid], by norm_num [FnStep.Valid, p3]⟩)
  refine ⟨w, w1, f, w2, g, e1, e2, e3, ?_, ?_, ?_⟩
  · obtain ⟨w3, h⟩ := e4 [3] c1
    exact ⟨w3, by rw [h]; simp [FnStep.effect, p3]⟩
  · obtain ⟨w3, h⟩ := e4 [2, 1] c2
    exact ⟨w3, by rw [h]; simp [FnStep.effect, p3]⟩
  · rw [e5 2 [1, 1, 1] (by rw [p3]; rfl)]
    simp [FnStep.effect, p3]

/-- **C88.** Every class function is a combination of the characters, with coefficients that are determined by it: the
inner products with the characters, weighted by the sizes of the classes. -/
theorem C88_expansion (hn : 1 ≤ n) : ∃ (X : List Nat → List Nat → ℝ) (c : List Nat → Nat),
    (∀ cs : List Call, (∀ c ∈ cs, c.Valid) → ∀ p mu, IsPartition n p → IsPartition n mu →
      ∃ w w', World.empty.run cs = some w ∧ w.exec (.value p mu) = some (w', .real (X p mu))) ∧
    (∀ mu, IsPartition n mu → classSize n mu = some (c mu)) ∧
    ∀ F a : List Nat → ℝ, (∀ mu, IsPartition n mu → F mu = ((partitions n).map fun p => a p * X p mu).sum) ↔
      ∀ p, IsPartition n p → (n ! : ℝ) * a p = ((partitions n).map fun mu => (c mu : ℝ) * (F mu * X p mu)).sum := by
  obtain ⟨X, c, h1, h2, h3, h4⟩ := C33_orthonormal n hn
  refine ⟨X, c, h1, h2, fun F a => ?_⟩
  have hs : ∀ f : List Nat → ℝ, ((partitions n).map f).sum = ∑ p ∈ (partitions n).toFinset, f p := fun f =>
    (List.sum_toFinset f (partitions_nodup n)).symm
  have hm : ∀ p, p ∈ (partitions n).toFinset ↔ IsPartition n p := fun p => by rw [List.mem_toFinset, mem_partitions n hn]
  simp only [hs] at h3 h4 ⊢
  have hpos : (n ! : ℝ) ≠ 0 := by exact_mod_cast (Nat.factorial_pos n).ne'
  constructor
  · intro hF p hp
    have e : ∀ mu ∈ (partitions n).toFinset, (c mu : ℝ) * (F mu * X p mu) = ∑ q ∈ (partitions n).toFinset, a q * ((c mu : ℝ) * (X q mu * X p mu)) := by
      intro mu hmu
      rw [hF mu ((hm mu).1 hmu), Finset.sum_mul, Finset.mul_sum]
      exact Finset.sum_congr rfl fun q _ => by ring
    rw [Finset.sum_congr rfl e, Finset.sum_comm]
    have e2 : ∀ q ∈ (partitions n).toFinset, ∑ mu ∈ (partitions n).toFinset, a q * ((c mu : ℝ) * (X q mu * X p mu)) = if q = p then (n ! : ℝ) * a p else 0 := by
      intro q hq
      rw [← Finset.mul_sum, h3 q p ((hm q).1 hq) hp]
      split_ifs with h
      · rw [h, mul_comm]
      · rw [mul_zero]
    rw [Finset.sum_congr rfl e2, Finset.sum_ite_eq' , if_pos ((hm p).2 hp)]
  · intro ha mu hmu
    refine mul_left_cancel₀ hpos ?_
    rw [Finset.mul_sum]
    have e : ∀ p ∈ (partitions n).toFinset, (n ! : ℝ) * (a p * X p mu) = ∑ nu ∈ (partitions n).toFinset, F nu * ((c nu : ℝ) * (X p nu * X p mu)) := by
      intro p hp
      rw [← mul_assoc, ha p ((hm p).1 hp), Finset.sum_mul]
      exact Finset.sum_congr rfl fun q _ => by ring
    rw [Finset.sum_congr rfl e, Finset.sum_comm]
    have e2 : ∀ nu ∈ (partitions n).toFinset, ∑ p ∈ (partitions n).toFinset, F nu * ((c nu : ℝ) * (X p nu * X p mu)) = if nu = mu then (n ! : ℝ) * F mu else 0 := by
      intro nu hnu
      rw [← Finset.mul_sum, ← Finset.mul_sum, h4 nu mu ((hm nu).1 hnu) hmu]
      split_ifs with h
      · rw [h, mul_comm]
      · rw [mul_zero]
    rw [Finset.sum_congr rfl e2, Finset.sum_ite_eq', if_pos ((hm mu).2 hmu)]

/-- the function on `S_3` that is one at the identity only: six times the coefficient of a character is its value there -/
example : ∃ (X : List Nat → List Nat → ℝ) (a : List Nat → ℝ),
    (∀ p mu, IsPartition 3 p → IsPartition 3 mu → ∃ w', World.empty.exec (.value p mu) = some (w', .real (X p mu))) ∧
    (∀ mu, IsPartition 3 mu → (if mu = [1, 1, 1] then 1 else 0) = a [3] * X [3] mu + a [2, 1] * X [2, 1] mu + a [1, 1, 1] * X [1, 1, 1] mu) ∧
    a [2, 1] = X [2, 1] [1, 1, 1] / 6 := by
  obtain ⟨X, c, h1, h2, h3⟩ := C88_expansion (n := 3) (by norm_num)
  have p3 : partitions 3 = [[3], [2, 1], [1, 1, 1]] := by decide +kernel
  have c3 : IsPartition 3 [1, 1, 1] := (mem_partitions 3 (by norm_num) _).1 (by rw [p3]; simp)
  have hc : c [1, 1, 1] = 1 := Option.some.inj ((h2 _ c3).symm.trans (show classSize 3 [1, 1, 1] = some 1 by decide))
  refine ⟨X, fun p => X p [1, 1, 1] / 6, fun p mu hp hmu => ?_, fun mu hmu => ?_, rfl⟩
  · obtain ⟨w, w', e, e'⟩ := h1 [] (by simp) p mu hp hmu
    obtain rfl : World.empty = w := Option.some.inj (show some World.empty = some w from e)
    exact ⟨w', e'⟩
  · have := (h3 (fun mu => if mu = [1, 1, 1] then 1 else 0) fun p => X p [1, 1, 1] / 6).2 (fun p hp => by
      rw [p3]
      simp only [List.map_cons, List.map_nil, List.sum_cons, List.sum_nil, hc]
      norm_num [Nat.factorial]
      ring) mu hmu
    rw [p3] at this
    simp only [List.map_cons, List.map_nil, List.sum_cons, List.sum_nil] at this
    rw [this]
    ring

end Snob.Props
