import Verif.Proofs.PySeq
import Verif.Proofs.PermCheck
import Verif.Props.Iterate
import Verif.Props.Perm
import Verif.Props.Tableau

/-! # Property C116: loops over the objects of the Python module -/

namespace Snob.Props

open Snob Snob.Perm Snob.IP
open scoped Nat

/-- `for x in obj` ends, and has visited the members of `l` in order -/
def LoopVisits {α : Type} (get : Int → Option (PyGet α)) (l : List α) : Prop := ∃ k, pyLoop get k 0 = some (l, true)

theorem Lists.not_loop {α : Type} {get : Int → Option (PyGet α)} {l : List α} (h : Lists get l) (l' : List α) : ¬ LoopVisits get l' := by
  rintro ⟨k, hk⟩
  by_cases hl : k ≤ l.length
  · have := h.loop k 0 (by omega)
    rw [Nat.cast_zero, hk] at this
    simp at this
  · have := h.loop_none k 0 (by omega) (by omega)
    rw [Nat.cast_zero, hk] at this
    simp at this

theorem lists_elements {n : Nat} (hn : 2 ≤ n) : ∃ l, Lists (pySn n) l ∧ l.Nodup ∧ l.length = n ! ∧ ∀ a, a ∈ l ↔ IsPerm n a := by
  obtain ⟨φ, h1, -⟩ := C07_enumeration_bijective n (by omega)
  have hlen : (List.ofFn fun i => (φ i).1).length = n ! := by rw [List.length_ofFn]; rfl
  refine ⟨List.ofFn fun i => (φ i).1, ⟨fun i hi => ?_, ?_⟩, List.nodup_ofFn.2 fun i j h => φ.injective (Subtype.ext h), hlen, fun a => ?_⟩
  · have e : element n (i : Int) = _ := h1 ⟨i, by rw [hlen] at hi; exact hi⟩
    unfold pySn
    rw [e, List.getElem_ofFn]; rfl
  · unfold pySn
    rw [hlen, element_beyond hn (le_refl _)]; rfl
  · rw [List.mem_ofFn]
    exact ⟨fun ⟨i, hi⟩ => hi ▸ (φ i).2, fun ha => ⟨φ.symm ⟨a, ha⟩, by simp⟩⟩

/-! ### what holds -/

/-- **C116 (partial).** `[G[i] for i in range(len(G))]` is the list of all permutations, each once. Missing: `for s in G`. -/
theorem C116_elements_partial (n : Nat) (hn : 1 ≤ n) :
    ∃ l, pyRange (pySn n) (pySnLen n) 0 = some l ∧ l.Nodup ∧ ∀ a, a ∈ l ↔ IsPerm n a := by
  by_cases h2 : 2 ≤ n
  · obtain ⟨l, hl, hnd, hlen, hm⟩ := lists_elements h2
    refine ⟨l, ?_, hnd, hm⟩
    have := hl.range (pySnLen n) 0 (by unfold pySnLen snSize; omega)
    rw [Nat.cast_zero] at this
    rw [this, List.drop_zero, List.take_of_length_le (by unfold pySnLen snSize; omega)]
  · obtain rfl : n = 1 := by omega
    refine ⟨[enc (1 : Equiv.Perm (Fin 1))], by decide, List.nodup_singleton _, fun a => ?_⟩
    rw [List.mem_singleton]
    exact ⟨fun h => ⟨1, h⟩, fun ⟨σ, h⟩ => by rw [h, Subsingleton.elim σ 1]⟩

/-- **C116 (partial).** `[Lambda[i] for i in range(len(Lambda))]` is the list of all partitions, each once. -/
theorem C116_partitions_partial (n : Nat) (hn : 1 ≤ n) :
    ∃ l, pyRange (pyPartitions n) (pyPartitionsLen n) 0 = some l ∧ l.Nodup ∧ ∀ p, p ∈ l ↔ IsPartition n p := by
  refine ⟨partitions n, ?_, partitions_nodup n, mem_partitions n hn⟩
  have := (lists_vec (partitions n)).range (pyPartitionsLen n) 0 (by unfold pyPartitionsLen; omega)
  rw [Nat.cast_zero, List.drop_zero, List.take_of_length_le (by unfold pyPartitionsLen; omega)] at this
  exact this

theorem pyTableaux_eq {lambda : List Nat} {l : List Tab} (h : tableaux lambda = some l) : pyTableaux lambda = fun i => (vecAt l i).map .item := by
  funext i
  unfold pyTableaux
  rw [h]
  cases h2 : vecAt l i <;> simp [h2]

/-- **C116 (partial).** `[T[i] for i in range(len(T))]` is the list of all standard tableaux of the shape, each once. -/
theorem C116_tableaux_partial (n : Nat) (hn : 1 ≤ n) (p : List Nat) (hp : IsPartition n p) :
    ∃ l k, pyTableauxLen p = some k ∧ pyRange (pyTableaux p) k 0 = some l ∧ l.Nodup ∧ ∀ T, T ∈ l ↔ IsSYT p T := by
  obtain ⟨l, h1, h2, h3⟩ := C19_tableaux_complete n hn p hp
  refine ⟨l, l.length, by unfold pyTableauxLen; rw [h1]; rfl, ?_, h2, h3⟩
  rw [pyTableaux_eq h1]
  have := (lists_vec l).range l.length 0 (by omega)
  rw [Nat.cast_zero, List.drop_zero, List.take_of_length_le (le_refl _)] at this
  exact this

/-- **C116 (partial).** `[lambda[i] for i in range(lambda.height())]` are the parts. -/
theorem C116_parts_partial (p : List Nat) : pyRange (pyPartition p) p.length 0 = some p := by
  have := (lists_vec p).range p.length 0 (by omega)
  rw [Nat.cast_zero, List.drop_zero, List.take_of_length_le (le_refl _)] at this
  exact this

/-- **C116 (partial).** `[pi[i] for i in range(1,n+1)]` are the images of `1,..,n`. -/
theorem C116_images_partial {n : Nat} (σ : Equiv.Perm (Fin n)) :
    pyRange (pyPerm (enc σ)) n 1 = some (List.ofFn fun i => ((σ i : Nat) : Int) + 1) := by
  have key : ∀ (k i : Nat), i + k = n → pyRange (pyPerm (enc σ)) k ((i : Int) + 1) = some ((List.ofFn fun i => ((σ i : Nat) : Int) + 1).drop i) := by
    intro k
    induction k with
    | zero => intro i h; simp [pyRange, ← h]
    | succ k ih =>
      intro i h
      have hi : i < (List.ofFn fun i : Fin n => ((σ i : Nat) : Int) + 1).length := by rw [List.length_ofFn]; omega
      have e := ih (i + 1) (by omega)
      rw [Nat.cast_add, Nat.cast_one] at e
      have e2 : pyPerm (enc σ) ((i : Int) + 1) = some (.item (((σ ⟨i, by omega⟩ : Nat) : Int) + 1)) := by
        unfold pyPerm app
        rw [show (i : Int) + 1 - 1 = (i : Int) by ring, rd_ofNat]
        unfold enc
        rw [List.getElem?_eq_getElem (by rw [List.length_ofFn]; omega), List.getElem_ofFn]
        rfl
      simp only [pyRange, e2, Option.bind_eq_bind, Option.bind_some, e]
      rw [List.drop_eq_getElem_cons hi, List.getElem_ofFn]
  have := key n 0 (by omega)
  rwa [Nat.cast_zero, zero_add, List.drop_zero] at this

/-- **C116 (partial).** `s in G` is `True` for the permutations of `n`. Missing: that it is `False` for the others. -/
theorem C116_contains_partial {n : Nat} (hn : 2 ≤ n) (a : Arr) (ha : IsPerm n a) : ∃ k, pyIn (pySn n) (fun x => Perm.eqb a x) k 0 = some (some true) := by
  obtain ⟨l, hl, hnd, hlen, hm⟩ := lists_elements hn
  obtain ⟨c, hc, hca⟩ := List.getElem_of_mem ((hm a).2 ha)
  have hdec : ∀ j, ∀ (hj : j < l.length), Perm.eqb a l[j] = some (decide (a = l[j])) := fun j hj => by
    obtain ⟨σ, rfl⟩ := ha
    obtain ⟨τ, hτ⟩ := (hm l[j]).1 (List.getElem_mem hj)
    rw [hτ]
    obtain ⟨b, h1, h2⟩ := eqb_full (fun i : Fin n => ((σ i : Nat) : Int) + 1) (fun i : Fin n => ((τ i : Nat) : Int) + 1)
    have e : ∀ ρ : Equiv.Perm (Fin n), full (fun i : Fin n => ((ρ i : Nat) : Int) + 1) = enc ρ := fun ρ => rfl
    rw [e, e] at h1 h2
    rw [h1]
    cases b
    · rw [decide_eq_false fun h => by simpa using h2.2 h]
    · rw [decide_eq_true (h2.1 rfl)]
  refine ⟨c + 1 - 0, ?_⟩
  have := hl.in_true (eq := fun x => Perm.eqb a x) c 0 (by omega) hc (fun j _ hj hj' => ?_) ?_
  · rwa [Nat.cast_zero] at this
  · show Perm.eqb a l[j] = _
    rw [hdec j hj', ← hca]
    congr 1
    exact decide_eq_false fun h => absurd ((List.Nodup.getElem_inj_iff hnd).1 h) (by omega)
  · show Perm.eqb a l[c] = _
    rw [hdec c hc, ← hca]
    simp

/-! ### what does not hold -/

theorem vecAt_isSome {α : Type} (v : List α) (i : Int) : (vecAt v i).isSome ↔ 0 ≤ i ∧ i < v.length := by
  unfold vecAt
  by_cases h : 0 ≤ i
  · rw [if_pos h, Option.isSome_iff_ne_none, ne_eq, List.getElem?_eq_none_iff]
    omega
  · rw [if_neg h]
    simp [h]

/-- **C116 (negation).** Negative indices do not count from the end as they do in Python, and none of the objects raises `IndexError`: outside of
`0,..,len-1` the access is undefined behaviour, inside it returns an item. -/
theorem C116_negative_indices (n : Nat) (hn : 1 ≤ n) (p : List Nat) (hp : IsPartition n p) (i : Int) :
    ((pyPartitions n i).isSome ↔ 0 ≤ i ∧ i < pyPartitionsLen n) ∧ ((pyPartition p i).isSome ↔ 0 ≤ i ∧ i < p.length) ∧
      (∃ k, pyTableauxLen p = some k ∧ ((pyTableaux p i).isSome ↔ 0 ≤ i ∧ i < k)) ∧
      pyPartitions n i ≠ some .indexError ∧ pyPartition p i ≠ some .indexError ∧ pyTableaux p i ≠ some .indexError := by
  obtain ⟨l, h1, -⟩ := C19_tableaux_complete n hn p hp
  refine ⟨?_, ?_, ⟨l.length, by unfold pyTableauxLen; rw [h1]; rfl, ?_⟩, ?_, ?_, ?_⟩
  · unfold pyPartitions pyPartitionsLen
    rw [Option.isSome_map, vecAt_isSome]
  · unfold pyPartition
    rw [Option.isSome_map, vecAt_isSome]
  · rw [pyTableaux_eq h1]
    simp only [Option.isSome_map]
    rw [vecAt_isSome]
  · unfold pyPartitions
    simp
  · unfold pyPartition
    simp
  · rw [pyTableaux_eq h1]
    simp

/-- the last part of `[2,1]` cannot be had as `lambda[-1]` -/
example : pyPartition [2, 1] (-1) = none ∧ (pyPartition [2, 1] 1).isSome :=
  ⟨Option.not_isSome_iff_eq_none.1 fun h => absurd (((C116_negative_indices 3 (by norm_num) [2, 1] ⟨by decide, by decide, by decide⟩ (-1)).2.1).1 h).1 (by norm_num),
    ((C116_negative_indices 3 (by norm_num) [2, 1] ⟨by decide, by decide, by decide⟩ 1).2.1).2 (by norm_num)⟩

/-- **C116 is false for `Sn`.** `for s in Sn(n)` visits all permutations and then reads in front of an array (for `n=1` it does not end). -/
theorem C116_elements_wrong (n : Nat) (hn : 1 ≤ n) :
    (∀ l, ¬ LoopVisits (pySn n) l) ∧ (2 ≤ n → ∀ k, n ! < k → pyLoop (pySn n) k 0 = none) := by
  refine ⟨fun l => ?_, fun h2 k hk => ?_⟩
  · by_cases h2 : 2 ≤ n
    · obtain ⟨l', hl, -⟩ := lists_elements h2
      exact Lists.not_loop hl l
    · obtain rfl : n = 1 := by omega
      rintro ⟨k, hk⟩
      have key : ∀ (k i : Nat), pyLoop (pySn 1) k (i : Int) = some (List.replicate k (enc (1 : Equiv.Perm (Fin 1))), false) := by
        intro k
        induction k with
        | zero => intro i; rfl
        | succ k ih =>
          intro i
          have e : pySn 1 (i : Int) = some (.item (enc (1 : Equiv.Perm (Fin 1)))) := by
            have : element 1 (i : Int) = some (enc (1 : Equiv.Perm (Fin 1))) := by
              unfold element digitLoop insertLoop forUp forDown
              simp only [Option.bind_eq_bind]
              rfl
            unfold pySn
            rw [this]; rfl
          have e2 := ih (i + 1)
          rw [Nat.cast_add, Nat.cast_one] at e2
          simp only [pyLoop, e, Option.bind_eq_bind, Option.bind_some, e2]
          rfl
      have := key k 0
      rw [Nat.cast_zero, hk] at this
      simp at this
  · obtain ⟨l', hl, -, hlen, -⟩ := lists_elements h2
    have := hl.loop_none k 0 (by omega) (by omega)
    rwa [Nat.cast_zero] at this

/-- **C116 is false for `IntegerPartitions`.** -/
theorem C116_partitions_wrong (n : Nat) (l : List (List Nat)) : ¬ LoopVisits (pyPartitions n) l := Lists.not_loop (lists_vec (partitions n)) l

/-- **C116 is false for `StandardYoungTableaux`.** -/
theorem C116_tableaux_wrong (n : Nat) (hn : 1 ≤ n) (p : List Nat) (hp : IsPartition n p) (l : List Tab) : ¬ LoopVisits (pyTableaux p) l := by
  obtain ⟨l', h1, -⟩ := C19_tableaux_complete n hn p hp
  rw [pyTableaux_eq h1]
  exact Lists.not_loop (lists_vec l') l

/-- **C116 is false for `IntegerPartition`.** -/
theorem C116_parts_wrong (p l : List Nat) : ¬ LoopVisits (pyPartition p) l := Lists.not_loop (lists_vec p) l

/-- **C116 is false for `Permutation` and `SnElement`**, which count from 1: the first step is undefined. -/
theorem C116_images_wrong (p : Arr) (k : Nat) : pyLoop (pyPerm p) (k + 1) 0 = none := by
  have : pyPerm p 0 = none := rfl
  simp only [pyLoop, this, Option.bind_eq_bind, Option.bind_none]

/-- **C116 is false for `s in G`** if `s` is a permutation of another number. -/
theorem C116_contains_wrong {n m : Nat} (hn : 2 ≤ n) (hm : m ≠ n) (a : Arr) (ha : IsPerm m a) :
    (∀ k ≤ n !, pyIn (pySn n) (fun x => Perm.eqb a x) k 0 = some none) ∧ ∀ k, n ! < k → pyIn (pySn n) (fun x => Perm.eqb a x) k 0 = none := by
  obtain ⟨l, hl, -, hlen, hmem⟩ := lists_elements hn
  have hf : ∀ j, ∀ (hj : j < l.length), Perm.eqb a l[j] = some false := fun j hj => by
    obtain ⟨σ, rfl⟩ := ha
    obtain ⟨τ, hτ⟩ := (hmem l[j]).1 (List.getElem_mem hj)
    rw [hτ]
    unfold Perm.eqb
    rw [if_pos (by simp [enc]; exact hm)]
  constructor
  · have key : ∀ (k i : Nat), i + k ≤ l.length → pyIn (pySn n) (fun x => Perm.eqb a x) k (i : Int) = some none := by
      intro k
      induction k with
      | zero => intro i _; rfl
      | succ k ih =>
        intro i hi
        have e := ih (i + 1) (by omega)
        rw [Nat.cast_add, Nat.cast_one] at e
        simp only [pyIn, hl.at' i (by omega), Option.bind_eq_bind, Option.bind_some, hf i (by omega), e]
        rfl
    intro k hk
    have := key k 0 (by omega)
    rwa [Nat.cast_zero] at this
  · intro k hk
    have := hl.in_none (eq := fun x => Perm.eqb a x) k 0 (by omega) (by omega) hf
    rwa [Nat.cast_zero] at this

/-- **C116 is false for negative indices.** `G[-1]` is the identity, not the last element, for `n≥3`. -/
theorem C116_minus_one_wrong (n : Nat) (hn : 3 ≤ n) :
    pySn n (-1) = pySn n 0 ∧ pySn n (-1) ≠ pySn n ((pySnLen n - 1 : Nat) : Int) ∧ pySn n (-1) ≠ none := by
  have h0 : element n 0 = some (enc (1 : Equiv.Perm (Fin n))) := by
    have := element_eq n 0 (Nat.factorial_pos n)
    rw [Nat.cast_zero, elem_zero] at this
    exact this
  have h1 := element_minus hn
  have hlt : (n !) - 1 < n ! := Nat.sub_lt (Nat.factorial_pos n) one_pos
  have h2 := element_eq n ((n !) - 1) hlt
  refine ⟨by unfold pySn; rw [h0, h1], fun h => ?_, by unfold pySn; rw [h1]; simp⟩
  unfold pySn pySnLen snSize at h
  rw [h1, h2] at h
  have h3 := enc_injective (PyGet.item.inj (Option.some.inj h))
  rw [← elem_zero n] at h3
  have := elem_injOn n 0 ((n !) - 1) (Nat.factorial_pos n) hlt h3
  have : n ≤ n ! := Nat.self_le_factorial n
  omega

/-! ### examples -/

example : pyRange (pySn 3) (pySnLen 3) 0 = some [[some 1, some 2, some 3], [some 2, some 1, some 3], [some 1, some 3, some 2], [some 2, some 3, some 1],
    [some 3, some 1, some 2], [some 3, some 2, some 1]] := by decide
example : (pyLoop (pySn 3) 6 0).isSome = true ∧ (pyLoop (pySn 3) 7 0).isSome = false := by decide
example : pyRange (pyTableaux [3, 1]) 3 0 = some [[[1, 2, 3], [4]], [[1, 2, 4], [3]], [[1, 3, 4], [2]]] := by decide
example : pyIn (pySn 3) (fun x => Perm.eqb [some 2, some 3, some 1] x) 4 0 = some (some true) := by decide
-- an object that raises `IndexError` as Python expects can be looped over
example : LoopVisits (fun i => if i < 2 then some (.item i) else some .indexError) [0, 1] := ⟨3, by decide⟩

end Snob.Props
