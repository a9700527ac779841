import Verif.Proofs.Partition
import Mathlib.Algebra.BigOperators.Group.Finset.Basic
import Mathlib.Algebra.Order.BigOperators.Group.Finset
import Mathlib.Data.List.Pairwise
import Mathlib.Data.List.Perm.Basic
import Mathlib.Data.List.Sort

namespace Snob

open IP

theorem sum_eq_finset (p : List Nat) (N : Nat) (hN : p.length ≤ N) :
    p.sum = ∑ i ∈ Finset.range N, row p i := by
  rw [sum_eq_sum_row p N hN]
  rfl

theorem finset_le_sum (p : List Nat) (N : Nat) : ∑ i ∈ Finset.range N, row p i ≤ p.sum := by
  rw [sum_eq_finset p (p.length + N) (by omega)]
  apply Finset.sum_le_sum_of_subset
  intro i hi
  simp only [Finset.mem_range] at hi ⊢
  omega

theorem length_of_lex {p q : List Nat} {i : Nat} (hs : p.sum = q.sum)
    (h : ∀ j, j < i → row p j = row q j) (hi : row q i < row p i) : i + 1 < q.length := by
  by_contra hc
  have h1 := finset_le_sum p (i + 1)
  have h2 := sum_eq_finset q (i + 1) (by omega)
  rw [Finset.sum_range_succ] at h1 h2
  have h3 : ∑ j ∈ Finset.range i, row p j = ∑ j ∈ Finset.range i, row q j :=
    Finset.sum_congr rfl fun j hj => h j (by simpa using hj)
  omega

theorem IsPartition.length_pos {n : Nat} {p : List Nat} (h : IsPartition n p) (hn : 0 < n) :
    0 < p.length := by
  rcases p with _ | ⟨a, p⟩
  · have := h.sum; simp at this; omega
  · simp

theorem lastGrows_iff {n : Nat} {p : List Nat} (h : IsPartition n p) (hn : 0 < n) :
    lastGrows p = true ↔ CanAdd p (p.length - 1) := by
  have hl := h.length_pos hn
  unfold lastGrows CanAdd
  rcases Nat.lt_or_ge 1 p.length with h1 | h1
  · rw [getElem?_eq_row (by omega : p.length - 2 < p.length),
      getElem?_eq_row (by omega : p.length - 1 < p.length)]
    have e : p.length - 1 - 1 = p.length - 2 := by omega
    rw [e]
    simp
    omega
  · have e : p.length = 1 := by omega
    simp [e]

theorem canAdd_length {n : Nat} {p : List Nat} (h : IsPartition n p) : CanAdd p p.length := by
  unfold CanAdd
  rcases Nat.eq_zero_or_pos p.length with e | e
  · exact Or.inl e
  · refine Or.inr ⟨e, ?_⟩
    rw [row_of_ge (Nat.le_refl _)]
    exact (row_pos_iff h _).2 (by omega)

/-- members of the step -/
theorem mem_partitionsStep {n : Nat} (hn : 0 < n) {sub : List (List Nat)}
    (hsub : ∀ p ∈ sub, IsPartition n p) (q : List Nat) :
    q ∈ partitionsStep sub ↔
      ∃ p ∈ sub, ∃ r, (r = p.length - 1 ∨ r = p.length) ∧ CanAdd p r ∧ q = add p r 1 := by
  unfold partitionsStep
  rw [List.mem_flatMap]
  refine exists_congr fun p => and_congr_right fun hp => ?_
  have h := hsub p hp
  rw [List.mem_append, List.mem_singleton]
  constructor
  · rintro (h1 | h1)
    · by_cases hg : lastGrows p = true
      · rw [if_pos hg, List.mem_singleton] at h1
        exact ⟨_, Or.inl rfl, (lastGrows_iff h hn).1 hg, h1⟩
      · rw [if_neg hg] at h1
        simp at h1
    · exact ⟨_, Or.inr rfl, canAdd_length h, h1⟩
  · rintro ⟨r, rfl | rfl, h1, rfl⟩
    · left
      rw [if_pos ((lastGrows_iff h hn).2 h1)]
      simp
    · right; rfl

theorem mem_partitions (n : Nat) (hn : 0 < n) (q : List Nat) :
    q ∈ partitions n ↔ IsPartition n q := by
  induction n generalizing q with
  | zero => omega
  | succ n ih =>
    rcases n with _ | n
    · show q ∈ [[1]] ↔ _
      rw [List.mem_singleton]
      constructor
      · rintro rfl
        exact ⟨by simp, by simp, by simp⟩
      · intro h
        have hl := h.length_pos (by omega)
        rcases q with _ | ⟨a, q⟩
        · simp at hl
        · have h1 := h.sum
          have h2 := h.pos a (by simp)
          simp only [List.sum_cons] at h1
          rcases q with _ | ⟨b, q⟩
          · simp at h1; simp [h1]
          · have := h.pos b (by simp)
            simp at h1; omega
    · show q ∈ partitionsStep (partitions (n + 1)) ↔ _
      rw [mem_partitionsStep (n := n + 1) (by omega) (fun p hp => (ih (by omega) p).1 hp)]
      constructor
      · rintro ⟨p, hp, r, _, hr, rfl⟩
        exact isPartition_add ((ih (by omega) p).1 hp) hr
      · intro h
        have hl := h.length_pos (by omega)
        have hrem : CanRem q (q.length - 1) := by
          unfold CanRem
          rw [row_of_ge (by omega)]
          exact (row_pos_iff h _).2 (by omega)
        obtain ⟨p, _, hp, hb⟩ := isPartition_remove h hrem
        have hc := canAdd_of_addsBoxAt h.sorted hb
        refine ⟨p, (ih (by omega) p).2 hp, q.length - 1, ?_, hc, eq_add_of_addsBoxAt h hp hb⟩
        have h1 := hc.le_length
        by_contra hne
        push Not at hne
        have h2 := (row_pos_iff hp q.length).2 (by omega)
        have h3 := hb q.length
        rw [row_of_ge (Nat.le_refl _)] at h3
        omega

theorem lexGreater_step {n : Nat} {p q : List Nat} (hp : IsPartition n p) (hq : IsPartition n q)
    (h : LexGreater p q) {a b : Nat} (ha : a = p.length - 1 ∨ a = p.length)
    (hb : b = q.length - 1 ∨ b = q.length) : LexGreater (add p a 1) (add q b 1) := by
  obtain ⟨i, h1, h2⟩ := h
  have hl := length_of_lex (hp.sum.trans hq.sum.symm) h1 h2
  have hl' : i < p.length := by
    by_contra hc
    rw [row_of_ge (by omega : p.length ≤ i)] at h2
    omega
  refine ⟨i, fun j hj => ?_, ?_⟩
  · rw [row_add p a 1 j (by omega), row_add q b 1 j (by omega), h1 j hj]
    simp [show j ≠ a by omega, show j ≠ b by omega]
  · rw [row_add p a 1 i (by omega), row_add q b 1 i (by omega)]
    simp only [show i ≠ b by omega, if_false]
    omega

theorem partitions_pairwise (n : Nat) : (partitions n).Pairwise LexGreater := by
  induction n with
  | zero => exact List.Pairwise.nil
  | succ n ih =>
    rcases n with _ | n
    · exact List.pairwise_singleton _ _
    · show (partitionsStep (partitions (n + 1))).Pairwise LexGreater
      have hm := mem_partitions (n + 1) (by omega)
      unfold partitionsStep
      rw [List.pairwise_flatMap]
      constructor
      · intro p hp
        have hP := (hm p).1 hp
        have hl := hP.length_pos (by omega)
        by_cases hg : lastGrows p = true
        · rw [if_pos hg, List.singleton_append, List.pairwise_cons]
          refine ⟨?_, List.pairwise_singleton _ _⟩
          intro q hq
          rw [List.mem_singleton] at hq
          subst hq
          refine ⟨p.length - 1, fun j hj => ?_, ?_⟩
          · rw [row_add p _ 1 j (by omega), row_add p _ 1 j (by omega)]
            simp [show j ≠ p.length - 1 by omega, show j ≠ p.length by omega]
          · rw [row_add p _ 1 _ (by omega), row_add p _ 1 _ (by omega)]
            simp [show p.length - 1 ≠ p.length by omega]
        · rw [if_neg hg]
          exact List.pairwise_singleton _ _
      · refine ih.imp_of_mem ?_
        intro p q hp hq h x hx y hy
        have key : ∀ (p : List Nat) (x : List Nat), p ∈ partitions (n + 1) →
            x ∈ (if lastGrows p = true then [add p (p.length - 1)] else []) ++ [add p p.length] →
            ∃ r, (r = p.length - 1 ∨ r = p.length) ∧ x = add p r 1 := by
          intro p x _ hx
          rw [List.mem_append, List.mem_singleton] at hx
          rcases hx with hx | hx
          · split at hx
            · exact ⟨_, Or.inl rfl, by simpa using hx⟩
            · simp at hx
          · exact ⟨_, Or.inr rfl, hx⟩
        obtain ⟨a, ha, rfl⟩ := key p x hp hx
        obtain ⟨b, hb, rfl⟩ := key q y hq hy
        exact lexGreater_step ((hm p).1 hp) ((hm q).1 hq) h ha hb

theorem partitions_nodup (n : Nat) : (partitions n).Nodup := by
  unfold List.Nodup
  refine (partitions_pairwise n).imp ?_
  intro a b h e
  subst e
  exact lexGreater_irrefl a h

/-! ### sub-partitions -/

/-- the sub-partitions, lowest row first -/
def subs (p : List Nat) : List (List Nat) :=
  ((List.range p.length).reverse.filter (fun i => decide (row p (i + 1) < row p i))).map
    (fun i => dropZeroLast (p.set i (row p i - 1)))

theorem remove_eq {p : List Nat} {i : Nat} (hi : i < p.length) (h : 0 < row p i) :
    remove p i 1 = some (dropZeroLast (p.set i (row p i - 1))) := by
  unfold remove
  rw [getElem?_eq_row hi]
  simp only
  rw [if_pos (show 1 ≤ row p i by omega)]

theorem dropZeroLast_set {n : Nat} {p : List Nat} (hp : IsPartition n p) {i v : Nat}
    (hi : i + 1 < p.length) : dropZeroLast (p.set i v) = p.set i v := by
  unfold dropZeroLast
  rw [if_neg]
  rw [List.getLast?_eq_getElem?, List.length_set, getElem?_eq_row (by simp; omega),
    row_set (by omega)]
  simp only [show p.length - 1 ≠ i by omega, if_false]
  have := (row_pos_iff hp (p.length - 1)).2 (by omega)
  simp; omega

theorem shortenable_eq {n : Nat} {p : List Nat} (hp : IsPartition n p) {i : Nat}
    (hi : i < p.length) : shortenable p i = some (decide (row p (i + 1) < row p i)) := by
  unfold shortenable
  by_cases h : i + 1 = p.length
  · rw [if_pos h, row_of_ge (by omega)]
    have := (row_pos_iff hp i).2 hi
    simp [this]
  · rw [if_neg h, getElem?_eq_row (by omega : i + 1 < p.length), getElem?_eq_row hi]

theorem bankParentsLoop_eq {n : Nat} {p : List Nat} (hp : IsPartition n p) (c : Nat)
    (hc : c ≤ p.length) : bankParentsLoop p c =
      some (((List.range c).reverse.filter (fun i => decide (row p (i + 1) < row p i))).map
        (fun i => dropZeroLast (p.set i (row p i - 1)))) := by
  induction c with
  | zero => simp [bankParentsLoop]
  | succ c ih =>
    rw [List.range_succ, List.reverse_append, List.reverse_singleton, List.singleton_append,
      List.filter_cons, bankParentsLoop, shortenable_eq hp (by omega), ih (by omega)]
    by_cases h : row p (c + 1) < row p c
    · simp only [h, decide_true, if_true, remove_eq (by omega : c < p.length) (by omega),
        List.map_cons]
    · simp only [h, decide_false]
      rfl

theorem subsLoop_eq {n : Nat} {p : List Nat} (hp : IsPartition n p) (c : Nat)
    (hc : c + 1 ≤ p.length) : subsLoop p c =
      some (((List.range c).reverse.filter (fun i => decide (row p (i + 1) < row p i))).map
        (fun i => dropZeroLast (p.set i (row p i - 1)))) := by
  induction c with
  | zero => simp [subsLoop]
  | succ c ih =>
    rw [List.range_succ, List.reverse_append, List.reverse_singleton, List.singleton_append,
      List.filter_cons, subsLoop, getElem?_eq_row (by omega : c < p.length),
      getElem?_eq_row (by omega : c + 1 < p.length)]
    simp only [ih (by omega)]
    by_cases h : row p (c + 1) < row p c
    · simp only [h, decide_true, if_true, List.map_cons,
        dropZeroLast_set hp (by omega : c + 1 < p.length)]
    · simp only [h, decide_false, if_false]
      rfl

theorem bankParents_eq {n : Nat} {p : List Nat} (hp : IsPartition n p) (hn : 1 < n) :
    bankParents p = some (subs p) := by
  unfold bankParents
  rw [getn_eq, hp.sum, if_pos hn, bankParentsLoop_eq hp _ (Nat.le_refl _)]
  rfl

theorem parents_eq {n : Nat} {p : List Nat} (hp : IsPartition n p) (hn : 0 < n) :
    parents p = some (subs p) := by
  have hl := hp.length_pos hn
  have hpos := (row_pos_iff hp (p.length - 1)).2 (by omega)
  unfold parents
  have hlast : p.getLast? = some (row p (p.length - 1)) := by
    rw [List.getLast?_eq_getElem?, getElem?_eq_row (by omega)]
  obtain ⟨x, hx⟩ : ∃ x, row p (p.length - 1) = x + 1 := ⟨row p (p.length - 1) - 1, by omega⟩
  rw [hlast, hx]
  simp only
  rw [subsLoop_eq hp _ (by omega)]
  simp only
  unfold subs
  have hr : List.range p.length = List.range (p.length - 1) ++ [p.length - 1] := by
    rw [← List.range_succ, show (p.length - 1).succ = p.length by omega]
  rw [hr, List.reverse_append, List.reverse_singleton, List.singleton_append, List.filter_cons]
  have h1 : row p (p.length - 1 + 1) < row p (p.length - 1) := by
    rw [row_of_ge (by omega)]; exact hpos
  simp only [h1, decide_true, if_true, List.map_cons]
  congr 2
  unfold dropZeroLast
  have hset : (p.set (p.length - 1) (row p (p.length - 1) - 1)).getLast? = some x := by
    rw [List.getLast?_eq_getElem?, List.length_set, getElem?_eq_row (by simp; omega),
      row_set (by omega)]
    simp [hx]
  rw [hset, hx]
  by_cases h0 : x = 0
  · subst h0
    simp only [if_true]
    rw [List.dropLast_eq_take, List.dropLast_eq_take, List.length_set, List.take_set]
    rw [List.set_eq_of_length_le]
    simp
  · simp [h0]

theorem mem_subs {n : Nat} {p : List Nat} (hp : IsPartition (n + 1) p) (q : List Nat) :
    q ∈ subs p ↔ IsPartition n q ∧ AddsBox q p := by
  unfold subs
  simp only [List.mem_map, List.mem_filter, List.mem_reverse, List.mem_range, decide_eq_true_eq]
  constructor
  · rintro ⟨i, ⟨hi, h⟩, rfl⟩
    obtain ⟨q, h1, h2, h3⟩ := isPartition_remove hp (r := i) h
    rw [remove_eq hi (by omega)] at h1
    cases h1
    exact ⟨h2, i, h3⟩
  · rintro ⟨hq, i, hb⟩
    have hr := canRem_of_addsBoxAt hq.sorted hb
    refine ⟨i, ⟨hr.lt_length, hr⟩, ?_⟩
    obtain ⟨q', h1, h2, h3⟩ := isPartition_remove hp hr
    rw [remove_eq hr.lt_length (by unfold CanRem at hr; omega)] at h1
    cases h1
    refine h2.ext hq fun j => ?_
    have e1 := h3 j
    have e2 := hb j
    omega

theorem subs_pairwise (p : List Nat) : (subs p).Pairwise LexGreater := by
  unfold subs
  rw [List.pairwise_map]
  have h : (List.range p.length).reverse.Pairwise (fun a b => b < a) := by
    rw [List.pairwise_reverse]
    exact List.pairwise_lt_range
  refine List.Pairwise.imp_of_mem ?_ (h.filter _)
  intro a b ha hb hab
  simp only [List.mem_filter, List.mem_reverse, List.mem_range, decide_eq_true_eq] at ha hb
  refine ⟨b, fun j hj => ?_, ?_⟩
  · rw [row_dropZeroLast, row_dropZeroLast, row_set ha.1, row_set hb.1]
    simp [show j ≠ a by omega, show j ≠ b by omega]
  · rw [row_dropZeroLast, row_dropZeroLast, row_set ha.1, row_set hb.1]
    simp [show b ≠ a by omega]
    omega

end Snob
