import Verif.Proofs.NatPartition
import Verif.Proofs.ROrder
import Mathlib.Tactic.Order

/-! # Properties C10 - C15, C17, C18, C60: integer partitions -/

namespace Snob.Props

open Snob Snob.IP

/-- **C10.** The partition list contains every partition of `n` exactly once and nothing else; its
length is the number of partitions of `n` (Mathlib's `Nat.Partition`). -/
theorem C10_partitions_complete (n : Nat) (hn : 1 ≤ n) :
    (partitions n).Nodup ∧ (∀ p, p ∈ partitions n ↔ IsPartition n p) ∧
      (partitions n).length = Fintype.card (Nat.Partition n) :=
  ⟨partitions_nodup n, mem_partitions n hn, card_partitions n hn⟩

example : partitions 5 =
    [[5], [4, 1], [3, 2], [3, 1, 1], [2, 2, 1], [2, 1, 1, 1], [1, 1, 1, 1, 1]] := by decide

/-- **C11.** Entry `i` of the list precedes entry `j` exactly when it is lexicographically larger, and
exactly when `operator<` says so. -/
theorem C11_partitions_sorted (n : Nat) (hn : 1 ≤ n) (i j : Nat) (hi : i < (partitions n).length)
    (hj : j < (partitions n).length) :
    (i < j ↔ LexGreater (partitions n)[i] (partitions n)[j]) ∧
      lt (partitions n)[i] (partitions n)[j] = some (decide (i < j)) := by
  have hp := (mem_partitions n hn _).1 (List.getElem_mem hi)
  have hq := (mem_partitions n hn _).1 (List.getElem_mem hj)
  have h1 : i < j ↔ LexGreater (partitions n)[i] (partitions n)[j] := by
    have hpw := List.pairwise_iff_getElem.1 (partitions_pairwise n)
    constructor
    · exact fun h => hpw i j hi hj h
    · intro h
      rcases lt_trichotomy i j with h' | h' | h'
      · exact h'
      · subst h'; exact absurd h (lexGreater_irrefl _)
      · exact absurd (hpw j i hj hi h') (lexGreater_asymm h)
  refine ⟨h1, ?_⟩
  have hs : (partitions n)[i].sum = (partitions n)[j].sum := hp.sum.trans hq.sum.symm
  unfold lt
  rw [if_pos (by rw [getn_eq, getn_eq]; exact hs)]
  congr 1
  rw [Bool.eq_iff_iff, ltLoop_iff hs, decide_eq_true_iff, h1]

example : (partitions 4)[1] = [3, 1] ∧ (partitions 4)[3] = [2, 1, 1] ∧
    lt [3, 1] [2, 1, 1] = some true := by decide

/-- **C12.** `operator==` is an equivalence relation (equality of all rows, trailing zeros ignored). -/
theorem C12_eq_equivalence :
    (∀ p q, eqb p q = true ↔ ∀ i, row p i = row q i) ∧
    (∀ p, eqb p p = true) ∧ (∀ p q, eqb p q = true → eqb q p = true) ∧
    (∀ p q r, eqb p q = true → eqb q r = true → eqb p r = true) := by
  refine ⟨eqb_iff, fun p => (eqb_iff p p).2 fun _ => rfl, fun p q h => ?_, fun p q r h h' => ?_⟩
  · exact (eqb_iff q p).2 fun i => ((eqb_iff p q).1 h i).symm
  · exact (eqb_iff p r).2 fun i => ((eqb_iff p q).1 h i).trans ((eqb_iff q r).1 h' i)

/-- **C12.** On sequences of one size, `operator<` is a strict total order compatible with
`operator==`; between different sizes it stops the program. -/
theorem C12_lt_strict_total (n : Nat) :
    (∀ p q : List Nat, p.sum = n → q.sum ≠ n → lt p q = none ∧ lt q p = none) ∧
    (∀ p q : List Nat, p.sum = n → q.sum = n → ∃ b, lt p q = some b) ∧
    (∀ p : List Nat, p.sum = n → lt p p = some false) ∧
    (∀ p q r : List Nat, p.sum = n → q.sum = n → r.sum = n →
      lt p q = some true → lt q r = some true → lt p r = some true) ∧
    (∀ p q : List Nat, p.sum = n → q.sum = n →
      (lt p q = some true ∧ eqb p q = false ∧ lt q p = some false) ∨
      (lt p q = some false ∧ eqb p q = true ∧ lt q p = some false) ∨
      (lt p q = some false ∧ eqb p q = false ∧ lt q p = some true)) ∧
    (∀ p p' q q' : List Nat, p.sum = n → p'.sum = n → q.sum = n → q'.sum = n →
      eqb p p' = true → eqb q q' = true → lt p q = lt p' q') := by
  have key : ∀ p q : List Nat, p.sum = n → q.sum = n → lt p q = some (ltLoop p q) := by
    intro p q hp hq
    unfold lt
    rw [if_pos (by rw [getn_eq, getn_eq, hp, hq])]
  have T : ∀ p q : List Nat, p.sum = n → q.sum = n → (lt p q = some true ↔ LexGreater p q) := by
    intro p q hp hq
    rw [key p q hp hq, Option.some_inj, ltLoop_iff (hp.trans hq.symm)]
  have F : ∀ p q : List Nat, p.sum = n → q.sum = n → (lt p q = some false ↔ ¬ LexGreater p q) := by
    intro p q hp hq
    rw [key p q hp hq, Option.some_inj, ← ltLoop_iff (hp.trans hq.symm)]
    cases ltLoop p q <;> simp
  refine ⟨?_, fun p q hp hq => ⟨_, key p q hp hq⟩, fun p hp => ?_, ?_, ?_, ?_⟩
  · intro p q hp hq
    unfold lt
    rw [if_neg, if_neg]
    · exact ⟨rfl, rfl⟩
    · rw [getn_eq, getn_eq, hp]; exact hq
    · rw [getn_eq, getn_eq, hp]; exact fun h => hq h.symm
  · exact (F p p hp hp).2 (lexGreater_irrefl p)
  · intro p q r hp hq hr h1 h2
    exact (T p r hp hr).2 (lexGreater_trans ((T p q hp hq).1 h1) ((T q r hq hr).1 h2))
  · intro p q hp hq
    have E : eqb p q = false ↔ ¬ ∀ i, row p i = row q i := by
      rw [← eqb_iff]; cases eqb p q <;> simp
    rcases lexGreater_tri p q with h | h | h
    · left
      refine ⟨(T p q hp hq).2 h, E.2 ?_, (F q p hq hp).2 (lexGreater_asymm h)⟩
      intro he; obtain ⟨i, _, hi⟩ := h; have := he i; omega
    · right; left
      refine ⟨(F p q hp hq).2 ?_, (eqb_iff p q).2 h, (F q p hq hp).2 ?_⟩
      · rintro ⟨i, _, hi⟩; have := h i; omega
      · rintro ⟨i, _, hi⟩; have := h i; omega
    · right; right
      refine ⟨(F p q hp hq).2 (lexGreater_asymm h), E.2 ?_, (T q p hq hp).2 h⟩
      intro he; obtain ⟨i, _, hi⟩ := h; have := he i; omega
  · intro p p' q q' hp hp' hq hq' h1 h2
    rw [key p q hp hq, key p' q' hp' hq']
    congr 1
    rw [Bool.eq_iff_iff, ltLoop_iff (hp.trans hq.symm), ltLoop_iff (hp'.trans hq'.symm)]
    exact lexGreater_congr ((eqb_iff p p').1 h1) ((eqb_iff q q').1 h2)

example : lt [3, 1] [2, 2, 0] = some true ∧ eqb [2, 2] [2, 2, 0] = true ∧ lt [3] [2] = none := by
  decide

/-- **C13** is false of the code: `[3]` and `[3,0]` compare equal but have different hashes. -/
theorem C13_hash_disagrees : eqb [3] [3, 0] = true ∧ hash1 [3] ≠ hash1 [3, 0] := by decide

/-- **C13**, what holds: partitions without a trailing zero part that compare equal have equal hashes,
also inside pairs and triples. -/
theorem C13_hash_partial (p p' q q' r r' : List Nat)
    (hp : p.getLast? ≠ some 0) (hp' : p'.getLast? ≠ some 0) (hq : q.getLast? ≠ some 0)
    (hq' : q'.getLast? ≠ some 0) (hr : r.getLast? ≠ some 0) (hr' : r'.getLast? ≠ some 0)
    (e1 : eqb p p' = true) (e2 : eqb q q' = true) (e3 : eqb r r' = true) :
    hash1 p = hash1 p' ∧ hash2 p q = hash2 p' q' ∧ hash3 p q r = hash3 p' q' r' := by
  have key : ∀ p p' : List Nat, p.getLast? ≠ some 0 → eqb p p' = true → p.length ≤ p'.length := by
    intro p p' hp e
    by_contra hc
    have h := (eqb_iff p p').1 e (p.length - 1)
    rw [row_of_ge (by omega : p'.length ≤ p.length - 1)] at h
    rw [List.getLast?_eq_getElem?, getElem?_eq_row (by omega), h] at hp
    exact hp rfl
  have keq : ∀ p p' : List Nat, p.getLast? ≠ some 0 → p'.getLast? ≠ some 0 → eqb p p' = true →
      p = p' := by
    intro p p' hp hp' e
    refine List.ext_getElem (Nat.le_antisymm (key p p' hp e) (key p' p hp'
      (C12_eq_equivalence.2.2.1 p p' e))) fun i h1 h2 => ?_
    have := (eqb_iff p p').1 e i
    rwa [row_of_lt h1, row_of_lt h2] at this
  rw [keq p p' hp hp' e1, keq q q' hq hq' e2, keq r r' hr hr' e3]
  exact ⟨rfl, rfl, rfl⟩

example : ([2, 0, 1] : List Nat).getLast? ≠ some 0 ∧ eqb [2, 0, 1] [2, 0, 1] = true := by decide

/-- shifting a word by one gives the word back only if it is zero -/
theorem shl_one_eq_self (x : BitVec 64) (h : x <<< 1 = x) : x = 0#64 := by
  apply BitVec.eq_of_getLsbD_eq
  intro i
  induction i with
  | zero =>
    intro _
    rw [← h]
    simp
  | succ k ih =>
    intro hk
    have e := congrArg (fun y => y.getLsbD (k + 1)) h
    simp only [BitVec.getLsbD_shiftLeft] at e
    rw [show decide (k + 1 < 64) = true by simpa using hk, show decide (k + 1 < 1) = false by simp] at e
    simp only [Bool.not_false, Bool.and_true, Bool.true_and, Nat.add_sub_cancel] at e
    rw [← e, ih (by omega)]
    simp

/-- **C13, pairs.** The hash of a pair depends on the order of the pair: exchanging the two partitions changes it, unless
they have the same hash. -/
theorem C13_pair_order (p q : List Nat) : hash2 p q = hash2 q p ↔ hash1 p = hash1 q := by
  unfold hash2
  constructor
  · intro h
    have e : (hash1 p ^^^ hash1 q) <<< 1 = hash1 p ^^^ hash1 q := by
      rw [BitVec.shiftLeft_xor_distrib]
      generalize hash1 p <<< 1 = a at h ⊢
      generalize hash1 q <<< 1 = b at h ⊢
      generalize hash1 p = c at h ⊢
      generalize hash1 q = d at h ⊢
      have h2 := congrArg (fun x => (x ^^^ b) ^^^ d) h
      have e1 : a ^^^ d ^^^ b ^^^ d = a ^^^ b := by
        rw [BitVec.xor_assoc a d b, BitVec.xor_comm d b, ← BitVec.xor_assoc, BitVec.xor_assoc (a ^^^ b), BitVec.xor_self, BitVec.xor_zero]
      have e2 : b ^^^ c ^^^ b ^^^ d = c ^^^ d := by
        rw [BitVec.xor_comm b c, BitVec.xor_assoc c b b, BitVec.xor_self, BitVec.xor_zero]
      rwa [e1, e2] at h2
    have := shl_one_eq_self _ e
    have h3 := congrArg (fun x => x ^^^ hash1 q) this
    simpa [BitVec.xor_assoc] using h3
  · intro h
    rw [h]

/-- **C13, triples.** All three partitions count: changing the third alone changes the hash whenever their own hashes
differ, and changing the first or the second alone whenever these differ below the topmost bit. -/
theorem C13_triple (p q r p' q' r' : List Nat) :
    (hash3 p q r = hash3 p q r' ↔ hash1 r = hash1 r') ∧
    (hash3 p q r = hash3 p q' r ↔ hash1 q <<< 1 = hash1 q' <<< 1) ∧
    (hash3 p q r = hash3 p' q r ↔ hash1 p <<< 1 = hash1 p' <<< 1) := by
  unfold hash3
  refine ⟨?_, ?_, ?_⟩
  · rw [BitVec.xor_right_inj]
  · rw [BitVec.xor_left_inj, BitVec.xor_right_inj]
  · rw [BitVec.xor_left_inj, BitVec.xor_left_inj]

/-- **C13, triples.** But the first two may be exchanged, so such triples always collide. -/
theorem C13_triple_collides (p q r : List Nat) : hash3 p q r = hash3 q p r := by
  unfold hash3
  rw [BitVec.xor_comm (hash1 p <<< 1)]

example : hash2 [1, 1, 1] [3] ≠ hash2 [3] [1, 1, 1] ∧ hash3 [2, 1] [3] [1] ≠ hash3 [2, 1] [1, 1, 1] [1] ∧
    hash3 [1, 1, 1] [3] [1] = hash3 [3] [1, 1, 1] [1] := by decide

/-- **C14.** `foreach_sub`/`parents` visit exactly the partitions obtained by removing one box, each
once, in decreasing lexicographic order; the parent list kept in the bank is the same list. -/
theorem C14_sub_partitions (n : Nat) (p : List Nat) (hp : IsPartition (n + 1) p) :
    ∃ L, parents p = some L ∧ L.Nodup ∧ L.Pairwise LexGreater ∧
      (∀ q, q ∈ L ↔ IsPartition n q ∧ AddsBox q p) ∧ (1 ≤ n → bankParents p = some L) := by
  refine ⟨subs p, parents_eq hp (by omega), ?_, subs_pairwise p, mem_subs hp,
    fun h => bankParents_eq hp (by omega)⟩
  unfold List.Nodup
  refine (subs_pairwise p).imp ?_
  intro a b h e
  subst e
  exact lexGreater_irrefl a h

example : parents [3, 2, 2, 1] = some [[3, 2, 2], [3, 2, 1, 1], [2, 2, 2, 1]] ∧
    bankParents [3, 2, 2, 1] = some [[3, 2, 2], [3, 2, 1, 1], [2, 2, 2, 1]] := by decide

example : IsPartition 8 [3, 2, 2, 1] := ⟨by decide, by decide, by decide⟩

/-- **C15.** `extendable` answers for every row (and the new row below) whether adding a box gives a
partition of `n+1`; then removing it again restores the partition. -/
theorem C15_add_box (n : Nat) (p : List Nat) (hp : IsPartition n p) (r : Nat) (hr : r ≤ p.length) :
    ∃ b, extendable p r = some b ∧ (b = true ↔ IsPartition (n + 1) (add p r)) ∧
      AddsBoxAt p (add p r) r ∧ (b = true → remove (add p r) r = some p) := by
  have hb : AddsBoxAt p (add p r) r := addsBoxAt_add hr
  have hiff : CanAdd p r ↔ IsPartition (n + 1) (add p r) :=
    ⟨isPartition_add hp, fun h => canAdd_of_addsBoxAt h.sorted hb⟩
  have hext : ∃ b, extendable p r = some b ∧ (b = true ↔ CanAdd p r) := by
    unfold extendable
    by_cases h1 : r = p.length
    · subst h1
      exact ⟨true, by simp, by simp [canAdd_length hp]⟩
    · by_cases h2 : r = 0
      · subst h2
        exact ⟨true, by simp, by simp [CanAdd]⟩
      · rw [if_neg h1, if_neg h2, getElem?_eq_row (by omega : r - 1 < p.length),
          getElem?_eq_row (by omega : r < p.length)]
        refine ⟨_, rfl, ?_⟩
        simp only [gt_iff_lt, decide_eq_true_eq, CanAdd]
        omega
  obtain ⟨b, h1, h2⟩ := hext
  refine ⟨b, h1, h2.trans hiff, hb, fun h => ?_⟩
  have hP := hiff.1 (h2.1 h)
  obtain ⟨q, e, hq, hqb⟩ := isPartition_remove hP (canRem_of_addsBoxAt hp.sorted hb)
  rw [e]
  congr 1
  refine hq.ext hp fun i => ?_
  have a1 := hqb i
  have a2 := hb i
  omega

/-- **C15.** `shortenable` answers for every row whether removing a box gives a partition of `n-1`;
then adding it again restores the partition. -/
theorem C15_remove_box (n : Nat) (p : List Nat) (hp : IsPartition (n + 1) p) (r : Nat)
    (hr : r < p.length) :
    ∃ b q, shortenable p r = some b ∧ remove p r = some q ∧ (b = true ↔ IsPartition n q) ∧
      AddsBoxAt q p r ∧ (b = true → add q r = p) := by
  have hpos := (row_pos_iff hp r).2 hr
  refine ⟨_, _, shortenable_eq hp hr, remove_eq hr hpos, ?_, ?_, ?_⟩
  · rw [decide_eq_true_eq]
    constructor
    · intro h
      obtain ⟨q, e, hq, _⟩ := isPartition_remove hp (r := r) h
      rw [remove_eq hr hpos] at e
      cases e
      exact hq
    · intro h
      exact canRem_of_addsBoxAt h.sorted (addsBoxAt_remove hpos (remove_eq hr hpos))
  · exact addsBoxAt_remove hpos (remove_eq hr hpos)
  · rw [decide_eq_true_eq]
    intro h
    obtain ⟨q, e, hq, hb⟩ := isPartition_remove hp (r := r) h
    rw [remove_eq hr hpos] at e
    cases e
    exact (eq_add_of_addsBoxAt hp hq hb).symm

example : extendable [3, 3, 1] 1 = some false ∧ extendable [3, 3, 1] 2 = some true ∧
    extendable [3, 3, 1] 3 = some true ∧ add [3, 3, 1] 2 = [3, 3, 2] ∧
    shortenable [3, 3, 1] 0 = some false ∧ remove [3, 3, 1] 2 = some [3, 3] := by decide

/-- **C60.** For a partition `p` that arises from the partition `q` by adding a box in row `r`,
`p.content_of_difference(q)` is the content (column minus row, from zero) of that box. -/
theorem C60_content_of_difference (n : Nat) (p q : List Nat) (hp : IsPartition (n + 1) p)
    (hq : IsPartition n q) (r : Nat) (h : AddsBoxAt q p r) :
    contentOfDifference p q = some ((row q r : Int) - (r : Int)) := by
  have hc := (canAdd_of_addsBoxAt hp.sorted h).le_length
  have hpe := eq_add_of_addsBoxAt hp hq h
  have hlen : q.length ≤ p.length := by
    rw [hpe]; unfold add; split <;> simp
  have hrow : rowOfDifference p q = r := by
    clear hpe hp hq hlen
    induction q generalizing p r with
    | nil =>
      simp at hc
      subst hc
      cases p <;> rfl
    | cons b q ih =>
      cases p with
      | nil => have := h r; simp at this
      | cons a p =>
        unfold rowOfDifference
        by_cases h0 : r = 0
        · subst h0
          have := h 0
          simp at this
          rw [if_pos (by omega)]
        · obtain ⟨r, rfl⟩ := Nat.exists_eq_succ_of_ne_zero h0
          have := h 0
          simp at this
          rw [if_neg (by omega), ih p r]
          · intro i
            have := h (i + 1)
            simpa using this
          · simpa using hc
  unfold contentOfDifference
  rw [if_pos ⟨by rw [getn_eq, getn_eq, hp.sum, hq.sum], hlen⟩, hrow]
  have hr : r < p.length := (canRem_of_addsBoxAt hq.sorted h).lt_length
  rw [getElem?_eq_row hr]
  have := h r
  simp at this
  simp [this]

example : contentOfDifference [3, 3, 2] [3, 3, 1] = some (-1) := by decide

/-- `a` occurs before `b` in the list. -/
def Before (L : List (List Nat)) (a b : List Nat) : Prop := ∃ l1 l2 l3, L = l1 ++ a :: l2 ++ b :: l3

/-- **C17.** The restriction ordered list is a rearrangement of the partition list; if `q` is listed
after `p` in the partition list and all sub-partitions of `q` are sub-partitions of `p`, then the
restriction ordered list has `q` before `p`. -/
theorem C17_restriction_order (n : Nat) (hn : 1 ≤ n) :
    ∃ L, roPartitions n = some L ∧ L.Perm (partitions n) ∧
      ∀ p q, IsPartition n p → IsPartition n q → LexGreater p q →
        (∀ mu, IsPartition (n - 1) mu → AddsBox mu q → AddsBox mu p) → Before L q p := by
  obtain ⟨out, hperm, hro, hcl⟩ := roOrder_spec (partitions n)
  refine ⟨_, hro, ?_, ?_⟩
  · refine (hperm.filterMap _).trans ?_
    have : (List.range (partitions n).length).filterMap (fun i => (partitions n)[i]?) =
        partitions n := by
      have h : ∀ l : List Nat, (∀ i ∈ l, i < (partitions n).length) →
          l.filterMap (fun i => (partitions n)[i]?) = l.map (fun i => (partitions n).getD i []) := by
        intro l hl
        induction l with
        | nil => rfl
        | cons i l ih =>
          have := hl i (by simp)
          rw [List.filterMap_cons_some (List.getElem?_eq_getElem this), List.map_cons,
            ih fun j hj => hl j (by simp [hj])]
          simp [this]
      rw [h _ fun i hi => List.mem_range.1 hi]
      apply List.ext_getElem
      · simp
      · intro i h1 h2
        simp [h2]
    rw [this]
  · intro p q hp hq hlex hsub
    obtain ⟨i, hi, rfl⟩ := List.getElem_of_mem ((mem_partitions n hn p).2 hp)
    obtain ⟨j, hj, rfl⟩ := List.getElem_of_mem ((mem_partitions n hn q).2 hq)
    have hij := (C11_partitions_sorted n hn i j hi hj).1.2 hlex
    have hs : subsumes (partitions n)[i] (partitions n)[j] = true := by
      rcases Nat.lt_or_ge 1 n with h1 | h1
      · obtain ⟨m, rfl⟩ : ∃ m, n = m + 1 := ⟨n - 1, by omega⟩
        unfold subsumes
        rw [bankParents_eq hp h1, bankParents_eq hq h1]
        simp only [List.all_eq_true, List.contains_iff_mem]
        intro mu hmu
        obtain ⟨h2, h3⟩ := (mem_subs hq mu).1 hmu
        exact (mem_subs hp mu).2 ⟨h2, hsub mu h2 h3⟩
      · have : n = 1 := by omega
        subst this
        simp [partitions] at hi hj
        omega
    have hmem : i ∈ out := hperm.mem_iff.2 (List.mem_range.2 hi)
    obtain ⟨l1, l2, hl⟩ := List.append_of_mem hmem
    have hj1 := hcl l1 i l2 hl j hij hj hi hs
    obtain ⟨l3, l4, hl'⟩ := List.append_of_mem hj1
    refine ⟨l3.filterMap (fun i => (partitions n)[i]?),
      l4.filterMap (fun i => (partitions n)[i]?), l2.filterMap (fun i => (partitions n)[i]?), ?_⟩
    rw [hl, hl']
    simp [List.filterMap_append, hi, hj]

example : roPartitions 5 =
    some [[5], [4, 1], [3, 2], [3, 1, 1], [2, 2, 1], [1, 1, 1, 1, 1], [2, 1, 1, 1]] := by decide

/-- **C18** is false of the code: `order(3,2,1)` is not sorted. -/
theorem C18_order_not_sorted :
    order3 (fun a b : Nat => decide (a < b)) 3 2 1 = (1, 3, 2) := by decide

/-- **C18**, what holds for every linear order: `order` returns a rearrangement of its arguments, and
the result is in nondecreasing order exactly when not `x2 ≤ x1 < x0`. -/
theorem C18_order_partial {α : Type} [LinearOrder α] (x0 x1 x2 : α) :
    ∃ a b c, order3 (fun x y : α => decide (x < y)) x0 x1 x2 = (a, b, c) ∧
      List.Perm [a, b, c] [x0, x1, x2] ∧ ((a ≤ b ∧ b ≤ c) ↔ ¬ (x2 ≤ x1 ∧ x1 < x0)) := by
  have p1 : List.Perm [x0, x2, x1] [x0, x1, x2] := List.Perm.cons _ (List.Perm.swap _ _ _)
  have p2 : List.Perm [x2, x0, x1] [x0, x1, x2] := (List.Perm.swap _ _ _).trans p1
  have p3 : List.Perm [x1, x0, x2] [x0, x1, x2] := List.Perm.swap _ _ _
  have p4 : List.Perm [x1, x2, x0] [x0, x1, x2] :=
    (List.Perm.cons _ (List.Perm.swap _ _ _)).trans p3
  unfold order3
  by_cases h1 : x0 < x1 <;> by_cases h2 : x1 < x2 <;> by_cases h3 : x0 < x2 <;>
    simp only [h1, h2, h3, decide_true, decide_false, if_true, if_false, Bool.false_eq_true]
  all_goals refine ⟨_, _, _, rfl, by first | exact List.Perm.refl _ | assumption, ?_⟩
  all_goals constructor
  all_goals first
    | (rintro ⟨g1, g2⟩ ⟨g3, g4⟩; order)
    | (intro g; constructor <;> first | order | (by_contra g'; exact g ⟨by order, by order⟩))

example : order3 (fun a b : Nat => decide (a < b)) 2 3 1 = (1, 2, 3) := by decide

end Snob.Props
