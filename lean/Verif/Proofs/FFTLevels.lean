import Verif.Model.FFT
import Verif.Proofs.SnBank
import Verif.Proofs.Complete
import Verif.Spec.SnBank

/-! # The templates of the fast Fourier transform -/

namespace Snob

open IP

/-! ## Lists sorted by `LexGreater` -/

theorem lex_list_ext {a b : List (List Nat)} (ha : a.Pairwise LexGreater) (hb : b.Pairwise LexGreater)
    (h : ∀ x, x ∈ a ↔ x ∈ b) : a = b := by
  induction a generalizing b with
  | nil =>
    rcases b with _ | ⟨y, b⟩
    · rfl
    · exact absurd ((h y).2 (by simp)) (by simp)
  | cons x a ih =>
    rcases b with _ | ⟨y, b⟩
    · exact absurd ((h x).1 (by simp)) (by simp)
    · rw [List.pairwise_cons] at ha hb
      have hxy : x = y := by
        by_contra hne
        have h1 := (h x).1 (by simp)
        have h2 := (h y).2 (by simp)
        rw [List.mem_cons] at h1 h2
        rcases h1 with h1 | h1
        · exact hne h1
        · rcases h2 with h2 | h2
          · exact hne h2.symm
          · exact lexGreater_asymm (ha.1 y h2) (hb.1 x h1)
      subst hxy
      congr 1
      refine ih ha.2 hb.2 fun z => ?_
      have hz := h z
      rw [List.mem_cons, List.mem_cons] at hz
      constructor
      · intro hm
        rcases hz.1 (Or.inr hm) with e | e
        · subst e; exact absurd (ha.1 z hm) (lexGreater_irrefl z)
        · exact e
      · intro hm
        rcases hz.2 (Or.inr hm) with e | e
        · subst e; exact absurd (hb.1 z hm) (lexGreater_irrefl z)
        · exact e

/-- the entries of a sorted list satisfying an upward closed condition come first -/
theorem filter_prefix {l : List (List Nat)} (hl : l.Pairwise LexGreater) (P : List Nat → Bool)
    (hP : ∀ x ∈ l, ∀ y ∈ l, LexGreater x y → P y = true → P x = true) : ∃ t, l = l.filter P ++ t ∧ ∀ x ∈ t, P x = false := by
  induction l with
  | nil => exact ⟨[], rfl, by simp⟩
  | cons x l ih =>
    rw [List.pairwise_cons] at hl
    by_cases hx : P x = true
    · obtain ⟨t, ht, ht'⟩ := ih hl.2 fun a ha b hb => hP a (by simp [ha]) b (by simp [hb])
      refine ⟨t, ?_, ht'⟩
      rw [List.filter_cons_of_pos hx, List.cons_append, ← ht]
    · refine ⟨x :: l, ?_, ?_⟩
      · rw [List.filter_eq_nil_iff.2]
        · rfl
        · intro y hy hPy
          rcases List.mem_cons.1 hy with e | e
          · subst e; exact hx hPy
          · exact hx (hP x (by simp) y (by simp [e]) (hl.1 y e) hPy)
      · intro y hy
        rcases List.mem_cons.1 hy with e | e
        · subst e; simpa using hx
        · rw [← Bool.not_eq_true]
          intro hPy
          exact hx (hP x (by simp) y (by simp [e]) (hl.1 y e) hPy)

theorem addAll_pairwise (xs : List (List Nat))
    (h : ∀ A x B, xs = A ++ x :: B → x ∉ A → ∀ y ∈ A, LexGreater y x) :
    (addAll [] xs).Pairwise LexGreater ∧ ∀ x, x ∈ addAll [] xs ↔ x ∈ xs := by
  induction xs using List.reverseRecOn with
  | nil => exact ⟨List.Pairwise.nil, fun x => Iff.rfl⟩
  | append_singleton xs x ih =>
    obtain ⟨h1, h2⟩ := ih fun A y B e => h A y (B ++ [x]) (by rw [e]; simp)
    have e : addAll [] (xs ++ [x]) = addNew (addAll [] xs) x := by
      unfold addAll; rw [List.foldl_append]; rfl
    rw [e]
    unfold addNew
    by_cases hx : x ∈ addAll [] xs
    · rw [if_pos hx]
      refine ⟨h1, fun y => ?_⟩
      rw [h2 y, List.mem_append, List.mem_singleton]
      refine ⟨Or.inl, ?_⟩
      rintro (e | e)
      · exact e
      · subst e; exact (h2 y).1 hx
    · rw [if_neg hx]
      refine ⟨?_, fun y => ?_⟩
      · rw [List.pairwise_append]
        refine ⟨h1, List.pairwise_singleton _ _, fun y hy z hz => ?_⟩
        rw [List.mem_singleton] at hz
        subst hz
        exact h xs z [] rfl (fun hm => hx ((h2 z).2 hm)) y ((h2 y).1 hy)
      · rw [List.mem_append, List.mem_append, h2 y]

/-! ## The partitions of a level -/

/-- the partitions of `l` whose first row has at least `m` boxes, in the order of the list of partitions -/
def PL (m l : Nat) : List (List Nat) := (partitions l).filter fun p => decide (m ≤ row p 0)

/-- the sub-partitions with at least `m` boxes in the first row -/
def subsM (m : Nat) (p : List Nat) : List (List Nat) := (subs p).filter fun q => decide (m ≤ row q 0)

theorem mem_PL {m l : Nat} (hl : 0 < l) (q : List Nat) : q ∈ PL m l ↔ IsPartition l q ∧ m ≤ row q 0 := by
  unfold PL
  rw [List.mem_filter, mem_partitions l hl, decide_eq_true_iff]

theorem PL_pairwise (m l : Nat) : (PL m l).Pairwise LexGreater := (partitions_pairwise l).filter _

theorem PL_nodup (m l : Nat) : (PL m l).Nodup := (partitions_nodup l).filter _

theorem PL_one (l : Nat) (hl : 0 < l) : PL 1 l = partitions l := by
  unfold PL
  rw [List.filter_eq_self]
  intro p hp
  have := (mem_partitions l hl p).1 hp
  rw [decide_eq_true_iff]
  exact (row_pos_iff this 0).2 (this.length_pos hl)

theorem eq_single_of_row {m : Nat} (hm : 0 < m) {p : List Nat} (hp : IsPartition m p) (h : m ≤ row p 0) : p = [m] := by
  rcases p with _ | ⟨a, p⟩
  · simp at h; omega
  · rw [row_cons_zero] at h
    have h1 := hp.sum
    rcases p with _ | ⟨b, p⟩
    · simp at h1; rw [h1]
    · have := hp.pos b (by simp)
      simp at h1; omega

theorem PL_self {m : Nat} (hm : 0 < m) : PL m m = [[m]] := by
  refine lex_list_ext (PL_pairwise m m) (List.pairwise_singleton _ _) fun x => ?_
  rw [mem_PL hm, List.mem_singleton]
  constructor
  · rintro ⟨h1, h2⟩
    exact eq_single_of_row hm h1 h2
  · rintro rfl
    exact ⟨⟨by simp, by simpa using hm, by simp⟩, by simp⟩

/-- the partitions obtained by adding a box, in the order of the code -/
def children (p : List Nat) : List (List Nat) :=
  ((List.range p.length).filter fun i => decide (i = 0 ∨ p.getD i 0 < p.getD (i - 1) 0)).map
    (fun i => p.set i (p.getD i 0 + 1)) ++ [add p p.length 1]

theorem set_eq_add {p : List Nat} {i : Nat} (hi : i < p.length) : p.set i (p.getD i 0 + 1) = add p i 1 := by
  unfold add
  rw [if_pos hi, List.modify_eq_set_getElem? , List.getElem?_eq_getElem hi]
  simp [hi]

theorem getD_row (p : List Nat) (i : Nat) : p.getD i 0 = row p i := by
  simp [row, List.getD]

theorem children_eq {n : Nat} {p : List Nat} (hp : IsPartition n p) :
    children p = ((List.range (p.length + 1)).filter fun r => decide (r = 0 ∨ row p r < row p (r - 1))).map
      fun r => add p r 1 := by
  unfold children
  rw [List.range_succ, List.filter_append, List.map_append]
  congr 1
  · simp only [getD_row]
    refine List.map_congr_left fun i hi => ?_
    rw [← getD_row]
    exact set_eq_add (List.mem_range.1 (List.mem_filter.1 hi).1)
  · rw [List.filter_cons_of_pos]
    · rfl
    · rw [decide_eq_true_iff]
      rcases canAdd_length hp with h | h
      · exact Or.inl h
      · exact Or.inr h.2

theorem canAdd_iff (p : List Nat) (r : Nat) : CanAdd p r ↔ (r = 0 ∨ row p r < row p (r - 1)) := by
  unfold CanAdd
  constructor
  · rintro (h | h)
    · exact Or.inl h
    · exact Or.inr h.2
  · rintro (h | h)
    · exact Or.inl h
    · rcases Nat.eq_zero_or_pos r with e | e
      · exact Or.inl e
      · exact Or.inr ⟨e, h⟩

theorem mem_children {n : Nat} {p : List Nat} (hp : IsPartition n p) (q : List Nat) :
    q ∈ children p ↔ IsPartition (n + 1) q ∧ AddsBox p q := by
  rw [children_eq hp]
  simp only [List.mem_map, List.mem_filter, List.mem_range, decide_eq_true_iff]
  constructor
  · rintro ⟨r, ⟨h1, h2⟩, rfl⟩
    have := (canAdd_iff p r).2 h2
    exact ⟨isPartition_add hp this, r, addsBoxAt_add (by omega)⟩
  · rintro ⟨h1, r, hb⟩
    have hc := canAdd_of_addsBoxAt h1.sorted hb
    have := hc.le_length
    exact ⟨r, ⟨by omega, (canAdd_iff p r).1 hc⟩, (eq_add_of_addsBoxAt h1 hp hb).symm⟩

theorem lexGreater_add {p : List Nat} {a b : Nat} (hb : b ≤ p.length) (h : a < b) :
    LexGreater (add p a 1) (add p b 1) := by
  refine ⟨a, fun j hj => ?_, ?_⟩
  · rw [row_add _ _ _ _ (by omega), row_add _ _ _ _ hb]
    simp [show j ≠ a by omega, show j ≠ b by omega]
  · rw [row_add p a _ _ (by omega), row_add p b _ _ hb]
    simp [show a ≠ b by omega]

theorem children_pairwise {n : Nat} {p : List Nat} (hp : IsPartition n p) : (children p).Pairwise LexGreater := by
  rw [children_eq hp, List.pairwise_map]
  refine List.Pairwise.imp_of_mem ?_ (List.pairwise_lt_range.filter _)
  intro a b ha hb hab
  have := List.mem_range.1 (List.mem_filter.1 hb).1
  exact lexGreater_add (by omega) hab

/-- pairs (sub-partition, partition) in the order of the code -/
def pairs (m l : Nat) : List (List Nat × List Nat) := (PL m l).flatMap fun q => (children q).map fun p => (q, p)

theorem mem_pairs {m l : Nat} (hl : 0 < l) (q p : List Nat) :
    (q, p) ∈ pairs m l ↔ (IsPartition l q ∧ m ≤ row q 0) ∧ IsPartition (l + 1) p ∧ AddsBox q p := by
  unfold pairs
  simp only [List.mem_flatMap, List.mem_map, Prod.mk.injEq]
  constructor
  · rintro ⟨q', h1, p', h2, rfl, rfl⟩
    have := (mem_PL hl q').1 h1
    exact ⟨this, (mem_children this.1 p').1 h2⟩
  · rintro ⟨h1, h2⟩
    exact ⟨q, (mem_PL hl q).2 h1, p, (mem_children h1.1 p).2 h2, rfl, rfl⟩

theorem pairs_pairwise {m l : Nat} (hl : 0 < l) :
    (pairs m l).Pairwise fun x y => LexGreater x.1 y.1 ∨ (x.1 = y.1 ∧ LexGreater x.2 y.2) := by
  unfold pairs
  rw [List.pairwise_flatMap]
  refine ⟨fun q hq => ?_, ?_⟩
  · rw [List.pairwise_map]
    exact (children_pairwise ((mem_PL hl q).1 hq).1).imp fun h => Or.inr ⟨rfl, h⟩
  · refine (PL_pairwise m l).imp fun h x hx y hy => ?_
    obtain ⟨_, _, rfl⟩ := List.mem_map.1 hx
    obtain ⟨_, _, rfl⟩ := List.mem_map.1 hy
    exact Or.inl h

theorem lexGreater_sub {p q q' : List Nat} {r r' : Nat}
    (h : AddsBoxAt q p r) (h' : AddsBoxAt q' p r') (hr : r < r') : LexGreater q' q := by
  refine ⟨r, fun j hj => ?_, ?_⟩
  · have h1 := h j
    have h2 := h' j
    rw [if_neg (by omega)] at h1 h2
    omega
  · have h1 := h r
    have h2 := h' r
    rw [if_pos rfl] at h1
    rw [if_neg (by omega)] at h2
    omega

theorem row_zero_of_addsBoxAt {q p : List Nat} {r : Nat} (h : AddsBoxAt q p r) (hr : 0 < r) : row p 0 = row q 0 := by
  have := h 0
  rw [if_neg (by omega)] at this
  omega

/-- the order in which the partitions of the next level are met -/
theorem pairs_order {m l : Nat} (hl : 0 < l) (A : List (List Nat × List Nat)) (x : List Nat × List Nat)
    (B : List (List Nat × List Nat)) (e : pairs m l = A ++ x :: B) (hx : x.2 ∉ A.map Prod.snd)
    (y : List Nat × List Nat) (hy : y ∈ A) : LexGreater y.2 x.2 := by
  have hpw := pairs_pairwise (m := m) hl
  rw [e, List.pairwise_append] at hpw
  obtain ⟨-, hpw2, hpw3⟩ := hpw
  rw [List.pairwise_cons] at hpw2
  have hx1 : x ∈ pairs m l := by rw [e]; simp
  have hy1 : y ∈ pairs m l := by rw [e]; simp [hy]
  obtain ⟨μ, lam⟩ := x
  obtain ⟨μ', lam'⟩ := y
  rw [mem_pairs hl] at hx1 hy1
  obtain ⟨⟨hμ, hμm⟩, hlam, r, hb⟩ := hx1
  obtain ⟨⟨hμ', hμm'⟩, hlam', r', hb'⟩ := hy1
  rcases hpw3 _ hy (μ, lam) (by simp) with h | h
  swap
  · exact h.2
  · simp only at h hx ⊢
    -- the row of the box is the last row
    have hr : r = lam.length - 1 := by
      by_contra hne
      have hlen := hlam.length_pos (by omega)
      have hrl : r < lam.length := by
        have := hb r
        rw [if_pos rfl] at this
        exact (row_pos_iff hlam r).1 (by omega)
      have hrem : CanRem lam (lam.length - 1) := by
        unfold CanRem
        rw [row_of_ge (by omega)]
        exact (row_pos_iff hlam _).2 (by omega)
      obtain ⟨μ0, -, hμ0, hb0⟩ := isPartition_remove hlam hrem
      have hgt : LexGreater μ0 μ := lexGreater_sub hb hb0 (by omega)
      have h0 : m ≤ row μ0 0 := by
        have h1 := row_zero_of_addsBoxAt hb0 (by omega)
        have h2 := hb 0
        omega
      have hmem : (μ0, lam) ∈ pairs m l := (mem_pairs hl _ _).2 ⟨⟨hμ0, h0⟩, hlam, _, hb0⟩
      rw [e, List.mem_append, List.mem_cons] at hmem
      rcases hmem with hm | hm | hm
      · exact hx (List.mem_map.2 ⟨_, hm, rfl⟩)
      · rw [(Prod.mk.inj hm).1] at hgt
        exact lexGreater_irrefl _ hgt
      · rcases hpw2.1 _ hm with hh | hh
        · exact lexGreater_asymm hgt hh
        · simp only at hh
          rw [hh.1] at hgt
          exact lexGreater_irrefl _ hgt
    have hc := canAdd_of_addsBoxAt hlam.sorted hb
    have hrl : r = μ.length - 1 ∨ r = μ.length := by
      have h1 := hc.le_length
      by_contra hne
      push Not at hne
      have h2 := (row_pos_iff hμ lam.length).2 (by have := hlam.length_pos (by omega); omega)
      have h3 := hb lam.length
      rw [row_of_ge (Nat.le_refl _)] at h3
      omega
    have hc' := (canAdd_of_addsBoxAt hlam'.sorted hb').le_length
    rw [eq_add_of_addsBoxAt hlam hμ hb, eq_add_of_addsBoxAt hlam' hμ' hb']
    have hstep := lexGreater_step hμ' hμ h (a := μ'.length) (Or.inr rfl) hrl
    rcases Nat.lt_or_eq_of_le hc' with h5 | h5
    · exact lexGreater_trans (lexGreater_add (Nat.le_refl _) h5) hstep
    · rw [h5]; exact hstep

theorem keys_eq {m l : Nat} (hl : 0 < l) (hm : m ≤ l) : addAll [] ((pairs m l).map Prod.snd) = PL m (l + 1) := by
  obtain ⟨h1, h2⟩ := addAll_pairwise ((pairs m l).map Prod.snd) (by
    intro A x B e hx y hy
    obtain ⟨A', B', e', rfl, h⟩ := List.map_eq_append_iff.1 e
    obtain ⟨x', B'', rfl, rfl, rfl⟩ := List.map_eq_cons_iff.1 h
    obtain ⟨y', hy', rfl⟩ := List.mem_map.1 hy
    exact pairs_order hl A' x' B'' e' hx y' hy')
  refine lex_list_ext h1 (PL_pairwise _ _) fun p => ?_
  rw [h2, mem_PL (by omega), List.mem_map]
  constructor
  · rintro ⟨⟨q, p'⟩, hmem, rfl⟩
    rw [mem_pairs hl] at hmem
    obtain ⟨⟨hq, hqm⟩, hp, r, hb⟩ := hmem
    refine ⟨hp, ?_⟩
    have := hb 0
    simp only
    omega
  · rintro ⟨hp, hpm⟩
    -- remove the box of the last row
    have hlen := hp.length_pos (by omega)
    have hrem : CanRem p (p.length - 1) := by
      unfold CanRem
      rw [row_of_ge (by omega)]
      exact (row_pos_iff hp _).2 (by omega)
    obtain ⟨q, -, hq, hb⟩ := isPartition_remove hp hrem
    refine ⟨(q, p), (mem_pairs hl _ _).2 ⟨⟨hq, ?_⟩, hp, _, hb⟩, rfl⟩
    rcases Nat.eq_zero_or_pos (p.length - 1) with h0 | h0
    · have h3 := hb 0
      rw [h0, if_pos rfl] at h3
      have h4 : q = [l] := by
        have hql : q.length ≤ 1 := by
          by_contra hc
          have h5 := (row_pos_iff hq 1).2 (by omega)
          have h6 := hb 1
          rw [row_of_ge (by omega)] at h6
          omega
        have h7 := hq.length_pos hl
        rcases q with _ | ⟨a, _ | ⟨b, q⟩⟩
        · simp at h7
        · have := hq.sum; simp at this; rw [this]
        · simp at hql
      rw [h4]; simpa using hm
    · rw [← row_zero_of_addsBoxAt hb h0]; exact hpm

theorem pairs_filter {m l : Nat} (hl : 0 < l) {p : List Nat} (hp : IsPartition (l + 1) p) :
    ((pairs m l).filter fun x => decide (x.2 = p)).map Prod.fst = subsM m p := by
  refine lex_list_ext ?_ ((subs_pairwise p).filter _) fun q => ?_
  · rw [List.pairwise_map]
    refine List.Pairwise.imp_of_mem ?_ ((pairs_pairwise (m := m) hl).filter _)
    intro a b ha hb h
    rw [List.mem_filter, decide_eq_true_iff] at ha hb
    rcases h with h | h
    · exact h
    · have := h.2
      rw [ha.2, hb.2] at this
      exact absurd this (lexGreater_irrefl p)
  · unfold subsM
    rw [List.mem_map, List.mem_filter, decide_eq_true_iff, mem_subs hp]
    constructor
    · rintro ⟨⟨q', p'⟩, hmem, rfl⟩
      rw [List.mem_filter, decide_eq_true_iff, mem_pairs hl] at hmem
      obtain ⟨⟨⟨h1, h2⟩, h3, h4⟩, rfl⟩ := hmem
      exact ⟨⟨h1, h4⟩, h2⟩
    · rintro ⟨⟨h1, h4⟩, h2⟩
      refine ⟨(q, p), ?_, rfl⟩
      rw [List.mem_filter, decide_eq_true_iff, mem_pairs hl]
      exact ⟨⟨⟨h1, h2⟩, hp, h4⟩, rfl⟩


/-! ## Columns -/

/-- the first `m` letters of a word (the last ones of the list) are zero -/
def goodW (m : Nat) (u : List Nat) : Bool := (u.drop (u.length - m)).all (· == 0)

/-- the words of `p` with the first `m` letters in row zero -/
def colW (m n : Nat) (p : List Nat) : List (List Nat) := (words n p).filter (goodW m)

theorem goodW_cons {m r : Nat} {u : List Nat} (h : m ≤ u.length) : goodW m (r :: u) = goodW m u := by
  unfold goodW
  rw [List.length_cons, show u.length + 1 - m = (u.length - m) + 1 by omega, List.drop_succ_cons]

theorem goodW_count {m : Nat} {u : List Nat} (h : goodW m u = true) (hm : m ≤ u.length) : m ≤ u.count 0 := by
  unfold goodW at h
  rw [List.all_eq_true] at h
  have h1 : (u.drop (u.length - m)).count 0 = (u.drop (u.length - m)).length := by
    rw [List.count_eq_length]
    intro x hx
    have := h x hx
    simpa using (beq_iff_eq.1 this).symm
  have h2 := (List.drop_sublist (u.length - m) u).count_le 0
  rw [h1, List.length_drop] at h2
  omega

theorem word_length {n : Nat} {p u : List Nat} (hp : IsPartition n p) (hu : u ∈ words n p) : u.length = n :=
  Wd.length hp ⟨u, hu⟩

theorem colW_succ {m l : Nat} (hm : m ≤ l) {p : List Nat} (hp : IsPartition (l + 1) p) :
    colW m (l + 1) p = (subsM m p).flatMap fun q => (colW m l q).map (growRow q p :: ·) := by
  have h1 : colW m (l + 1) p = (subs p).flatMap fun q => (colW m l q).map (growRow q p :: ·) := by
    unfold colW
    rw [words, List.filter_flatMap]
    refine List.flatMap_congr fun q hq => ?_
    rw [List.filter_map]
    congr 1
    refine List.filter_congr fun u hu => ?_
    have := word_length ((mem_subs hp q).1 hq).1 hu
    exact goodW_cons (by omega)
  rw [h1]
  unfold subsM
  have : ∀ S : List (List Nat), (∀ q ∈ S, IsPartition l q) →
      (S.flatMap fun q => (colW m l q).map (growRow q p :: ·)) =
        (S.filter fun q => decide (m ≤ row q 0)).flatMap fun q => (colW m l q).map (growRow q p :: ·) := by
    intro S hS
    induction S with
    | nil => rfl
    | cons q S ih =>
      rw [List.flatMap_cons, ih fun q' h => hS q' (by simp [h])]
      by_cases hq : m ≤ row q 0
      · rw [List.filter_cons_of_pos (by simpa using hq), List.flatMap_cons]
      · rw [List.filter_cons_of_neg (by simpa using hq)]
        have : colW m l q = [] := by
          unfold colW
          rw [List.filter_eq_nil_iff]
          intro u hu hg
          have hq' := hS q (by simp)
          have h2 := ((mem_words hq' u).1 hu).2 0
          have h3 := goodW_count hg (by rw [word_length hq' hu]; omega)
          omega
        rw [this]; rfl
  exact this _ fun q hq => ((mem_subs hp q).1 hq).1

theorem colW_one {n : Nat} (hn : 0 < n) {p : List Nat} (hp : IsPartition n p) : colW 1 n p = words n p := by
  unfold colW
  rw [List.filter_eq_self]
  intro u hu
  have hl := word_length hp hu
  have hlat := ((mem_words hp u).1 hu).1
  have key : ∀ u : List Nat, Lat u → 0 < u.length → goodW 1 u = true := by
    intro u
    induction u with
    | nil => intro _ h; simp at h
    | cons r u ih =>
      intro hlat _
      rcases u with _ | ⟨s, u⟩
      · rcases hlat.2 with h | h
        · subst h; rfl
        · simp at h
      · rw [goodW_cons (by simp)]
        exact ih hlat.1 (by simp)
  exact key u hlat (by omega)

theorem words_self {m : Nat} (hm : 0 < m) : words m [m] = [List.replicate m 0] := by
  have hp := isPartition_row hm
  have h1 : ∀ u ∈ words m [m], u = List.replicate m 0 := by
    intro u hu
    rw [List.eq_replicate_iff]
    refine ⟨word_length hp hu, fun x hx => ?_⟩
    by_contra hne
    have := ((mem_words hp u).1 hu).2 x
    have h2 : 0 < u.count x := List.count_pos_iff.2 hx
    rw [this] at h2
    have h3 := (row_pos_iff hp x).1 h2
    simp at h3
    exact hne h3
  have h2 := words_nodup hp
  have h3 := words_ne_nil hp
  revert h1 h2 h3
  generalize words m [m] = w
  intro h1 h2 h3
  rcases w with _ | ⟨a, _ | ⟨b, w⟩⟩
  · exact absurd rfl h3
  · rw [h1 a (by simp)]
  · have := h1 a (by simp)
    have := h1 b (by simp)
    simp_all

theorem colW_self {m : Nat} (hm : 0 < m) : colW m m [m] = [List.replicate m 0] := by
  unfold colW
  rw [words_self hm, List.filter_cons_of_pos]
  · rfl
  · unfold goodW
    simp

end Snob
