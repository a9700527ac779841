import Verif.Proofs.FFTUp

/-! # The shape `[n-2,2]` -/

namespace Snob

open IP Snob.Perm

/-- `u` comes before `v` in the list of words: at the first difference it has the larger letter -/
def WordBefore (u v : List Nat) : Prop := ∃ x a b y z, u = x ++ a :: y ∧ v = x ++ b :: z ∧ b < a

theorem WordBefore.cons {u v : List Nat} (r : Nat) (h : WordBefore u v) : WordBefore (r :: u) (r :: v) := by
  obtain ⟨x, a, b, y, z, rfl, rfl, h⟩ := h
  exact ⟨r :: x, a, b, y, z, rfl, rfl, h⟩

theorem WordBefore.append {u v : List Nat} (x : List Nat) (h : WordBefore u v) : WordBefore (x ++ u) (x ++ v) := by
  induction x with
  | nil => exact h
  | cons r x ih => exact ih.cons r

theorem WordBefore.head {a b : Nat} (h : b < a) (y z : List Nat) : WordBefore (a :: y) (b :: z) :=
  ⟨[], a, b, y, z, rfl, rfl, h⟩

theorem WordBefore.ne {u v : List Nat} (h : WordBefore u v) : u ≠ v := by
  obtain ⟨x, a, b, y, z, rfl, rfl, h⟩ := h
  intro e
  have := (List.cons.inj (List.append_cancel_left e)).1
  omega

theorem WordBefore.asymm {u v : List Nat} (h : WordBefore u v) : ¬ WordBefore v u := by
  obtain ⟨x, a, b, y, z, rfl, rfl, h⟩ := h
  rintro ⟨x', a', b', y', z', e1, e2, h'⟩
  induction x generalizing x' with
  | nil =>
    rcases x' with _ | ⟨c, x'⟩
    · have k1 := (List.cons.inj e1).1
      have k2 := (List.cons.inj e2).1
      omega
    · have k1 := (List.cons.inj e1).1
      have k2 := (List.cons.inj e2).1
      omega
  | cons c x ih =>
    rcases x' with _ | ⟨c', x'⟩
    · have k1 := (List.cons.inj e1).1
      have k2 := (List.cons.inj e2).1
      omega
    · exact ih x' (List.cons.inj e1).2 (List.cons.inj e2).2

theorem words_pairwise {n : Nat} {p : List Nat} (hp : IsPartition n p) : (words n p).Pairwise WordBefore := by
  induction n generalizing p with
  | zero => exact List.pairwise_singleton _ _
  | succ n ih =>
    rw [words, List.pairwise_flatMap]
    refine ⟨fun q hq => ?_, ?_⟩
    · rw [List.pairwise_map]
      exact (ih ((mem_subs hp q).1 hq).1).imp fun h => h.cons _
    · refine List.Pairwise.imp_of_mem ?_ (subs_pairwise p)
      intro q q' hq hq' hgt x hx y hy
      obtain ⟨x', -, rfl⟩ := List.mem_map.1 hx
      obtain ⟨y', -, rfl⟩ := List.mem_map.1 hy
      obtain ⟨h1, r, hb⟩ := (mem_subs hp q).1 hq
      obtain ⟨h1', r', hb'⟩ := (mem_subs hp q').1 hq'
      rw [growRow_eq h1 hp hb, growRow_eq h1' hp hb']
      refine WordBefore.head ?_ _ _
      by_contra hlt
      rcases Nat.lt_or_eq_of_le (Nat.le_of_not_lt hlt) with e | e
      · exact lexGreater_asymm hgt (lexGreater_sub hb hb' e)
      · subst e
        have := sub_unique h1 h1' hb hb'
        subst this
        exact lexGreater_irrefl _ hgt

theorem idxOf_lt_of_pairwise {α : Type} [BEq α] [LawfulBEq α] {r : α → α → Prop} (hr : ∀ a b, r a b → ¬ r b a) (hi : ∀ a b, r a b → a ≠ b)
    {l : List α} (h : l.Pairwise r) {x y : α} (hx : x ∈ l) (hy : y ∈ l) (hxy : r x y) : l.idxOf x < l.idxOf y := by
  have h1 := List.idxOf_lt_length_of_mem hx
  have h2 := List.idxOf_lt_length_of_mem hy
  rcases Nat.lt_trichotomy (l.idxOf x) (l.idxOf y) with e | e | e
  · exact e
  · exfalso
    have h3 : l[l.idxOf x] = x := List.getElem_idxOf h1
    have h4 : l[l.idxOf y] = y := List.getElem_idxOf h2
    refine hi x y hxy ?_
    rw [← h3, ← h4]
    simp only [e]
  · exfalso
    have := List.pairwise_iff_getElem.1 h _ _ h2 h1 e
    rw [List.getElem_idxOf, List.getElem_idxOf] at this
    exact hr _ _ hxy this

theorem words_idxOf_lt {n : Nat} {p : List Nat} (hp : IsPartition n p) {x y : List Nat} (hx : x ∈ words n p) (hy : y ∈ words n p)
    (h : WordBefore x y) : (words n p).idxOf x < (words n p).idxOf y :=
  idxOf_lt_of_pairwise (fun _ _ h => h.asymm) (fun _ _ h => h.ne) (words_pairwise hp) hx hy h

theorem isPartition_two {n : Nat} (hn : 4 ≤ n) : IsPartition n [n - 2, 2] := by
  refine ⟨?_, ?_, ?_⟩
  · simp; omega
  · simp; omega
  · simp; omega

theorem lat_replicate_zero (k : Nat) (u : List Nat) : Lat (List.replicate k 0 ++ u) ↔ Lat u := by
  induction k with
  | zero => simp
  | succ k ih =>
    rw [List.replicate_succ, List.cons_append]
    simp [Lat, ih]

theorem mem_words_two {n : Nat} (hn : 4 ≤ n) {u : List Nat} (hl : Lat u) (h0 : u.count 0 = n - 2) (h1 : u.count 1 = 2)
    (hlen : u.length = n) : u ∈ words n [n - 2, 2] := by
  refine (mem_words (isPartition_two hn) u).2 ⟨hl, fun i => ?_⟩
  rcases i with _ | _ | i
  · simpa using h0
  · simpa using h1
  · have h2 : row [n - 2, 2] (i + 1 + 1) = 0 := row_of_ge (by simp)
    rw [h2, List.count_eq_zero]
    intro hm
    have key : ∀ u : List Nat, u.count 0 + u.count 1 + u.count (i + 2) ≤ u.length := by
      intro u
      induction u with
      | nil => simp
      | cons a u ih =>
        simp only [List.count_cons, List.length_cons]
        rcases a with _ | _ | a
        · simp; omega
        · simp; omega
        · simp
          split <;> omega
    have := key u
    have h3 : 0 < u.count (i + 1 + 1) := List.count_pos_iff.2 hm
    have h4 : i + 1 + 1 = i + 2 := rfl
    rw [h4] at h3
    omega

/-- the four words that show that the pairs of the transposition `(2,3)` are not packed -/
theorem not_packed_two {n : Nat} (hn : 5 ≤ n) : ¬ ∀ i < (words n [n - 2, 2]).length, ∀ j < (words n [n - 2, 2]).length,
    i < partnerW (words n [n - 2, 2]) 2 i → partnerW (words n [n - 2, 2]) 2 j < j → i < j := by
  obtain ⟨k, rfl⟩ : ∃ k, n = k + 5 := ⟨n - 5, by omega⟩
  have hp := isPartition_two (n := k + 5) (by omega)
  have mem : ∀ a b c d : Nat, (a = 1 ∧ b = 0 ∨ a = 0 ∧ b = 1) → (c = 1 ∧ d = 0 ∨ c = 0 ∧ d = 1) →
      a :: b :: (List.replicate k 0 ++ [c, d, 0]) ∈ words (k + 5) [k + 5 - 2, 2] := by
    intro a b c d hab hcd
    have hl : Lat (List.replicate k 0 ++ [c, d, 0]) := by
      rw [lat_replicate_zero]
      rcases hcd with ⟨rfl, rfl⟩ | ⟨rfl, rfl⟩ <;> simp [Lat]
    have c0 : (List.replicate k 0 ++ [c, d, 0]).count 0 = k + 2 := by
      rw [List.count_append, List.count_replicate_self]
      rcases hcd with ⟨rfl, rfl⟩ | ⟨rfl, rfl⟩ <;> simp
    have c1 : (List.replicate k 0 ++ [c, d, 0]).count 1 = 1 := by
      rw [List.count_append, List.count_replicate]
      rcases hcd with ⟨rfl, rfl⟩ | ⟨rfl, rfl⟩ <;> simp
    refine mem_words_two (by omega) ?_ ?_ ?_ ?_
    · rcases hab with ⟨rfl, rfl⟩ | ⟨rfl, rfl⟩
      · refine ⟨⟨hl, Or.inl rfl⟩, Or.inr ⟨by omega, ?_⟩⟩
        simp only [List.count_cons]
        rw [c1, c0]; simp
      · refine ⟨⟨hl, Or.inr ⟨by omega, ?_⟩⟩, Or.inl rfl⟩
        rw [c1, c0]; omega
    · rcases hab with ⟨rfl, rfl⟩ | ⟨rfl, rfl⟩ <;> simp only [List.count_cons] <;> rw [c0] <;> simp
    · rcases hab with ⟨rfl, rfl⟩ | ⟨rfl, rfl⟩ <;> simp only [List.count_cons] <;> rw [c1] <;> simp
    · simp
  have sw : ∀ a b c d : Nat, swapWord 2 (a :: b :: (List.replicate k 0 ++ [c, d, 0])) = a :: b :: (List.replicate k 0 ++ [d, c, 0]) := by
    intro a b c d
    have := swapWord_eq (a :: b :: List.replicate k 0) [0] d c
    simpa using this
  have part : ∀ a b c d : Nat, (a = 1 ∧ b = 0 ∨ a = 0 ∧ b = 1) → (c = 1 ∧ d = 0 ∨ c = 0 ∧ d = 1) →
      partnerW (words (k + 5) [k + 5 - 2, 2]) 2 ((words (k + 5) [k + 5 - 2, 2]).idxOf (a :: b :: (List.replicate k 0 ++ [c, d, 0]))) =
        (words (k + 5) [k + 5 - 2, 2]).idxOf (a :: b :: (List.replicate k 0 ++ [d, c, 0])) := by
    intro a b c d hab hcd
    have h1 := List.idxOf_lt_length_of_mem (mem a b c d hab hcd)
    have h2 := List.idxOf_lt_length_of_mem (mem a b d c hab (by omega))
    unfold partnerW
    rw [List.getElem?_eq_getElem h1, List.getElem_idxOf]
    simp only
    rw [sw, if_pos h2]
  intro hall
  have lt : ∀ a b : Nat, (a = 1 ∧ b = 0 ∨ a = 0 ∧ b = 1) →
      (words (k + 5) [k + 5 - 2, 2]).idxOf (a :: b :: (List.replicate k 0 ++ [1, 0, 0])) <
        (words (k + 5) [k + 5 - 2, 2]).idxOf (a :: b :: (List.replicate k 0 ++ [0, 1, 0])) := by
    intro a b hab
    refine words_idxOf_lt hp (mem _ _ _ _ hab (by omega)) (mem _ _ _ _ hab (by omega)) ?_
    exact (((WordBefore.head (by omega) _ _).append _).cons _).cons _
  have h1 := hall _ (List.idxOf_lt_length_of_mem (mem 0 1 1 0 (by omega) (by omega)))
    _ (List.idxOf_lt_length_of_mem (mem 1 0 0 1 (by omega) (by omega)))
    (by rw [part 0 1 1 0 (by omega) (by omega)]; exact lt 0 1 (by omega))
    (by rw [part 1 0 0 1 (by omega) (by omega)]; exact lt 1 0 (by omega))
  have h2 := words_idxOf_lt hp (mem 1 0 0 1 (by omega) (by omega)) (mem 0 1 1 0 (by omega) (by omega)) (WordBefore.head (by omega) _ _)
  omega

/-! ## The first word -/

/-- the tableau with `n-1`, `n` in the second row -/
abbrev topWord (n : Nat) : List Nat := 1 :: 1 :: List.replicate (n - 2) 0

theorem topWord_mem {n : Nat} (hn : 4 ≤ n) : topWord n ∈ words n [n - 2, 2] := by
  have hl : Lat (List.replicate (n - 2) 0) := by
    have := (lat_replicate_zero (n - 2) []).2 trivial
    simpa using this
  refine mem_words_two hn ⟨⟨hl, Or.inr ⟨by omega, ?_⟩⟩, Or.inr ⟨by omega, ?_⟩⟩ ?_ ?_ ?_
  · simp [List.count_replicate]; omega
  · simp [List.count_replicate]; omega
  · simp
  · simp [List.count_replicate]
  · simp; omega

abbrev topW {n : Nat} (hn : 4 ≤ n) : Wd n [n - 2, 2] := ⟨topWord n, topWord_mem hn⟩

theorem posW_replicate (k m : Nat) (h1 : 1 ≤ m) (h2 : m ≤ k) : posW (List.replicate k 0) m = (0, m - 1) := by
  induction k with
  | zero => omega
  | succ k ih =>
    rw [List.replicate_succ, posW]
    simp only [List.length_replicate, List.count_replicate_self]
    by_cases e : m = k + 1
    · rw [if_pos e, e]; simp
    · rw [if_neg e, ih (by omega)]

theorem cont_topW {n : Nat} (hn : 4 ≤ n) :
    (∀ k, 1 ≤ k → k ≤ n - 2 → (topW hn).cont k = k - 1) ∧ (topW hn).cont (n - 1) = -1 ∧ (topW hn).cont n = 0 := by
  obtain ⟨k, rfl⟩ : ∃ k, n = k + 4 := ⟨n - 4, by omega⟩
  refine ⟨fun j h1 h2 => ?_, ?_, ?_⟩
  · unfold Wd.cont contW
    show ((posW (1 :: 1 :: List.replicate (k + 4 - 2) 0) j).2 : Int) - (posW (1 :: 1 :: List.replicate (k + 4 - 2) 0) j).1 = _
    rw [posW, if_neg (by simp; omega), posW, if_neg (by simp; omega), posW_replicate _ _ h1 h2]
    simp only
    omega
  · unfold Wd.cont contW
    show ((posW (1 :: 1 :: List.replicate (k + 4 - 2) 0) (k + 4 - 1)).2 : Int) - (posW (1 :: 1 :: List.replicate (k + 4 - 2) 0) (k + 4 - 1)).1 = _
    rw [posW, if_neg (by simp), posW, if_pos (by simp)]
    simp [List.count_replicate]
  · unfold Wd.cont contW
    show ((posW (1 :: 1 :: List.replicate (k + 4 - 2) 0) (k + 4)).2 : Int) - (posW (1 :: 1 :: List.replicate (k + 4 - 2) 0) (k + 4)).1 = _
    rw [posW, if_pos (by simp)]
    simp [List.count_replicate]

/-- a word whose letters `k`, `k+1` are neighbours in a row -/
theorem yorM_row_one {n : Nat} {p : List Nat} (u : Wd n p) {k : Nat} (h : u.cont (k + 1) - u.cont k = 1) (v : Wd n p) :
    yorM n p k u v = if v = u then 1 else 0 := by
  unfold yorM
  rw [h, diagc_of_unit (Or.inl rfl), offc_zero_of_unit (Or.inl rfl)]
  simp

theorem yorM_col_one {n : Nat} {p : List Nat} (u : Wd n p) {k : Nat} (h : u.cont (k + 1) - u.cont k = 1) (v : Wd n p) :
    yorM n p k v u = if v = u then 1 else 0 := by
  have := congrFun (congrFun (yorM_symm (n := n) (p := p) k) u) v
  rw [Matrix.transpose_apply] at this
  rw [this, yorM_row_one u h]

theorem slicePerm_zero (l : Nat) : slicePerm l 0 = 1 := by
  unfold slicePerm
  exact cyc_self _

theorem slicePerm_succ {l j : Nat} (hj : j < l) : slicePerm l (j + 1) = adj (l + 1) (l - (j + 1)) * slicePerm l j := by
  have h1 := run_adj (n := l + 1) (t := l - (j + 1)) (m := j + 1) (by omega)
  have h2 := run_adj (n := l + 1) (t := l - j) (m := j) (by omega)
  have e1 : slicePerm l (j + 1) = run (adj (l + 1)) (l - (j + 1)) (j + 1) := by
    rw [h1]; unfold slicePerm; congr 1; exact Fin.ext (by simp; omega)
  have e2 : slicePerm l j = run (adj (l + 1)) (l - j) j := by
    rw [h2]; unfold slicePerm; congr 1; exact Fin.ext (by simp; omega)
  rw [e1, e2, run, show l - (j + 1) + 1 = l - j by omega]

/-- the corner entry of the matrices by which slices are multiplied -/
theorem corner_ne_zero {l : Nat} (hl : 4 ≤ l + 1) (j : Nat) (h1 : 1 ≤ j) (h2 : j ≤ l) :
    rho (isPartition_two hl) (slicePerm l j) (topW hl) (topW hl) = if j = 1 then 1 else -1 / ((l : ℝ) - 1) := by
  obtain ⟨c1, c2, c3⟩ := cont_topW hl
  have hl1 : l + 1 - 1 = l := by omega
  rw [hl1] at c2
  induction j, h1 using Nat.le_induction with
  | base =>
    rw [slicePerm_succ (by omega), slicePerm_zero, mul_one, rho_adj _ (by omega), yorM_row_one _ ?_, if_pos rfl, if_pos rfl]
    rw [show l - (0 + 1) + 1 = l by omega, c2, c3]; norm_num
  | succ j hj ih =>
    rw [if_neg (by omega), slicePerm_succ (by omega), map_mul, rho_adj _ (by omega), Matrix.mul_apply]
    by_cases e : j = 1
    · subst e
      have hcol : ∀ x, rho (isPartition_two hl) (slicePerm l 1) x (topW hl) = if x = topW hl then 1 else 0 := by
        intro x
        rw [slicePerm_succ (by omega), slicePerm_zero, mul_one, rho_adj _ (by omega), yorM_col_one]
        rw [show l - (0 + 1) + 1 = l by omega, c2, c3]; norm_num
      rw [Finset.sum_eq_single (topW hl)]
      · rw [hcol, if_pos rfl, mul_one]
        unfold yorM
        rw [if_pos rfl, show l - (1 + 1) + 1 = l - 1 by omega, show l - 1 + 1 = l by omega, c2, c1 (l - 1) (by omega) (by omega)]
        unfold diagc
        rw [Nat.cast_sub (by omega)]
        push_cast
        rw [neg_div, ← div_neg]
        congr 1
        ring
      · intro x _ hx
        rw [hcol, if_neg hx, mul_zero]
      · simp
    · have := ih (by omega)
      rw [if_neg e] at this
      rw [Finset.sum_eq_single (topW hl)]
      · rw [this, yorM_row_one, if_pos rfl, one_mul]
        rw [c1 _ (by omega) (by omega), c1 _ (by omega) (by omega)]
        push_cast
        omega
      · intro x _ hx
        rw [yorM_row_one, if_neg hx, zero_mul]
        rw [c1 _ (by omega) (by omega), c1 _ (by omega) (by omega)]
        push_cast
        omega
      · simp

theorem corner_ne {l : Nat} (hl : 4 ≤ l + 1) (j : Nat) (h1 : 1 ≤ j) (h2 : j ≤ l) :
    rho (isPartition_two hl) (slicePerm l j) (topW hl) (topW hl) ≠ 0 := by
  rw [corner_ne_zero hl j h1 h2]
  split
  · exact one_ne_zero
  · have : (3 : ℝ) ≤ l := by exact_mod_cast (by omega : 3 ≤ l)
    refine div_ne_zero (by norm_num) ?_
    linarith

/-- the first word of the list -/
theorem rowIx_topW {n : Nat} (hn : 4 ≤ n) : rowIx n [n - 2, 2] (topW hn).1 = 0 := by
  have hp := isPartition_two hn
  by_contra hne
  have hlt : 0 < (words n [n - 2, 2]).length := List.length_pos_of_mem (topWord_mem hn)
  have hu : (words n [n - 2, 2])[0] ∈ words n [n - 2, 2] := List.getElem_mem hlt
  have hidx := List.idxOf_lt_length_of_mem (topWord_mem hn)
  have hlt' : 0 < (words n [n - 2, 2]).idxOf (topWord n) := Nat.pos_of_ne_zero hne
  have := List.pairwise_iff_getElem.1 (words_pairwise hp) 0 _ hlt hidx hlt'
  rw [List.getElem_idxOf] at this
  generalize (words n [n - 2, 2])[0] = u at *
  obtain ⟨-, hcnt⟩ := (mem_words hp u).1 hu
  obtain ⟨x, a, b, y, z, rfl, e, hab⟩ := this
  -- the letters are at most one, and only two are not zero
  have hone : ∀ c ∈ x ++ a :: y, c ≤ 1 := by
    intro c hc
    by_contra hc1
    have h3 := List.count_pos_iff.2 hc
    rw [hcnt c, row_of_ge (by simp; omega)] at h3
    omega
  have ha := hone a (by simp)
  have h1 := hcnt 1
  simp only [row, List.getD_cons_succ, List.getD_cons_zero] at h1
  have hb0 : b = 0 := by omega
  subst hb0
  rcases x with _ | ⟨x0, _ | ⟨x1, x⟩⟩
  · simp at e
  · simp at e
  · simp only [List.cons_append, List.cons.injEq] at e
    obtain ⟨rfl, rfl, -⟩ := e
    rw [show a = 1 by omega] at h1
    simp [List.count_append] at h1

theorem topW_good {n m : Nat} (hn : 4 ≤ n) (hm : m ≤ n - 2) : goodW m (topW hn).1 = true := by
  unfold goodW
  show ((1 :: 1 :: List.replicate (n - 2) 0).drop _).all _ = true
  have : (1 :: 1 :: List.replicate (n - 2) 0).length - m = (n - 2 - m) + 2 := by simp; omega
  rw [this, List.drop_succ_cons, List.drop_succ_cons]
  simp

end Snob
