import Verif.Proofs.Word

namespace Snob

open IP

theorem Lat.suffix {v x : List Nat} (h : Lat (v ++ x)) : Lat x := by
  induction v with
  | nil => exact h
  | cons a v ih => exact ih h.1

theorem Lat.replace {v x y : List Nat} (h : Lat (v ++ x)) (hy : Lat y)
    (hc : ∀ i, x.count i = y.count i) : Lat (v ++ y) := by
  induction v with
  | nil => exact hy
  | cons a v ih =>
    rw [List.cons_append] at h ⊢
    refine ⟨ih h.1, ?_⟩
    have := h.2
    rw [List.count_append, List.count_append, hc, hc] at this
    rw [List.count_append, List.count_append]
    exact this

theorem posW_append {v x : List Nat} {m : Nat} (h : m ≤ x.length) : posW (v ++ x) m = posW x m := by
  induction v with
  | nil => rfl
  | cons a v ih => rw [List.cons_append, posW_cons_ne (by simp; omega), ih]

theorem posW_replace {v x y : List Nat} (hc : ∀ i, x.count i = y.count i)
    (hl : x.length = y.length) {m : Nat} (h : x.length < m) :
    posW (v ++ x) m = posW (v ++ y) m := by
  induction v with
  | nil =>
    have key : ∀ z : List Nat, z.length < m → posW z m = (0, 0) := by
      intro z
      induction z with
      | nil => intro _; rfl
      | cons a z ihz =>
        intro hz
        unfold posW
        rw [if_neg (by simp at hz; omega)]
        exact ihz (by simp at hz; omega)
    rw [List.nil_append, List.nil_append, key x h, key y (by omega)]
  | cons a v ih =>
    rw [List.cons_append, List.cons_append]
    unfold posW
    rw [List.length_append, List.length_append, hl, List.count_append, List.count_append, hc]
    split
    · rfl
    · exact ih

theorem split_word {u : List Nat} {i : Nat} (h1 : 1 ≤ i) (h2 : i + 1 ≤ u.length) :
    ∃ v b a x, u = v ++ b :: a :: x ∧ x.length + 1 = i := by
  induction u with
  | nil => simp at h2
  | cons b u ih =>
    by_cases e : i = u.length
    · rcases u with _ | ⟨a, x⟩
      · simp at e; omega
      · exact ⟨[], b, a, x, rfl, by simpa using e.symm⟩
    · obtain ⟨v, b', a, x, rfl, h⟩ := ih (by simp at h2; omega)
      exact ⟨b :: v, b', a, x, rfl, h⟩

section local_structure
variable {v x : List Nat} {a b : Nat}

theorem posW_lower : posW (v ++ b :: a :: x) (x.length + 1) = (a, x.count a) := by
  rw [posW_append (by simp), posW_cons_ne (by simp), posW_cons_top]

theorem posW_upper : posW (v ++ b :: a :: x) (x.length + 2) = (b, (a :: x).count b) := by
  rw [posW_append (by simp)]
  exact posW_cons_top (u := a :: x)

theorem contW_lower : contW (v ++ b :: a :: x) (x.length + 1) = (x.count a : Int) - a := by
  unfold contW; rw [posW_lower]

theorem contW_upper : contW (v ++ b :: a :: x) (x.length + 2) = ((a :: x).count b : Int) - b := by
  unfold contW; rw [posW_upper]

/-- strict decrease of `count - row` along the rows of a lattice word -/
theorem Lat.content_lt (h : Lat x) {r s : Nat} (hrs : r < s) :
    (x.count s : Int) - s < (x.count r : Int) - r := by
  have := h.anti_le (Nat.le_of_lt hrs)
  omega

/-- the four cases for two neighbouring letters -/
theorem Lat.cases (h : Lat (v ++ b :: a :: x)) :
    (a = b ∧ ((a :: x).count b : Int) - b - ((x.count a : Int) - a) = 1) ∨
    (b = a + 1 ∧ x.count b = x.count a ∧
      ((a :: x).count b : Int) - b - ((x.count a : Int) - a) = -1) ∨
    (a ≠ b ∧ Lat (v ++ a :: b :: x) ∧ (a :: x).count b = x.count b ∧
      (((a :: x).count b : Int) - b - ((x.count a : Int) - a) < -1 ∨
       1 < ((a :: x).count b : Int) - b - ((x.count a : Int) - a))) := by
  have hs := h.suffix
  have hx : Lat x := hs.1.1
  have ha := hs.1.2
  have hb := hs.2
  by_cases e : a = b
  · left
    subst e
    refine ⟨rfl, ?_⟩
    rw [List.count_cons_self]
    omega
  · right
    have hcb : (a :: x).count b = x.count b := List.count_cons_of_ne e
    rw [hcb] at hb ⊢
    by_cases e2 : b = a + 1 ∧ x.count b = x.count a
    · left
      refine ⟨e2.1, e2.2, ?_⟩
      omega
    · right
      have hcond : b = 0 ∨ 0 < b ∧ x.count b < x.count (b - 1) := by
        rcases hb with hb | ⟨hb, hb'⟩
        · exact Or.inl hb
        · refine Or.inr ⟨hb, ?_⟩
          by_cases e3 : b - 1 = a
          · subst e3
            have h1 := hx.anti (b - 1)
            have : b - 1 + 1 = b := by omega
            rw [this] at h1
            have : x.count b ≠ x.count (b - 1) := fun h => e2 ⟨by omega, h⟩
            omega
          · rwa [List.count_cons_of_ne (Ne.symm e3)] at hb'
      have hlatb : Lat (b :: x) := ⟨hx, hcond⟩
      have hlatab : Lat (a :: b :: x) := by
        refine ⟨hlatb, ?_⟩
        rw [List.count_cons_of_ne (Ne.symm e)]
        rcases ha with ha | ⟨ha, ha'⟩
        · exact Or.inl ha
        · refine Or.inr ⟨ha, ?_⟩
          rw [List.count_cons]
          omega
      refine ⟨e, h.replace hlatab ?_, rfl, ?_⟩
      · intro i
        simp only [List.count_cons]
        omega
      · -- distance at least two
        rcases lt_or_gt_of_ne e with hlt | hlt
        · left
          have h1 := hx.anti_le (Nat.le_of_lt hlt)
          by_cases e4 : b = a + 1
          · have : x.count b ≠ x.count a := fun h => e2 ⟨e4, h⟩
            omega
          · omega
        · right
          -- b < a
          rcases ha with ha | ⟨ha, ha'⟩
          · omega
          · have h2 := hx.anti_le (by omega : b ≤ a - 1)
            omega

theorem Lat.cont_ne (h : Lat (v ++ b :: a :: x)) :
    ((a :: x).count b : Int) - b ≠ (x.count a : Int) - a := by
  rcases h.cases with ⟨_, h⟩ | ⟨_, _, h⟩ | ⟨_, _, _, h⟩ <;> omega

/-- contents of entries two apart differ -/
theorem Lat.cont_ne2 {c : Nat} (h : Lat (v ++ c :: b :: a :: x)) :
    ((b :: a :: x).count c : Int) - c ≠ (x.count a : Int) - a := by
  have hs := h.suffix
  have hx : Lat x := hs.1.1.1
  have hax : Lat (a :: x) := hs.1.1
  have hbax : Lat (b :: a :: x) := hs.1
  have hc := hs.2
  rw [List.count_cons, List.count_cons]
  rw [List.count_cons, List.count_cons, List.count_cons, List.count_cons] at hc
  by_cases e : a = c
  · subst e; simp; split <;> omega
  · have e' : (a == c) = false := by simpa using e
    by_cases e2 : b = c
    · subst e2
      simp only [e', beq_self_eq_true, if_true]
      simp only [e', beq_self_eq_true, if_true] at hc
      rcases lt_or_gt_of_ne e with hlt | hlt
      · have h1 := hx.anti_le (Nat.le_of_lt hlt)
        by_cases e4 : b = a + 1
        · subst e4
          rcases hc with hc | ⟨_, hc⟩
          · omega
          · simp at hc
            simp
            omega
        · simp
          omega
      · have h1 := hx.anti_le (Nat.le_of_lt hlt)
        simp
        omega
    · have e2' : (b == c) = false := by simpa using e2
      simp only [e', e2']
      rcases lt_or_gt_of_ne e with hlt | hlt
      · have h1 := hx.content_lt hlt
        simp
        omega
      · have h1 := hx.content_lt hlt
        simp
        omega

/-- exchanging two different neighbouring letters exchanges the positions of the two entries -/
theorem posW_swap (hab : a ≠ b) (m : Nat) :
    posW (v ++ a :: b :: x) m = posW (v ++ b :: a :: x) (swp (x.length + 1) (x.length + 2) m) := by
  have hc1 : (a :: x).count b = x.count b := List.count_cons_of_ne hab
  have hc2 : (b :: x).count a = x.count a := List.count_cons_of_ne (Ne.symm hab)
  unfold swp
  by_cases h1 : m = x.length + 1
  · rw [if_pos h1, h1, posW_upper, hc1]
    exact posW_lower
  · rw [if_neg h1]
    by_cases h2 : m = x.length + 2
    · rw [if_pos h2, h2, posW_lower, ← hc2]
      exact posW_upper
    · rw [if_neg h2]
      rcases Nat.lt_or_ge (x.length + 2) m with h3 | h3
      · refine posW_replace ?_ (by simp) (by simp; omega)
        intro i
        simp only [List.count_cons]
        omega
      · have hm : m ≤ x.length := by omega
        have hm' : ∀ c : Nat, m ≤ (c :: x).length := fun c => by rw [List.length_cons]; omega
        have hm2 : ∀ c d : Nat, m ≤ (c :: d :: x).length := fun c d => by
          rw [List.length_cons, List.length_cons]; omega
        rw [posW_append (hm2 _ _), posW_append (hm2 _ _), posW_cons_ne (hm' _),
          posW_cons_ne (hm' _), posW_cons_ne hm, posW_cons_ne hm]

end local_structure

/-- one step of `apply_transp` on the tableau of a word -/
theorem applyTransp_toTab {u : List Nat} (h : Lat u) {i : Nat} (h1 : 1 ≤ i) (h2 : i + 1 ≤ u.length) :
    ∃ T' δ, Tab.applyTransp (toTab u) i (i + 1) = some (T', δ) ∧
      δ = contW u (i + 1) - contW u i ∧ δ ≠ 0 ∧
      T'.map List.length = (toTab u).map List.length ∧
      (∀ r c, cell T' r c = (cell (toTab u) r c).map (swp i (i + 1))) ∧
      ((δ ≠ 1 ∧ δ ≠ -1) → ∃ u', Lat u' ∧ T' = toTab u' ∧ u'.length = u.length ∧
        (∀ r, u'.count r = u.count r) ∧ ∀ m, posW u' m = posW u (swp i (i + 1) m)) ∧
      ((δ = 1 ∨ δ = -1) → ∀ p, ¬ IsSYT p T') := by
  obtain ⟨v, b, a, x, rfl, rfl⟩ := split_word h1 h2
  have c1 := (cell_toTab h a (x.count a) (x.length + 1)).2 ⟨by omega, by simp; omega, posW_lower⟩
  have c2 := (cell_toTab h b ((a :: x).count b) (x.length + 2)).2 ⟨by omega, by simp, posW_upper⟩
  obtain ⟨T', e, hs, hc⟩ := applyTransp_spec (toTab_inj h) c1 c2
  refine ⟨T', _, e, ?_, ?_, hs, hc, ?_, ?_⟩
  · rw [contW_lower]
    show _ = contW _ (x.length + 2) - _
    rw [contW_upper]
  · have := h.cont_ne; omega
  · rintro ⟨n1, n2⟩
    rcases h.cases with ⟨_, h3⟩ | ⟨_, _, h3⟩ | ⟨hab, hl, _, _⟩
    · exact absurd h3 n1
    · exact absurd h3 n2
    · have hcnt : ∀ r, (v ++ a :: b :: x).count r = (v ++ b :: a :: x).count r := by
        intro r
        simp only [List.count_append, List.count_cons]
        omega
      refine ⟨_, hl, ?_, by simp, hcnt, posW_swap hab⟩
      have hsh : (toTab (v ++ b :: a :: x)).map List.length =
          (toTab (v ++ a :: b :: x)).map List.length :=
        (toTab_shape h).1.ext (toTab_shape hl).1 fun i => by
          rw [(toTab_shape h).2, (toTab_shape hl).2, hcnt]
      refine tab_ext (hs.trans hsh) fun r c => ?_
      rw [hc]
      apply Option.ext
      intro m
      rw [cell_toTab hl, Option.map_eq_some_iff]
      constructor
      · rintro ⟨m', h4, rfl⟩
        rw [cell_toTab h] at h4
        rw [posW_swap hab, swp_swp]
        refine ⟨?_, ?_, h4.2.2⟩
        · unfold swp; split_ifs <;> omega
        · have := h4.2.1
          unfold swp; split_ifs <;> simp at this ⊢ <;> omega
      · rintro ⟨h4, h5, h6⟩
        rw [posW_swap hab] at h6
        refine ⟨swp (x.length + 1) (x.length + 2) m, ?_, swp_swp _ _ _⟩
        rw [cell_toTab h]
        refine ⟨?_, ?_, h6⟩
        · unfold swp; split_ifs <;> omega
        · unfold swp; split_ifs <;> simp at h5 ⊢ <;> omega
  · intro h3 p hS
    have d1 : cell T' a (x.count a) = some (x.length + 2) := by rw [hc, c1]; simp [swp]
    have d2 : cell T' b ((a :: x).count b) = some (x.length + 1) := by rw [hc, c2]; simp [swp]
    rcases h.cases with ⟨hab, _⟩ | ⟨hab, hab', _⟩ | ⟨_, _, _, h4⟩
    · subst hab
      rw [List.count_cons_self] at d2
      have := hS.rows _ _ _ _ d1 d2
      omega
    · subst hab
      rw [List.count_cons_of_ne (by omega), hab'] at d2
      have := hS.cols _ _ _ _ d1 d2
      omega
    · rcases h3 with h3 | h3 <;> omega

end Snob
