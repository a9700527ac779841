import Verif.Model.Print
import Verif.Spec.Print

/-! # Property C104: printing tells objects apart -/

namespace Snob

/-- a character of a decimal number -/
def isDec (c : Char) : Bool := c.isDigit || c == '-'

theorem isDec_of_mem {x : Int} {c : Char} (h : c ∈ dec x) : isDec c = true := by
  unfold dec at h
  unfold isDec
  split at h
  · rcases List.mem_cons.1 h with rfl | h
    · decide
    · rw [Nat.isDigit_of_mem_toDigits (by decide) (by decide) h]; rfl
  · rw [Nat.isDigit_of_mem_toDigits (by decide) (by decide) h]; rfl

theorem dec_ne_nil (x : Int) : dec x ≠ [] := by
  unfold dec
  split
  · simp
  · exact Nat.toDigits_ne_nil

theorem toDigits_inj {a b : Nat} (h : Nat.toDigits 10 a = Nat.toDigits 10 b) : a = b := by
  have := congrArg (fun l => Nat.ofDigitChars 10 l 0) h
  simpa only [Nat.ofDigitChars_toDigits (by decide : 1 < 10) (by decide : 10 ≤ 10)] using this

theorem dec_inj {a b : Int} (h : dec a = dec b) : a = b := by
  have key : ∀ (m k : Nat), '-' :: Nat.toDigits 10 m ≠ Nat.toDigits 10 k := by
    intro m k e
    have : '-' ∈ Nat.toDigits 10 k := by rw [← e]; simp
    have := Nat.isDigit_of_mem_toDigits (by decide) (by decide) this
    revert this; decide
  unfold dec at h
  split at h <;> split at h
  · have := toDigits_inj (List.cons.inj h).2; omega
  · exact absurd h (key _ _)
  · exact absurd h.symm (key _ _)
  · have := toDigits_inj h; omega

/-- the end of a number is visible -/
theorem dec_sep {a b : Int} {c c' : Char} {x y : List Char} (hc : isDec c = false) (hc' : isDec c' = false)
    (h : dec a ++ c :: x = dec b ++ c' :: y) : a = b ∧ c = c' ∧ x = y := by
  have e1 : (dec a ++ c :: x).takeWhile isDec = dec a := by
    rw [List.takeWhile_append_of_pos fun z hz => isDec_of_mem hz, List.takeWhile_cons_of_neg (by simp [hc]), List.append_nil]
  have e2 : (dec b ++ c' :: y).takeWhile isDec = dec b := by
    rw [List.takeWhile_append_of_pos fun z hz => isDec_of_mem hz, List.takeWhile_cons_of_neg (by simp [hc']), List.append_nil]
  rw [h, e2] at e1
  obtain rfl := dec_inj e1.symm
  have := List.append_cancel_left h
  exact ⟨rfl, (List.cons.inj this).1, (List.cons.inj this).2⟩

/-- a number does not begin with a character of another kind -/
theorem dec_head {a : Int} {c : Char} {x y : List Char} (hc : isDec c = false) : dec a ++ x ≠ c :: y := by
  intro h
  cases e : dec a with
  | nil => exact dec_ne_nil a e
  | cons d l =>
    rw [e, List.cons_append] at h
    have := isDec_of_mem (x := a) (c := d) (by rw [e]; simp)
    rw [(List.cons.inj h).1, hc] at this
    cases this

theorem SelfDelimiting.tellsApart {α : Type} {f : α → List Char} (h : SelfDelimiting f) : TellsApart f :=
  fun a b e => (h a b [] [] (by rw [e])).1

namespace Print

theorem permLoop_inj (p : Arr) : ∀ {q : Arr} {s t x y : List Char}, permLoop p = some s → permLoop q = some t →
    s ++ ']' :: x = t ++ ']' :: y → p = q ∧ x = y := by
  induction p with
  | nil =>
    intro q s t x y hs ht h
    cases hs
    cases q with
    | nil => cases ht; exact ⟨rfl, (List.cons.inj h).2⟩
    | cons c q =>
      exfalso
      simp only [permLoop, Option.bind_eq_bind, Option.bind_eq_some_iff] at ht
      obtain ⟨b, -, u, -, e⟩ := ht
      cases e
      rw [List.append_assoc] at h
      exact dec_head (by decide) h.symm
  | cons c p ih =>
    intro q s t x y hs ht h
    simp only [permLoop, Option.bind_eq_bind, Option.bind_eq_some_iff] at hs
    obtain ⟨a, rfl, s, hs, e⟩ := hs
    cases e
    cases q with
    | nil =>
      exfalso
      cases ht
      rw [List.append_assoc] at h
      exact dec_head (by decide) h
    | cons c' q =>
      simp only [permLoop, Option.bind_eq_bind, Option.bind_eq_some_iff] at ht
      obtain ⟨b, rfl, t, ht, e⟩ := ht
      cases e
      rw [List.append_assoc, List.append_assoc, List.cons_append, List.cons_append] at h
      obtain ⟨rfl, -, h⟩ := dec_sep (by decide) (by decide) h
      obtain ⟨rfl, rfl⟩ := ih hs ht h
      exact ⟨rfl, rfl⟩

theorem partLoop_cons (x : Nat) (l : List Nat) (z : List Char) :
    ∃ c w, isDec c = false ∧ partLoop (x :: l) ++ ']' :: z = dec x ++ c :: w ∧
      ((l = [] ∧ c = ']' ∧ w = z) ∨ (l ≠ [] ∧ c = ',' ∧ w = partLoop l ++ ']' :: z)) := by
  cases l with
  | nil => exact ⟨']', z, by decide, rfl, Or.inl ⟨rfl, rfl, rfl⟩⟩
  | cons y l =>
    exact ⟨',', partLoop (y :: l) ++ ']' :: z, by decide, by rw [partLoop, List.append_assoc]; rfl, Or.inr ⟨by simp, rfl, rfl⟩⟩

theorem partLoop_inj (p : List Nat) : ∀ {q : List Nat} {x y : List Char},
    partLoop p ++ ']' :: x = partLoop q ++ ']' :: y → p = q ∧ x = y := by
  induction p with
  | nil =>
    intro q x y h
    cases q with
    | nil => exact ⟨rfl, (List.cons.inj h).2⟩
    | cons b q =>
      obtain ⟨c, w, -, e, -⟩ := partLoop_cons b q y
      rw [e] at h
      exact absurd h.symm (dec_head (by decide))
  | cons a p ih =>
    intro q x y h
    obtain ⟨c, w, hc, e, hw⟩ := partLoop_cons a p x
    rw [e] at h
    cases q with
    | nil => exact absurd h (dec_head (by decide))
    | cons b q =>
      obtain ⟨c', w', hc', e', hw'⟩ := partLoop_cons b q y
      rw [e'] at h
      obtain ⟨hab, rfl, rfl⟩ := dec_sep hc hc' h
      obtain rfl : a = b := by exact_mod_cast hab
      rcases hw with ⟨rfl, rfl, rfl⟩ | ⟨-, rfl, rfl⟩
      · rcases hw' with ⟨rfl, -, rfl⟩ | ⟨-, h, -⟩
        · exact ⟨rfl, rfl⟩
        · exact absurd h (by decide)
      · rcases hw' with ⟨-, h, -⟩ | ⟨-, -, h⟩
        · exact absurd h (by decide)
        · obtain ⟨rfl, rfl⟩ := ih h
          exact ⟨rfl, rfl⟩

theorem part_self : SelfDelimiting part := by
  intro p q x y h
  simp only [part, List.cons_append, List.append_assoc, List.nil_append] at h
  exact partLoop_inj p (List.cons.inj h).2

theorem rowLoop_inj (r : List Nat) : ∀ {r' : List Nat} {x y : List Char},
    rowLoop r ++ '\n' :: x = rowLoop r' ++ '\n' :: y → r = r' ∧ x = y := by
  induction r with
  | nil =>
    intro r' x y h
    cases r' with
    | nil => exact ⟨rfl, (List.cons.inj h).2⟩
    | cons b r' =>
      simp only [rowLoop, List.append_assoc, List.nil_append] at h
      exact absurd h.symm (dec_head (by decide))
  | cons a r ih =>
    intro r' x y h
    cases r' with
    | nil =>
      simp only [rowLoop, List.append_assoc, List.nil_append] at h
      exact absurd h (dec_head (by decide))
    | cons b r' =>
      rw [rowLoop, rowLoop, List.append_assoc, List.append_assoc, List.cons_append, List.cons_append] at h
      obtain ⟨hab, -, h'⟩ := dec_sep (by decide) (by decide) h
      obtain rfl : a = b := by exact_mod_cast hab
      obtain ⟨rfl, rfl⟩ := ih h'
      exact ⟨rfl, rfl⟩

theorem two_ints {a b a' b' : Int} {x y : List Char} (h : dec a ++ ',' :: (dec b ++ ')' :: x) = dec a' ++ ',' :: (dec b' ++ ')' :: y)) :
    a = a' ∧ b = b' ∧ x = y := by
  obtain ⟨rfl, -, h⟩ := dec_sep (by decide) (by decide) h
  obtain ⟨rfl, -, rfl⟩ := dec_sep (by decide) (by decide) h
  exact ⟨rfl, rfl, rfl⟩

theorem pair_self {s : List Char} : SelfDelimiting fun c : Int × Int => s ++ (dec c.1 ++ ',' :: dec c.2 ++ [')']) := by
  intro a b x y h
  simp only [List.cons_append, List.append_assoc, List.nil_append] at h
  obtain ⟨h1, h2, rfl⟩ := two_ints (List.append_cancel_left h)
  exact ⟨Prod.ext h1 h2, rfl⟩

theorem one_self {s : List Char} : SelfDelimiting fun n : Int => s ++ (dec n ++ [')']) := by
  intro a b x y h
  simp only [List.append_assoc, List.cons_append, List.nil_append] at h
  obtain ⟨rfl, -, rfl⟩ := dec_sep (by decide) (by decide) (List.append_cancel_left h)
  exact ⟨rfl, rfl⟩

theorem typeLoop_cons (e : List Nat × Int) (t : SnType) (z : List Char) :
    ∃ c w, isDec c = false ∧ typeLoop (e :: t) ++ ')' :: z = part e.1 ++ (':' :: (dec e.2 ++ c :: w)) ∧
      ((t = [] ∧ c = ')' ∧ w = z) ∨ (t ≠ [] ∧ c = ',' ∧ w = typeLoop t ++ ')' :: z)) := by
  cases t with
  | nil => exact ⟨')', z, by decide, by simp [typeLoop], Or.inl ⟨rfl, rfl, rfl⟩⟩
  | cons e' t => exact ⟨',', typeLoop (e' :: t) ++ ')' :: z, by decide, by simp [typeLoop], Or.inr ⟨by simp, rfl, rfl⟩⟩

theorem typeLoop_inj (t : SnType) : ∀ {t' : SnType} {x y : List Char},
    typeLoop t ++ ')' :: x = typeLoop t' ++ ')' :: y → t = t' ∧ x = y := by
  induction t with
  | nil =>
    intro t' x y h
    cases t' with
    | nil => exact ⟨rfl, (List.cons.inj h).2⟩
    | cons b t' =>
      obtain ⟨c, w, -, e, -⟩ := typeLoop_cons b t' y
      rw [e] at h
      simp [typeLoop, part] at h
  | cons a t ih =>
    intro t' x y h
    obtain ⟨c, w, hc, e, hw⟩ := typeLoop_cons a t x
    rw [e] at h
    cases t' with
    | nil => simp [typeLoop, part] at h
    | cons b t' =>
      obtain ⟨c', w', hc', e', hw'⟩ := typeLoop_cons b t' y
      rw [e'] at h
      obtain ⟨h1, h⟩ := part_self _ _ _ _ h
      obtain ⟨h2, rfl, rfl⟩ := dec_sep hc hc' (List.cons.inj h).2
      obtain rfl : a = b := Prod.ext h1 h2
      rcases hw with ⟨rfl, rfl, rfl⟩ | ⟨-, rfl, rfl⟩
      · rcases hw' with ⟨rfl, -, rfl⟩ | ⟨-, h, -⟩
        · exact ⟨rfl, rfl⟩
        · exact absurd h (by decide)
      · rcases hw' with ⟨-, h, -⟩ | ⟨-, -, h⟩
        · exact absurd h (by decide)
        · obtain ⟨rfl, rfl⟩ := ih h
          exact ⟨rfl, rfl⟩

end Print

namespace Props

open Print

/-- **C104.** Different numbers have different decimal notations. -/
theorem C104_numbers : TellsApart dec := fun _ _ h => dec_inj h

/-- **C104.** Permutations: if two are printed alike, they are the same, of the same size. -/
theorem C104_permutations (p q : Arr) (s x y : List Char) (t : List Char) (hs : perm p = some s) (ht : perm q = some t)
    (h : s ++ x = t ++ y) : p = q ∧ x = y := by
  simp only [perm, Option.bind_eq_bind, Option.bind_eq_some_iff] at hs ht
  obtain ⟨s, hs, e⟩ := hs
  cases e
  obtain ⟨t, ht, e⟩ := ht
  cases e
  simp only [List.cons_append, List.append_assoc, List.nil_append] at h
  exact permLoop_inj p hs ht (List.cons.inj (List.cons.inj h).2).2

/-- **C104.** A permutation can be printed if all its values were set. -/
theorem C104_permutation_printed (p : Arr) : (perm p).isSome ↔ ∀ c ∈ p, c ≠ none := by
  have : ∀ p : Arr, (permLoop p).isSome ↔ ∀ c ∈ p, c ≠ none := by
    intro p
    induction p with
    | nil => simp [permLoop]
    | cons c p ih =>
      cases c with
      | none => simp [permLoop]
      | some x =>
        simp only [permLoop, List.forall_mem_cons, ← ih]
        cases permLoop p <;> simp
  rw [← this p, perm]
  cases permLoop p <;> simp

/-- **C104.** Partitions, classes and irreps of symmetric groups. -/
theorem C104_partitions :
    SelfDelimiting part ∧ (∀ indent, SelfDelimiting (cclass indent)) ∧ SelfDelimiting Print.irrep ∧ SelfDelimiting sn := by
  refine ⟨part_self, fun indent p q x y h => ?_, fun p q x y h => ?_, ?_⟩
  · simp only [cclass, List.append_assoc, List.append_cancel_left_eq] at h
    exact part_self _ _ _ _ h
  · simp only [Print.irrep, List.append_assoc, List.append_cancel_left_eq] at h
    obtain ⟨rfl, h'⟩ := part_self _ _ _ _ h
    exact ⟨rfl, (List.cons.inj h').2⟩
  · have := one_self (s := txtSn)
    intro a b x y h
    exact this a b x y (by simpa [sn, List.append_assoc] using h)

/-- **C104.** Tableaux (also those that are not standard), for any indentation. -/
theorem C104_tableaux (indent : List Char) : TellsApart (tab indent) := by
  intro T
  induction T with
  | nil =>
    intro T' h
    cases T' with
    | nil => rfl
    | cons r T' => simp [tab] at h
  | cons r T ih =>
    intro T' h
    cases T' with
    | nil => simp [tab] at h
    | cons r' T' =>
      simp only [tab, List.append_assoc] at h
      obtain ⟨rfl, h'⟩ := rowLoop_inj r (List.append_cancel_left h)
      rw [ih T' h']

/-- **C104.** Transpositions and contiguous cycles. -/
theorem C104_cycles (indent : List Char) : SelfDelimiting (cycle indent) ∧ SelfDelimiting (transposition indent) := by
  constructor
  · intro a b x y h
    exact pair_self (s := indent ++ txtCCycle) a b x y (by simpa only [cycle, List.append_assoc, List.cons_append] using h)
  · intro a b x y h
    refine pair_self (s := indent ++ ['(']) a b x y ?_
    simpa only [transposition, List.append_assoc, List.cons_append, List.nil_append] using h

/-- **C104.** Types. -/
theorem C104_types : SelfDelimiting Print.type := by
  intro t t' x y h
  simp only [Print.type, List.cons_append, List.append_assoc, List.nil_append] at h
  exact typeLoop_inj t (List.cons.inj h).2

/-- **C104.** Elements of cyclic and dihedral groups, their irreps, and the groups. -/
theorem C104_groups : SelfDelimiting cyclicElement ∧ SelfDelimiting dihedralElement ∧ SelfDelimiting Print.cyclicIrrep ∧
    SelfDelimiting dihedralIrrep ∧ SelfDelimiting Print.cyclicGroup ∧ SelfDelimiting Print.dihedralGroup := by
  refine ⟨fun a b x y h => ?_, fun a b x y h => ?_, fun a b x y h => ?_, fun a b x y h => ?_, fun a b x y h => ?_,
    fun a b x y h => ?_⟩
  · obtain ⟨h1, h2⟩ := pair_self (s := txtCyclic) (a.n, a.i) (b.n, b.i) x y
      (by simpa only [cyclicElement, List.append_assoc, List.cons_append] using h)
    obtain ⟨h3, h4⟩ := Prod.mk.inj h1
    cases a; cases b
    simp_all
  · simp only [dihedralElement, List.cons_append, List.append_assoc, List.nil_append] at h
    rw [List.append_cancel_left_eq] at h
    obtain ⟨h1, -, h'⟩ := dec_sep (by decide) (by decide) h
    obtain ⟨h2, h3, rfl⟩ := two_ints h'
    cases a; cases b
    simp_all
  · exact pair_self (s := txtCyclicGroupIrrep) a b x y (by simpa only [Print.cyclicIrrep, List.append_assoc, List.cons_append] using h)
  · exact pair_self (s := txtDihedralGroupIrrep) a b x y (by simpa only [dihedralIrrep, List.append_assoc, List.cons_append] using h)
  · exact one_self (s := txtCyclicGroup) a b x y (by simpa only [Print.cyclicGroup, List.append_assoc] using h)
  · exact one_self (s := txtDihedralGroup) a b x y (by simpa only [Print.dihedralGroup, List.append_assoc] using h)

/-- **C104.** Elements and irreps of direct products, if those of the factors are self-delimiting (as all above are). -/
theorem C104_products {E₁ E₂ : Type} (s₁ : E₁ → List Char) (s₂ : E₂ → List Char) (h₁ : SelfDelimiting s₁)
    (h₂ : SelfDelimiting s₂) : SelfDelimiting (productElement s₁ s₂) ∧ SelfDelimiting (productIrrep s₁ s₂) := by
  constructor
  · intro a b x y h
    simp only [productElement, List.cons_append, List.append_assoc, List.nil_append] at h
    obtain ⟨e1, h⟩ := h₁ _ _ _ _ (List.cons.inj h).2
    obtain ⟨e2, h⟩ := h₂ _ _ _ _ (List.cons.inj h).2
    exact ⟨Prod.ext e1 e2, (List.cons.inj h).2⟩
  · intro a b x y h
    simp only [productIrrep, List.cons_append, List.append_assoc, List.nil_append, List.append_cancel_left_eq] at h
    obtain ⟨e1, h'⟩ := h₁ _ _ _ _ h
    obtain ⟨e2, h''⟩ := h₂ _ _ _ _ (List.cons.inj h').2
    exact ⟨Prod.ext e1 e2, (List.cons.inj h'').2⟩

/-- **C104, negation.** Direct products of groups are printed without their first factor. -/
theorem C104_product_group {G₁ G₂ : Type} (s₁ : G₁ → List Char) (s₂ : G₂ → List Char) (a b : G₁) (c : G₂) :
    Print.productGroup s₁ s₂ (a, c) = Print.productGroup s₁ s₂ (b, c) := rfl

/-- **C104, negation, witness.** The products of the cyclic groups of order 2 and 3 with that of order 5. -/
theorem C104_product_group_witness : ¬ TellsApart (Print.productGroup Print.cyclicGroup Print.cyclicGroup) :=
  fun h => absurd (h (2, 5) (3, 5) rfl) (by decide)

example : perm [some 2, some 1, some 10] = some "[ 2 1 10 ]".toList := by decide
example : Print.type [([2, 1], 1), ([3], 2)] = "([2,1]:1,[3]:2)".toList := by decide
example : productElement cyclicElement dihedralElement (⟨3, 1⟩, ⟨4, 0, -1⟩) = "(Cyclic(3,1),Dihedral(4,0,-1))".toList := by decide
example : tab "  ".toList [[1, 3], [2]] = "  1 3 \n  2 \n".toList := by decide

end Props
end Snob
