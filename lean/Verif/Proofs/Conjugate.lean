import Verif.Proofs.CG
import Verif.Spec.Conjugate

/-! # Transposed diagrams: the representation of the mirror image is the product with the sign -/

namespace Snob

open scoped Matrix

/-- the columns of the entries of a word, from the largest entry down -/
def trW : List Nat → List Nat
  | [] => []
  | r :: u => u.count r :: trW u

theorem trW_length (u : List Nat) : (trW u).length = u.length := by
  induction u with
  | nil => rfl
  | cons r u ih => simp [trW, ih]

theorem trW_count {u : List Nat} (h : Lat u) (r c : Nat) : r < (trW u).count c ↔ c < u.count r := by
  induction u generalizing r c with
  | nil => simp [trW]
  | cons a u ih =>
    obtain ⟨h1, h2⟩ := h
    have key : (trW u).count (u.count a) = a := by
      have k1 := ih h1 a (u.count a)
      rcases h2 with rfl | ⟨h2, h3⟩
      · omega
      · have k2 := (ih h1 (a - 1) (u.count a)).2 h3
        omega
    show r < (u.count a :: trW u).count c ↔ _
    rw [List.count_cons, List.count_cons]
    have k := ih h1 r c
    have k' := ih h1 r (u.count a)
    rw [key] at k'
    by_cases e1 : u.count a = c
    · subst e1
      rw [key]
      by_cases e2 : a = r
      · subst e2; simp
      · simp [e2]; omega
    · by_cases e2 : a = r
      · subst e2
        have k3 := ih h1 a c
        simp [e1]; omega
      · simp [e1, e2]; exact k

theorem trW_top {a : Nat} {u : List Nat} (h : Lat (a :: u)) : (trW u).count (u.count a) = a := by
  obtain ⟨h1, h2⟩ := h
  have k1 := trW_count h1 a (u.count a)
  rcases h2 with rfl | ⟨h2, h3⟩
  · omega
  · have k2 := (trW_count h1 (a - 1) (u.count a)).2 h3
    omega

theorem trW_lat {u : List Nat} (h : Lat u) : Lat (trW u) := by
  induction u with
  | nil => trivial
  | cons a u ih =>
    have ht := trW_top h
    refine ⟨ih h.1, ?_⟩
    rw [ht]
    by_cases e : u.count a = 0
    · exact Or.inl e
    · refine Or.inr ⟨by omega, ?_⟩
      rw [trW_count h.1]
      omega

theorem trW_trW {u : List Nat} (h : Lat u) : trW (trW u) = u := by
  induction u with
  | nil => rfl
  | cons a u ih =>
    show (trW u).count (u.count a) :: trW (trW u) = a :: u
    rw [trW_top h, ih h.1]

theorem posW_trW {u : List Nat} (h : Lat u) (m : Nat) : posW (trW u) m = ((posW u m).2, (posW u m).1) := by
  induction u with
  | nil => rfl
  | cons a u ih =>
    show posW (u.count a :: trW u) m = _
    unfold posW
    rw [trW_length, trW_top h, ih h.1]
    split <;> rfl

theorem contW_trW {u : List Nat} (h : Lat u) (m : Nat) : contW (trW u) m = - contW u m := by
  unfold contW
  rw [posW_trW h]
  simp

/-- sign of a word: the parity of its inversions -/
noncomputable def sgnW : List Nat → ℝ
  | [] => 1
  | r :: u => (-1) ^ (u.countP (· < r)) * sgnW u

theorem sgnW_sq (u : List Nat) : sgnW u * sgnW u = 1 := by
  induction u with
  | nil => simp [sgnW]
  | cons r u ih =>
    unfold sgnW
    rw [mul_mul_mul_comm, ih, ← pow_add, ← two_mul, pow_mul]
    simp

theorem sgnW_swap (v x : List Nat) {a b : Nat} (h : a ≠ b) : sgnW (v ++ b :: a :: x) = - sgnW (v ++ a :: b :: x) := by
  induction v with
  | nil =>
    simp only [List.nil_append, sgnW, List.countP_cons]
    rcases Nat.lt_or_gt_of_ne h with h | h
    · simp [h, Nat.not_lt.2 h.le, pow_add]; ring
    · simp [h, Nat.not_lt.2 (le_of_lt h), pow_add]; ring
  | cons r v ih =>
    have : (v ++ b :: a :: x).countP (· < r) = (v ++ a :: b :: x).countP (· < r) := by
      simp only [List.countP_append, List.countP_cons]; omega
    simp only [List.cons_append, sgnW]
    rw [ih, this]; ring

section

variable {n : Nat} {p q : List Nat}

theorem Mirror.symm (h : Mirror p q) : Mirror q p := fun i j => (h j i).symm

theorem trW_mem (hp : IsPartition n p) (hq : IsPartition n q) (h : Mirror p q) (u : Wd n p) : trW u.1 ∈ words n q := by
  have hu := (mem_words hp u.1).1 u.2
  refine (mem_words hq _).2 ⟨trW_lat hu.1, fun j => ?_⟩
  have : ∀ r, r < (trW u.1).count j ↔ r < row q j := fun r => by
    rw [trW_count hu.1, hu.2]; exact h r j
  have h1 := this ((trW u.1).count j)
  have h2 := this (row q j)
  omega

/-- transposing the tableaux -/
def mirrorE (hp : IsPartition n p) (hq : IsPartition n q) (h : Mirror p q) : Wd n p ≃ Wd n q where
  toFun u := ⟨trW u.1, trW_mem hp hq h u⟩
  invFun u := ⟨trW u.1, trW_mem hq hp h.symm u⟩
  left_inv u := Subtype.ext (trW_trW (u.lat hp))
  right_inv u := Subtype.ext (trW_trW (u.lat hq))

theorem mirrorE_cont (hp : IsPartition n p) (hq : IsPartition n q) (h : Mirror p q) (u : Wd n p) :
    (mirrorE hp hq h u).cont = fun m => - u.cont m := funext fun m => contW_trW (u.lat hp) m

theorem mirror_exists (hp : IsPartition n p) : ∃ q, IsPartition n q ∧ Mirror p q := by
  obtain ⟨u⟩ : Nonempty (Wd n p) := Fintype.card_pos_iff.1 (card_Wd_pos hp)
  have hu := (mem_words hp u.1).1 u.2
  have ht := toTab_shape (trW_lat hu.1)
  rw [trW_length, u.length hp] at ht
  refine ⟨_, ht.1, fun i j => ?_⟩
  rw [ht.2, trW_count hu.1, hu.2]

theorem Mirror.unique {q' : List Nat} (hq : IsPartition n q) (hq' : IsPartition n q') (h : Mirror p q) (h' : Mirror p q') :
    q = q' := by
  refine IsPartition.ext hq hq' fun j => ?_
  have : ∀ i, i < row q j ↔ i < row q' j := fun i => (h i j).symm.trans (h' i j)
  have h1 := this (row q j)
  have h2 := this (row q' j)
  omega

/-- the exchanged word -/
theorem sgnW_sw (hp : IsPartition n p) {u v : Wd n p} {k : Nat} (h1 : 1 ≤ k) (h2 : k < n) (hd : offc (u.cont (k + 1) - u.cont k) ≠ 0)
    (h : v.cont = sw k u.cont) : sgnW v.1 = - sgnW u.1 := by
  have hl := u.length hp
  have hlat := u.lat hp
  have hm := (mem_words hp u.1).1 u.2
  obtain ⟨w, b, a, x, e, hx⟩ := split_word (u := u.1) (i := k) h1 (by omega)
  subst hx
  rw [e] at hlat
  have c1 : u.cont (x.length + 1) = (x.count a : Int) - a := by
    unfold Wd.cont; rw [e]; exact contW_lower
  have c2 : u.cont (x.length + 1 + 1) = ((a :: x).count b : Int) - b := by
    unfold Wd.cont; rw [e]; exact contW_upper
  rw [c1, c2] at hd
  rcases hlat.cases with ⟨_, h3⟩ | ⟨_, _, h3⟩ | ⟨hab, hL, _, _⟩
  · exact absurd (offc_zero_of_unit (Or.inl h3)) hd
  · exact absurd (offc_zero_of_unit (Or.inr h3)) hd
  · have hv : (w ++ a :: b :: x) ∈ words n p := (mem_words hp _).2 ⟨hL, fun i => by
      rw [← hm.2 i, e]; simp only [List.count_append, List.count_cons]; omega⟩
    have : v = ⟨w ++ a :: b :: x, hv⟩ := Wd.cont_injective hp (by
      rw [h]
      funext m
      unfold sw Wd.cont contW
      rw [e, ← posW_swap hab])
    rw [this, e, sgnW_swap w x hab, neg_neg]

theorem yorM_mirror (hp : IsPartition n p) (hq : IsPartition n q) (h : Mirror p q) {k : Nat} (h1 : 1 ≤ k) (h2 : k < n)
    (u v : Wd n p) : yorM n q k (mirrorE hp hq h u) (mirrorE hp hq h v) = - (sgnW u.1 * yorM n p k u v * sgnW v.1) := by
  classical
  unfold yorM
  have hs : ∀ (α : Nat → Int), sw k (fun m => - α m) = fun m => - sw k α m := fun α => rfl
  rw [mirrorE_cont, mirrorE_cont, hs]
  have hiff : ((fun m => -v.cont m) = fun m => -sw k u.cont m) ↔ v.cont = sw k u.cont := by
    constructor
    · intro e; funext m; have := congrFun e m; simpa using this
    · intro e; rw [e]
  simp only [hiff, (mirrorE hp hq h).injective.eq_iff]
  have hneg : -u.cont (k + 1) - -u.cont k = -(u.cont (k + 1) - u.cont k) := by ring
  rw [hneg, diagc_neg, offc_neg]
  by_cases e : v = u
  · subst e
    rw [if_pos rfl, if_pos rfl, mul_right_comm, sgnW_sq, one_mul]
  · rw [if_neg e, if_neg e]
    by_cases e' : v.cont = sw k u.cont
    · rw [if_pos e']
      by_cases hd : offc (u.cont (k + 1) - u.cont k) = 0
      · rw [hd]; simp
      · rw [sgnW_sw hp h1 h2 hd e']
        linear_combination (-(offc (u.cont (k + 1) - u.cont k))) * sgnW_sq u.1
    · rw [if_neg e']; simp

theorem rho_mirror (hp : IsPartition n p) (hq : IsPartition n q) (h : Mirror p q) (σ : Equiv.Perm (Fin n)) :
    ∀ u v : Wd n p, rho hq σ (mirrorE hp hq h u) (mirrorE hp hq h v) =
      ((Equiv.Perm.sign σ : Int) : ℝ) * (sgnW u.1 * rho hp σ u v * sgnW v.1) := by
  induction σ using perm_induction with
  | h1 =>
    intro u v
    simp only [map_one, Matrix.one_apply, (mirrorE hp hq h).injective.eq_iff]
    by_cases e : u = v
    · subst e; simp [sgnW_sq]
    · simp [e]
  | hs k σ hk ih =>
    intro u v
    have hsg : Equiv.Perm.sign (adj n k) = -1 := by
      unfold adj; rw [dif_pos hk]; exact Equiv.Perm.sign_swap (by simp)
    rw [map_mul (rho hq), map_mul (rho hp), map_mul, Matrix.mul_apply, Matrix.mul_apply, ← (mirrorE hp hq h).sum_comp, rho_adj hq hk,
      rho_adj hp hk, Finset.mul_sum, Finset.sum_mul, Finset.mul_sum, hsg]
    refine Finset.sum_congr rfl fun w _ => ?_
    rw [yorM_mirror hp hq h (by omega) (by omega), ih]
    push_cast
    linear_combination (-(((Equiv.Perm.sign σ : Int) : ℝ)) * sgnW u.1 * yorM n p (k + 1) u w * rho hp σ w v * sgnW v.1) * sgnW_sq w.1

theorem chi_mirror (hp : IsPartition n p) (hq : IsPartition n q) (h : Mirror p q) (σ : Equiv.Perm (Fin n)) :
    chi hq σ = ((Equiv.Perm.sign σ : Int) : ℝ) * chi hp σ := by
  unfold chi Matrix.trace
  rw [← (mirrorE hp hq h).sum_comp, Finset.mul_sum]
  refine Finset.sum_congr rfl fun u _ => ?_
  rw [Matrix.diag_apply, Matrix.diag_apply, rho_mirror hp hq h]
  linear_combination (((Equiv.Perm.sign σ : Int) : ℝ) * rho hp σ u u) * sgnW_sq u.1

end

end Snob
