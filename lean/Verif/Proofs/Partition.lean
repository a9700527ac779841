import Verif.Model.Partition
import Verif.Spec.Partition
import Mathlib.Data.List.Basic
import Mathlib.Data.List.Nodup
import Mathlib.Data.List.Infix
import Mathlib.Algebra.BigOperators.Group.List.Basic
import Mathlib.Tactic.Linarith

namespace Snob

open IP

@[simp] theorem row_nil (i : Nat) : row [] i = 0 := by simp [row]
@[simp] theorem row_cons_zero (a : Nat) (p : List Nat) : row (a :: p) 0 = a := by simp [row]
@[simp] theorem row_cons_succ (a : Nat) (p : List Nat) (i : Nat) :
    row (a :: p) (i + 1) = row p i := by simp [row]

theorem row_of_lt {p : List Nat} {i : Nat} (h : i < p.length) : row p i = p[i] := by
  simp [row, h]

theorem row_of_ge {p : List Nat} {i : Nat} (h : p.length ≤ i) : row p i = 0 := by
  simp [row, h]

theorem getElem?_eq_row {p : List Nat} {i : Nat} (h : i < p.length) : p[i]? = some (row p i) := by
  simp [row_of_lt h, h]

theorem getn_eq (p : List Nat) : getn p = p.sum := by
  have : ∀ a : Nat, p.foldl (fun n x => n + x) a = a + p.sum := by
    induction p with
    | nil => simp
    | cons x p ih => intro a; simp [ih, Nat.add_assoc]
  simpa [getn] using this 0

/-! ### equality and comparison -/

theorem all_zero_iff (p : List Nat) : p.all (· == 0) = true ↔ ∀ i, row p i = 0 := by
  induction p with
  | nil => simp
  | cons a p ih =>
    simp only [List.all_cons, Bool.and_eq_true, ih, beq_iff_eq]
    constructor
    · rintro ⟨h0, h⟩ (_ | i)
      · simpa using h0
      · simpa using h i
    · intro h
      exact ⟨by simpa using h 0, fun i => by simpa using h (i + 1)⟩

theorem eqb_iff (p q : List Nat) : eqb p q = true ↔ ∀ i, row p i = row q i := by
  induction p generalizing q with
  | nil =>
    cases q with
    | nil => simp [eqb]
    | cons b q =>
      have := all_zero_iff (b :: q)
      simp only [eqb, row_nil]
      rw [this]
      constructor <;> intro h i <;> exact (h i).symm
  | cons a p ih =>
    cases q with
    | nil =>
      have := all_zero_iff (a :: p)
      simp only [eqb, row_nil]
      rw [this]
    | cons b q =>
      simp only [eqb]
      constructor
      · intro h
        by_cases hab : a = b
        · simp only [hab, ne_eq, not_true_eq_false, if_false] at h
          rintro (_ | i)
          · simpa using hab
          · simpa using (ih q).1 h i
        · simp [hab] at h
      · intro h
        have hab : a = b := by simpa using h 0
        simp only [hab, ne_eq, not_true_eq_false, if_false]
        exact (ih q).2 fun i => by simpa using h (i + 1)

theorem sum_eq_zero_row {p : List Nat} (h : p.sum = 0) (i : Nat) : row p i = 0 := by
  induction p generalizing i with
  | nil => simp
  | cons a p ih =>
    simp only [List.sum_cons] at h
    cases i with
    | zero => simp; omega
    | succ i => simpa using ih (by omega) i

theorem lexGreater_cons (a : Nat) (p : List Nat) (q : List Nat) :
    LexGreater (a :: p) (a :: q) ↔ LexGreater p q := by
  constructor
  · rintro ⟨(_ | i), h, hi⟩
    · simp at hi
    · refine ⟨i, fun j hj => by simpa using h (j + 1) (by omega), by simpa using hi⟩
  · rintro ⟨i, h, hi⟩
    refine ⟨i + 1, ?_, by simpa using hi⟩
    rintro (_ | j) hj
    · simp
    · simpa using h j (by omega)

theorem ltLoop_iff {p q : List Nat} (h : p.sum = q.sum) :
    ltLoop p q = true ↔ LexGreater p q := by
  induction p generalizing q with
  | nil =>
    have hz := sum_eq_zero_row (p := q) (by simpa using h.symm)
    simp [ltLoop, LexGreater]
  | cons a p ih =>
    cases q with
    | nil =>
      have hz := sum_eq_zero_row (p := a :: p) (by simpa using h)
      simp [ltLoop, LexGreater, hz]
    | cons b q =>
      simp only [ltLoop]
      by_cases hab : b < a
      · simp only [gt_iff_lt, hab, if_true, true_iff]
        exact ⟨0, by simp, by simpa using hab⟩
      · by_cases hba : a < b
        · simp only [gt_iff_lt, hab, if_false, hba, if_true, Bool.false_eq_true, false_iff]
          rintro ⟨(_ | i), h1, h2⟩
          · simp at h2; omega
          · have := h1 0 (by omega); simp at this; omega
        · have e : a = b := by omega
          subst e
          simp only [gt_iff_lt, hab, if_false]
          rw [lexGreater_cons]
          exact ih (by simpa using h)

theorem lexGreater_irrefl (p : List Nat) : ¬ LexGreater p p := by
  rintro ⟨i, _, h⟩; omega

theorem lexGreater_trans {p q r : List Nat} (h1 : LexGreater p q) (h2 : LexGreater q r) :
    LexGreater p r := by
  obtain ⟨i, hi, hi'⟩ := h1
  obtain ⟨j, hj, hj'⟩ := h2
  rcases lt_trichotomy i j with h | h | h
  · exact ⟨i, fun k hk => (hi k hk).trans (hj k (by omega)), by rw [← hj i h]; exact hi'⟩
  · subst h
    exact ⟨i, fun k hk => (hi k hk).trans (hj k hk), by omega⟩
  · exact ⟨j, fun k hk => (hi k (by omega)).trans (hj k hk), by rw [hi j h]; exact hj'⟩

theorem lexGreater_tri (p q : List Nat) :
    LexGreater p q ∨ (∀ i, row p i = row q i) ∨ LexGreater q p := by
  by_cases h : ∀ i, row p i = row q i
  · exact Or.inr (Or.inl h)
  · push Not at h
    classical
    let i := Nat.find h
    have h1 : row p i ≠ row q i := Nat.find_spec h
    have h2 : ∀ j, j < i → row p j = row q j := fun j hj => by
      have := Nat.find_min h hj
      simpa using this
    rcases lt_or_gt_of_ne h1 with h | h
    · exact Or.inr (Or.inr ⟨i, fun j hj => (h2 j hj).symm, h⟩)
    · exact Or.inl ⟨i, h2, h⟩

theorem lexGreater_asymm {p q : List Nat} (h : LexGreater p q) : ¬ LexGreater q p :=
  fun h' => lexGreater_irrefl p (lexGreater_trans h h')

theorem lexGreater_congr {p p' q q' : List Nat} (hp : ∀ i, row p i = row p' i)
    (hq : ∀ i, row q i = row q' i) : LexGreater p q ↔ LexGreater p' q' := by
  simp [LexGreater, hp, hq]

/-! ### rows of partitions -/

theorem row_pos_iff {n : Nat} {p : List Nat} (h : IsPartition n p) (i : Nat) :
    0 < row p i ↔ i < p.length := by
  constructor
  · intro hp
    by_contra hc
    rw [row_of_ge (by omega)] at hp
    omega
  · intro hi
    rw [row_of_lt hi]
    exact h.pos _ (List.getElem_mem hi)

theorem row_anti {p : List Nat} (h : p.Pairwise (fun a b => b ≤ a)) {i j : Nat} (hij : i ≤ j) :
    row p j ≤ row p i := by
  rcases Nat.lt_or_ge j p.length with hj | hj
  · rcases Nat.eq_or_lt_of_le hij with e | e
    · rw [e]
    · rw [row_of_lt hj, row_of_lt (by omega)]
      exact List.pairwise_iff_getElem.1 h i j (by omega) hj e
  · rw [row_of_ge hj]; omega

theorem sorted_of_row {p : List Nat} (h : ∀ i, row p (i + 1) ≤ row p i) :
    p.Pairwise (fun a b => b ≤ a) := by
  have anti : ∀ i d, row p (i + d) ≤ row p i := by
    intro i d
    induction d with
    | zero => exact Nat.le_refl _
    | succ d ih => exact le_trans (h (i + d)) ih
  rw [List.pairwise_iff_getElem]
  intro i j hi hj hij
  have := anti i (j - i)
  rw [show i + (j - i) = j by omega, row_of_lt hi, row_of_lt hj] at this
  exact this

theorem length_le_of_row {p q : List Nat} (hp : ∀ x ∈ p, 0 < x)
    (h : ∀ i, row p i = row q i) : p.length ≤ q.length := by
  by_contra hc
  have h1 := h q.length
  rw [row_of_ge (Nat.le_refl _), row_of_lt (by omega)] at h1
  have := hp _ (List.getElem_mem (by omega : q.length < p.length))
  omega

theorem eq_of_row {p q : List Nat} (hp : ∀ x ∈ p, 0 < x) (hq : ∀ x ∈ q, 0 < x)
    (h : ∀ i, row p i = row q i) : p = q := by
  have hl : p.length = q.length :=
    Nat.le_antisymm (length_le_of_row hp h) (length_le_of_row hq fun i => (h i).symm)
  refine List.ext_getElem hl fun i h1 h2 => ?_
  have := h i
  rwa [row_of_lt h1, row_of_lt h2] at this

theorem IsPartition.ext {m n : Nat} {p q : List Nat} (hp : IsPartition m p) (hq : IsPartition n q)
    (h : ∀ i, row p i = row q i) : p = q := eq_of_row hp.pos hq.pos h

/-- sum of a list through its rows -/
theorem sum_eq_sum_row (p : List Nat) (N : Nat) (hN : p.length ≤ N) :
    p.sum = ((List.range N).map (row p)).sum := by
  induction p generalizing N with
  | nil =>
    have : (List.range N).map (row []) = (List.range N).map (fun _ => 0) :=
      List.map_congr_left fun i _ => by simp
    rw [this]; simp
  | cons a p ih =>
    cases N with
    | zero => simp at hN
    | succ N =>
      rw [List.range_succ_eq_map]
      simp only [List.sum_cons, List.map_cons, row_cons_zero, List.map_map]
      rw [ih N (by simpa using hN)]
      congr 2

theorem row_set {p : List Nat} {i : Nat} (hi : i < p.length) (v j : Nat) :
    row (p.set i v) j = if j = i then v else row p j := by
  unfold row
  rw [List.getElem?_set]
  by_cases h : i = j
  · subst h; simp [hi]
  · simp [h, Ne.symm h]

theorem row_append_single (p : List Nat) (v j : Nat) :
    row (p ++ [v]) j = if j = p.length then v else row p j := by
  rcases lt_trichotomy j p.length with h | h | h
  · simp [row, List.getElem?_append, h, h.ne]
  · subst h; simp [row]
  · rw [row_of_ge (by simp; omega), row_of_ge (by omega)]; simp [h.ne']

theorem row_dropLast {p : List Nat} {v : Nat} (_ : p.getLast? = some v) (j : Nat) :
    row p.dropLast j = if j + 1 = p.length then 0 else row p j := by
  unfold row
  rw [List.getElem?_dropLast]
  by_cases h1 : j + 1 = p.length
  · have : ¬ j < p.length - 1 := by omega
    simp [h1, this]
  · simp only [h1, if_false]
    by_cases h2 : j < p.length - 1
    · simp [h2]
    · have h3 : p.length ≤ j := by omega
      simp [h2, h3]

theorem row_dropZeroLast (p : List Nat) (j : Nat) : row (dropZeroLast p) j = row p j := by
  unfold dropZeroLast
  by_cases h : p.getLast? = some 0
  · simp only [h, if_true]
    rw [row_dropLast h]
    by_cases h1 : j + 1 = p.length
    · simp only [h1, if_true]
      rw [List.getLast?_eq_getElem?] at h
      unfold row
      have : p.length - 1 = j := by omega
      rw [this] at h
      simp [h]
    · simp [h1]
  · simp [h]

theorem row_add (p : List Nat) (r m j : Nat) (hr : r ≤ p.length) :
    row (add p r m) j = row p j + (if j = r then m else 0) := by
  unfold add
  by_cases h : r < p.length
  · simp only [h, if_true]
    unfold row
    rw [List.getElem?_modify]
    by_cases hj : j = r
    · subst hj; simp [h]
    · simp [hj, Ne.symm hj]
  · simp only [h, if_false]
    have : r = p.length := by omega
    subst this
    rw [row_append_single]
    by_cases hj : j = p.length
    · subst hj; rw [row_of_ge (Nat.le_refl _)]; simp
    · simp [hj]

theorem sum_of_addsBoxAt {p q : List Nat} {r : Nat} (h : AddsBoxAt q p r) :
    p.sum = q.sum + 1 := by
  have single : ∀ N, r < N → ((List.range N).map (fun i => if i = r then 1 else 0)).sum = 1 := by
    intro N hr
    induction N with
    | zero => omega
    | succ N ih =>
      rw [List.range_succ, List.map_append, List.sum_append]
      by_cases e : r = N
      · subst e
        have : (List.range r).map (fun i => if i = r then 1 else 0) =
            (List.range r).map (fun _ => 0) :=
          List.map_congr_left fun i hi => by
            have := List.mem_range.1 hi
            simp [this.ne]
        rw [this]; simp
      · rw [ih (by omega)]; simp [Ne.symm e]
  obtain ⟨N, hN⟩ : ∃ N, N = p.length + q.length + r + 1 := ⟨_, rfl⟩
  rw [sum_eq_sum_row p N (by omega), sum_eq_sum_row q N (by omega)]
  have : (List.range N).map (row p) =
      (List.range N).map (fun i => row q i + (if i = r then 1 else 0)) :=
    List.map_congr_left fun i _ => h i
  rw [this, List.sum_map_add, single N (by omega)]

/-! ### adding and removing boxes -/

theorem pos_add {p : List Nat} (hp : ∀ x ∈ p, 0 < x) (r : Nat) : ∀ x ∈ add p r 1, 0 < x := by
  intro x hx
  unfold add at hx
  by_cases h : r < p.length
  · simp only [h, if_true] at hx
    obtain ⟨i, hi, rfl⟩ := List.getElem_of_mem hx
    rw [List.getElem_modify]
    simp only [List.length_modify] at hi
    have := hp _ (List.getElem_mem hi)
    split <;> omega
  · simp only [h, if_false, List.mem_append, List.mem_singleton] at hx
    rcases hx with hx | rfl
    · exact hp _ hx
    · omega

theorem addsBoxAt_add {p : List Nat} {r : Nat} (hr : r ≤ p.length) : AddsBoxAt p (add p r 1) r :=
  fun i => row_add p r 1 i hr

/-- a box may be added in row `r` -/
def CanAdd (p : List Nat) (r : Nat) : Prop := r = 0 ∨ (0 < r ∧ row p r < row p (r - 1))

theorem CanAdd.le_length {p : List Nat} {r : Nat} (h : CanAdd p r) : r ≤ p.length := by
  rcases h with rfl | ⟨h0, h⟩
  · omega
  · by_contra hc
    rw [row_of_ge (by omega : p.length ≤ r - 1)] at h
    omega

theorem isPartition_add {n : Nat} {p : List Nat} (hp : IsPartition n p) {r : Nat}
    (h : CanAdd p r) : IsPartition (n + 1) (add p r 1) := by
  have hr := h.le_length
  refine ⟨sorted_of_row fun i => ?_, pos_add hp.pos r, ?_⟩
  · rw [row_add p r 1 _ hr, row_add p r 1 _ hr]
    have h1 := row_anti hp.sorted (Nat.le_succ i)
    by_cases e : i + 1 = r
    · subst e
      rcases h with h | ⟨_, h⟩
      · omega
      · simp at h ⊢; omega
    · simp only [e, if_false]
      split <;> simp at h1 ⊢ <;> omega
  · rw [sum_of_addsBoxAt (addsBoxAt_add hr), hp.sum]

theorem canAdd_of_addsBoxAt {p q : List Nat} (hp : p.Pairwise (fun a b => b ≤ a)) {r : Nat}
    (h : AddsBoxAt q p r) : CanAdd q r := by
  rcases Nat.eq_zero_or_pos r with h0 | h0
  · exact Or.inl h0
  · refine Or.inr ⟨h0, ?_⟩
    have h1 := h r
    have h2 := h (r - 1)
    have h3 : r - 1 ≠ r := by omega
    simp [h3] at h1 h2
    have := row_anti hp (by omega : r - 1 ≤ r)
    omega

theorem eq_add_of_addsBoxAt {m n : Nat} {p q : List Nat} (hp : IsPartition m p)
    (hq : IsPartition n q) {r : Nat} (h : AddsBoxAt q p r) : p = add q r 1 := by
  have hr := (canAdd_of_addsBoxAt hp.sorted h).le_length
  refine eq_of_row hp.pos (pos_add hq.pos r) fun i => ?_
  rw [h i, row_add q r 1 i hr]

theorem addsBoxAt_unique {p q : List Nat} {r s : Nat} (h : AddsBoxAt q p r) (h' : AddsBoxAt q p s) :
    r = s := by
  have h1 := h r
  have h2 := h' r
  by_contra hc
  simp [hc] at h1 h2
  omega

/-- a box may be removed from row `r` -/
def CanRem (p : List Nat) (r : Nat) : Prop := row p (r + 1) < row p r

theorem CanRem.lt_length {p : List Nat} {r : Nat} (h : CanRem p r) : r < p.length := by
  by_contra hc
  unfold CanRem at h
  rw [row_of_ge (by omega : p.length ≤ r)] at h
  omega

theorem row_remove {p q : List Nat} {r m : Nat} (h : remove p r m = some q) (j : Nat) :
    row q j = if j = r then row p r - m else row p j := by
  unfold remove at h
  by_cases hr : r < p.length
  · rw [getElem?_eq_row hr] at h
    simp only at h
    split at h
    · cases h
      rw [row_dropZeroLast, row_set hr]
    · cases h
  · rw [List.getElem?_eq_none (by omega)] at h
    cases h

theorem pos_remove {n : Nat} {p : List Nat} (hp : IsPartition n p) {r : Nat}
    (h : CanRem p r) : ∃ q, remove p r 1 = some q ∧ ∀ x ∈ q, 0 < x := by
  have hr := h.lt_length
  have h1 : 0 < row p r := by unfold CanRem at h; omega
  refine ⟨dropZeroLast (p.set r (row p r - 1)), ?_, ?_⟩
  · unfold remove
    rw [getElem?_eq_row hr]
    simp only [if_pos (show 1 ≤ row p r by omega)]
  · -- positivity
    unfold CanRem at h
    intro x hx
    unfold dropZeroLast at hx
    have key : ∀ i, i < p.length → (i ≠ r ∨ 1 < row p r) → 0 < row (p.set r (row p r - 1)) i := by
      intro i hi hh
      rw [row_set hr]
      by_cases e : i = r
      · simp only [e, if_true]
        rcases hh with hh | hh
        · exact absurd e hh
        · omega
      · simp only [e, if_false]
        exact (row_pos_iff hp i).2 hi
    by_cases hz : (p.set r (row p r - 1)).getLast? = some 0
    · simp only [hz, if_true] at hx
      rw [List.getLast?_eq_getElem?, List.length_set, getElem?_eq_row (by simp; omega)] at hz
      obtain ⟨i, hi, rfl⟩ := List.getElem_of_mem hx
      simp only [List.length_dropLast, List.length_set] at hi
      rw [List.getElem_dropLast, ← row_of_lt]
      refine key i (by omega) (Or.inl ?_)
      intro e
      subst e
      have : 0 < row p (i + 1) := (row_pos_iff hp _).2 (by omega)
      have h2 : 0 < row (p.set i (row p i - 1)) (p.length - 1) := by
        rw [row_set hr]
        split
        · omega
        · exact (row_pos_iff hp _).2 (by omega)
      simp at hz
      omega
    · simp only [hz, if_false] at hx
      obtain ⟨i, hi, rfl⟩ := List.getElem_of_mem hx
      simp only [List.length_set] at hi
      rw [← row_of_lt]
      refine key i hi ?_
      by_contra hc
      push Not at hc
      obtain ⟨rfl, hc⟩ := hc
      have h3 : row p (i + 1) = 0 := by omega
      have h4 : i + 1 = p.length := by
        by_contra hne
        have := (row_pos_iff hp (i + 1)).2 (by omega)
        omega
      apply hz
      rw [List.getLast?_eq_getElem?, List.length_set, getElem?_eq_row (by simp; omega), row_set hr]
      simp [← h4]
      omega

theorem addsBoxAt_remove {p q : List Nat} {r : Nat} (h1 : 0 < row p r)
    (h : remove p r 1 = some q) : AddsBoxAt q p r := by
  intro i
  rw [row_remove h i]
  split
  · next e => subst e; omega
  · omega

theorem isPartition_remove {n : Nat} {p : List Nat} (hp : IsPartition (n + 1) p) {r : Nat}
    (h : CanRem p r) : ∃ q, remove p r 1 = some q ∧ IsPartition n q ∧ AddsBoxAt q p r := by
  obtain ⟨q, hq, hpos⟩ := pos_remove hp h
  have hb : AddsBoxAt q p r := addsBoxAt_remove (by unfold CanRem at h; omega) hq
  refine ⟨q, hq, ⟨sorted_of_row fun i => ?_, hpos, ?_⟩, hb⟩
  · rw [row_remove hq, row_remove hq]
    have h1 := row_anti hp.sorted (Nat.le_succ i)
    unfold CanRem at h
    split
    · next e => subst e; split <;> simp at h1 <;> omega
    · split
      · next e => subst e; omega
      · exact h1
  · have := sum_of_addsBoxAt hb
    rw [hp.sum] at this
    omega

theorem canRem_of_addsBoxAt {p q : List Nat} (hq : q.Pairwise (fun a b => b ≤ a)) {r : Nat}
    (h : AddsBoxAt q p r) : CanRem p r := by
  unfold CanRem
  have h1 := h r
  have h2 := h (r + 1)
  simp at h1 h2
  have := row_anti hq (Nat.le_succ r)
  simp at this
  omega

end Snob
