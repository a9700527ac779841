import Verif.Proofs.Tableau
import Mathlib.Data.List.Count

/-!
Standard tableaux as lattice words. A word lists, from the largest entry down to 1, the row of each
entry.
-/

namespace Snob

open IP

/-- every initial segment has a partition as shape -/
def Lat : List Nat → Prop
  | [] => True
  | r :: u => Lat u ∧ (r = 0 ∨ (0 < r ∧ u.count r < u.count (r - 1)))

/-- the tableau of a word -/
def toTab : List Nat → Tab
  | [] => []
  | r :: u => Tab.add (toTab u) r (u.length + 1)

/-- position (row, column) of entry `m` -/
def posW : List Nat → Nat → Nat × Nat
  | [], _ => (0, 0)
  | r :: u, m => if m = u.length + 1 then (r, u.count r) else posW u m

/-- content of entry `m` -/
def contW (u : List Nat) (m : Nat) : Int := ((posW u m).2 : Int) - (posW u m).1

theorem Lat.anti {u : List Nat} (h : Lat u) (r : Nat) : u.count (r + 1) ≤ u.count r := by
  induction u with
  | nil => simp
  | cons a u ih =>
    obtain ⟨h1, h2⟩ := h
    have h3 := ih h1
    rw [List.count_cons, List.count_cons]
    by_cases e : a = r + 1
    · subst e
      rcases h2 with h2 | ⟨_, h2⟩
      · omega
      · simp at h2 ⊢; omega
    · by_cases e' : a = r
      · subst e'; simp; omega
      · simp [e, e']; omega

theorem Lat.anti_le {u : List Nat} (h : Lat u) {r s : Nat} (hrs : r ≤ s) :
    u.count s ≤ u.count r := by
  induction s with
  | zero => have : r = 0 := by omega
            subst this; exact Nat.le_refl _
  | succ s ih =>
    rcases Nat.eq_or_lt_of_le hrs with e | e
    · rw [e]
    · exact le_trans (h.anti s) (ih (by omega))

theorem toTab_shape {u : List Nat} (h : Lat u) :
    IsPartition u.length ((toTab u).map List.length) ∧
      ∀ i, row ((toTab u).map List.length) i = u.count i := by
  induction u with
  | nil => exact ⟨⟨by simp [toTab], by simp [toTab], by simp [toTab]⟩, by simp [toTab]⟩
  | cons r u ih =>
    obtain ⟨h1, h2⟩ := h
    obtain ⟨i1, i2⟩ := ih h1
    have hc : CanAdd ((toTab u).map List.length) r := by
      unfold CanAdd; rw [i2, i2]; exact h2
    constructor
    · show IsPartition (u.length + 1) ((Tab.add (toTab u) r (u.length + 1)).map List.length)
      rw [map_length_add]
      exact isPartition_add i1 hc
    · intro i
      show row ((Tab.add (toTab u) r (u.length + 1)).map List.length) i = _
      rw [map_length_add, row_add _ _ _ _ hc.le_length, i2, List.count_cons]
      by_cases e : i = r
      · simp [e]
      · simp [e, Ne.symm e]

theorem toTab_le {u : List Nat} {r : Nat} (h : Lat (r :: u)) : r ≤ (toTab u).length := by
  obtain ⟨h1, h2⟩ := h
  obtain ⟨i1, i2⟩ := toTab_shape h1
  have hc : CanAdd ((toTab u).map List.length) r := by
    unfold CanAdd; rw [i2, i2]; exact h2
  simpa using hc.le_length

theorem posW_lt {u : List Nat} {m : Nat} (h1 : 1 ≤ m) (h2 : m ≤ u.length) :
    (posW u m).2 < u.count (posW u m).1 := by
  induction u with
  | nil => simp at h2; omega
  | cons r u ih =>
    unfold posW
    by_cases e : m = u.length + 1
    · simp [e]
    · simp only [e, if_false]
      have := ih (by simp at h2; omega)
      rw [List.count_cons]
      split <;> omega

theorem cell_toTab {u : List Nat} (h : Lat u) (i j m : Nat) :
    cell (toTab u) i j = some m ↔ (1 ≤ m ∧ m ≤ u.length ∧ posW u m = (i, j)) := by
  induction u generalizing i j m with
  | nil => simp [toTab, cell]; omega
  | cons r u ih =>
    have hle := toTab_le h
    obtain ⟨h1, h2⟩ := h
    obtain ⟨i1, i2⟩ := toTab_shape h1
    show cell (Tab.add (toTab u) r (u.length + 1)) i j = some m ↔ _
    rw [cell_add hle, i2]
    unfold posW
    by_cases e : i = r ∧ j = u.count r
    · obtain ⟨rfl, rfl⟩ := e
      simp only [and_self, if_true, Option.some_inj, List.length_cons]
      constructor
      · rintro rfl
        simp
      · rintro ⟨a, b, c⟩
        by_contra hne
        rw [if_neg (fun h => hne h.symm)] at c
        have := posW_lt a (by omega : m ≤ u.length)
        rw [c] at this
        simp at this
    · rw [if_neg e, ih h1]
      constructor
      · rintro ⟨a, b, c⟩
        refine ⟨a, by simp; omega, ?_⟩
        rw [if_neg (by omega)]
        exact c
      · rintro ⟨a, b, c⟩
        by_cases hm : m = u.length + 1
        · rw [if_pos hm] at c
          cases c
          exact absurd ⟨rfl, rfl⟩ e
        · rw [if_neg hm] at c
          simp at b
          exact ⟨a, by omega, c⟩

theorem toTab_flatten (u : List Nat) : (toTab u).flatten.Perm (List.range' 1 u.length) := by
  induction u with
  | nil => simp [toTab]
  | cons r u ih =>
    refine (flatten_add (toTab u) r (u.length + 1)).trans ?_
    rw [List.length_cons, List.range'_concat]
    refine (List.Perm.cons _ ih).trans ?_
    rw [Nat.one_mul, Nat.add_comm 1]
    exact (List.perm_append_singleton _ _).symm

theorem toTab_inj {u : List Nat} (h : Lat u) : Inj (toTab u) := by
  intro i j i' j' m h1 h2
  rw [cell_toTab h] at h1 h2
  have := h1.2.2.symm.trans h2.2.2
  cases this
  exact ⟨rfl, rfl⟩

theorem posW_cons_ne {r : Nat} {u : List Nat} {m : Nat} (h : m ≤ u.length) :
    posW (r :: u) m = posW u m := by
  unfold posW
  rw [if_neg (by omega)]
  cases u <;> rfl

theorem posW_cons_top {r : Nat} {u : List Nat} : posW (r :: u) (u.length + 1) = (r, u.count r) := by
  simp [posW]

theorem posW_row_lt {u : List Nat} (h : Lat u) {r c x y : Nat} (hx1 : 1 ≤ x) (hx : x ≤ u.length)
    (hy1 : 1 ≤ y) (hy : y ≤ u.length) (h1 : posW u x = (r, c)) (h2 : posW u y = (r, c + 1)) :
    x < y := by
  induction u with
  | nil => simp at hx; omega
  | cons a u ih =>
    have hl := h.1
    by_cases e : y = u.length + 1
    · have : x ≠ y := by rintro rfl; rw [h1] at h2; simp at h2
      simp at hx; omega
    · simp only [List.length_cons] at hx hy
      rw [posW_cons_ne (by omega)] at h2
      by_cases e' : x = u.length + 1
      · subst e'
        rw [posW_cons_top] at h1
        cases h1
        have := posW_lt hy1 (by omega : y ≤ u.length)
        rw [h2] at this
        simp at this
      · rw [posW_cons_ne (by omega)] at h1
        exact ih hl (by omega) (by omega) h1 h2

theorem posW_col_lt {u : List Nat} (h : Lat u) {r c x y : Nat} (hx1 : 1 ≤ x) (hx : x ≤ u.length)
    (hy1 : 1 ≤ y) (hy : y ≤ u.length) (h1 : posW u x = (r, c)) (h2 : posW u y = (r + 1, c)) :
    x < y := by
  induction u with
  | nil => simp at hx; omega
  | cons a u ih =>
    have hl := h.1
    by_cases e : y = u.length + 1
    · have : x ≠ y := by rintro rfl; rw [h1] at h2; simp at h2
      simp at hx; omega
    · simp only [List.length_cons] at hx hy
      rw [posW_cons_ne (by omega)] at h2
      by_cases e' : x = u.length + 1
      · subst e'
        rw [posW_cons_top] at h1
        cases h1
        have := posW_lt hy1 (by omega : y ≤ u.length)
        rw [h2] at this
        have h3 := hl.anti r
        simp at this
        omega
      · rw [posW_cons_ne (by omega)] at h1
        exact ih hl (by omega) (by omega) h1 h2

theorem toTab_isSYT {n : Nat} {p : List Nat} (hp : IsPartition n p) {u : List Nat} (h : Lat u)
    (hu : ∀ i, u.count i = row p i) : IsSYT p (toTab u) ∧ u.length = n := by
  obtain ⟨i1, i2⟩ := toTab_shape h
  have hs : (toTab u).map List.length = p :=
    i1.ext hp fun i => by rw [i2, hu]
  have hn : u.length = n := by rw [← i1.sum, hs, hp.sum]
  refine ⟨⟨hs, ?_, ?_, ?_⟩, hn⟩
  · rw [hp.sum, ← hn]; exact toTab_flatten u
  · intro r c x y h1 h2
    rw [cell_toTab h] at h1 h2
    exact posW_row_lt h h1.1 h1.2.1 h2.1 h2.2.1 h1.2.2 h2.2.2
  · intro r c x y h1 h2
    rw [cell_toTab h] at h1 h2
    exact posW_col_lt h h1.1 h1.2.1 h2.1 h2.2.1 h1.2.2 h2.2.2

/-! ### every standard tableau is given by a word -/

theorem IsSYT.inj {p : List Nat} {T : Tab} (h : IsSYT p T) : Inj T :=
  inj_of_nodup (h.entries.nodup_iff.2 List.nodup_range')

theorem IsSYT.range {p : List Nat} {T : Tab} (h : IsSYT p T) {i j x : Nat}
    (hc : cell T i j = some x) : 1 ≤ x ∧ x ≤ p.sum := by
  have := (mem_flatten_iff T x).2 ⟨i, j, hc⟩
  rw [h.entries.mem_iff, List.mem_range'_1] at this
  omega

theorem IsSYT.exists_cell {p : List Nat} {T : Tab} (h : IsSYT p T) {x : Nat} (h1 : 1 ≤ x)
    (h2 : x ≤ p.sum) : ∃ i j, cell T i j = some x := by
  rw [← mem_flatten_iff, h.entries.mem_iff, List.mem_range'_1]
  omega

theorem add_dropLast {t : Tab} {r : Nat} {l : List Nat} {v : Nat} (ht : t[r]? = some (l ++ [v]))
    (hl : l = [] → r + 1 = t.length) (hne : ∀ x ∈ t, x ≠ []) :
    ∃ t', t = Tab.add t' r v ∧ r ≤ t'.length ∧ ∀ x ∈ t', x ≠ [] := by
  obtain ⟨hr, e⟩ := List.getElem?_eq_some_iff.1 ht
  by_cases h0 : l = []
  · subst h0
    have h1 := hl rfl
    refine ⟨t.dropLast, ?_, by simp; omega, fun x hx => hne x (List.dropLast_subset t hx)⟩
    unfold Tab.add
    rw [if_neg (by simp; omega)]
    have h2 : t ≠ [] := by intro h; simp [h] at hr
    conv_lhs => rw [← List.dropLast_append_getLast h2]
    congr 2
    rw [List.getLast_eq_getElem]
    have : t.length - 1 = r := by omega
    simp only [this, e, List.nil_append]
  · refine ⟨t.modify r List.dropLast, ?_, by simp; omega, ?_⟩
    rotate_left
    · intro x hx
      obtain ⟨i, hi, rfl⟩ := List.getElem_of_mem hx
      rw [List.getElem_modify]
      split
      · next h => subst h; rw [e]; simpa using h0
      · exact hne _ (List.getElem_mem _)
    unfold Tab.add
    rw [if_pos (by simpa using hr)]
    apply List.ext_getElem
    · simp
    · intro i h1 h2
      simp only [List.getElem_modify]
      split
      · next h => subst h; rw [e]; simp
      · rfl

theorem IsSYT.peel {n : Nat} {p : List Nat} (hp : IsPartition (n + 1) p) {T : Tab}
    (h : IsSYT p T) : ∃ r q T', IsPartition n q ∧ AddsBoxAt q p r ∧ IsSYT q T' ∧
      T = Tab.add T' r (n + 1) := by
  obtain ⟨r, c, hc⟩ := h.exists_cell (x := n + 1) (by omega) (by rw [hp.sum])
  have hrow : ∀ i, row p i = row (T.map List.length) i := fun i => by rw [h.shape]
  have hlt : c < row p r := by rw [hrow]; exact cell_lt hc
  -- the cell is the end of its row
  have hlast : row p r = c + 1 := by
    by_contra hne
    have : (cell T r (c + 1)).isSome := by rw [cell_isSome_iff, ← hrow]; omega
    obtain ⟨y, hy⟩ := Option.isSome_iff_exists.1 this
    have h1 := h.rows r c _ y hc hy
    have h2 := (h.range hy).2
    rw [hp.sum] at h2
    omega
  have hrem : CanRem p r := by
    unfold CanRem
    by_contra hne
    have : (cell T (r + 1) c).isSome := by rw [cell_isSome_iff, ← hrow]; omega
    obtain ⟨y, hy⟩ := Option.isSome_iff_exists.1 this
    have h1 := h.cols r c _ y hc hy
    have h2 := (h.range hy).2
    rw [hp.sum] at h2
    omega
  obtain ⟨q, _, hq, hb⟩ := isPartition_remove hp hrem
  -- split the row
  have hr : r < T.length := by
    have := hrem.lt_length
    rw [← h.shape] at this
    simpa using this
  have hTr : ∃ l, T[r]? = some (l ++ [n + 1]) ∧ l.length = c := by
    have hlen : T[r].length = c + 1 := by
      rw [← hlast, hrow, row_of_lt (by simpa using hr)]; simp
    have hne : T[r] ≠ [] := by intro h; rw [h] at hlen; simp at hlen
    refine ⟨T[r].dropLast, ?_, by simp [hlen]⟩
    rw [List.getElem?_eq_getElem hr]
    congr 1
    conv_lhs => rw [← List.dropLast_append_getLast hne]
    congr 2
    rw [List.getLast_eq_getElem]
    have : cell T r c = some (T[r])[c] := by simp [cell, hr]
    rw [this] at hc
    simp only [hlen, Nat.add_sub_cancel]
    exact Option.some.inj hc
  obtain ⟨l, hl1, hl2⟩ := hTr
  obtain ⟨T', hT', hr', hne'⟩ := add_dropLast hl1 (by
    intro h0
    subst h0
    have h2 : row p (r + 1) = 0 := by unfold CanRem at hrem; simp at hl2; omega
    by_contra hne
    have hr2 : r < p.length := hrem.lt_length
    have hlen : T.length = p.length := by rw [← h.shape]; simp
    have := (row_pos_iff hp (r + 1)).2 (by omega)
    omega) (by
    intro x hx e
    subst e
    have : 0 ∈ p := by rw [← h.shape]; exact List.mem_map.2 ⟨[], hx, rfl⟩
    exact absurd (hp.pos 0 this) (by omega))
  refine ⟨r, q, T', hq, hb, ?_, hT'⟩
  have hrr : r ≤ (T'.map List.length).length := by simpa using hr'
  have hsh : T'.map List.length = q := by
    have e := h.shape
    rw [hT', map_length_add] at e
    refine eq_of_row ?_ hq.pos fun i => ?_
    · intro x hx
      obtain ⟨y, hy, rfl⟩ := List.mem_map.1 hx
      exact List.length_pos_of_ne_nil (hne' y hy)
    · have a1 := row_add (T'.map List.length) r 1 i hrr
      rw [e, hb i] at a1
      omega
  have hfl := flatten_add T' r (n + 1)
  rw [← hT'] at hfl
  have hent : T'.flatten.Perm (List.range' 1 n) := by
    have h1 := hfl.symm.trans h.entries
    rw [hp.sum, List.range'_concat, Nat.one_mul, Nat.add_comm 1] at h1
    exact (h1.trans (List.perm_append_singleton _ _)).cons_inv
  have hcell : ∀ i j x, cell T' i j = some x → cell T i j = some x := by
    intro i j x hx
    rw [hT', cell_add hr', if_neg, hx]
    rintro ⟨rfl, rfl⟩
    have := cell_lt hx
    omega
  exact ⟨hsh, by rw [hq.sum]; exact hent,
    fun i j x y h1 h2 => h.rows i j x y (hcell _ _ _ h1) (hcell _ _ _ h2),
    fun i j x y h1 h2 => h.cols i j x y (hcell _ _ _ h1) (hcell _ _ _ h2)⟩

theorem IsSYT.exists_word {n : Nat} {p : List Nat} (hp : IsPartition n p) {T : Tab}
    (h : IsSYT p T) : ∃ u, Lat u ∧ (∀ i, u.count i = row p i) ∧ T = toTab u := by
  induction n generalizing p T with
  | zero =>
    have hp0 : p = [] := by
      rcases p with _ | ⟨a, p⟩
      · rfl
      · have := hp.pos a (by simp)
        have := hp.sum
        simp at this
        omega
    subst hp0
    refine ⟨[], trivial, by simp, ?_⟩
    have := h.shape
    simpa [toTab] using this
  | succ n ih =>
    obtain ⟨r, q, T', hq, hb, hT', rfl⟩ := h.peel hp
    obtain ⟨u, hu, hc, rfl⟩ := ih hq hT'
    have hlen := (toTab_isSYT hq hu hc).2
    have hca := canAdd_of_addsBoxAt hp.sorted hb
    refine ⟨r :: u, ⟨hu, ?_⟩, ?_, ?_⟩
    · unfold CanAdd at hca
      rw [hc, hc]; exact hca
    · intro i
      rw [hb i, List.count_cons, hc]
      by_cases e : i = r
      · simp [e]
      · simp [e, Ne.symm e]
    · show _ = Tab.add (toTab u) r (u.length + 1)
      rw [hlen]

theorem isSYT_iff {n : Nat} {p : List Nat} (hp : IsPartition n p) (T : Tab) :
    IsSYT p T ↔ ∃ u, Lat u ∧ (∀ i, u.count i = row p i) ∧ T = toTab u :=
  ⟨fun h => h.exists_word hp, fun ⟨_, h1, h2, h3⟩ => h3 ▸ (toTab_isSYT hp h1 h2).1⟩

/-- a word is determined by its tableau -/
theorem toTab_injective {u v : List Nat} (hu : Lat u) (hv : Lat v) (h : toTab u = toTab v) :
    u = v := by
  have hlen : u.length = v.length := by
    rw [← (toTab_shape hu).1.sum, ← (toTab_shape hv).1.sum, h]
  have hpos : ∀ m, 1 ≤ m → m ≤ u.length → posW u m = posW v m := by
    intro m h1 h2
    have e := (cell_toTab hu (posW u m).1 (posW u m).2 m).2 ⟨h1, h2, rfl⟩
    rw [h, cell_toTab hv] at e
    exact e.2.2.symm
  clear h
  induction u generalizing v with
  | nil => exact (List.eq_nil_of_length_eq_zero (by simpa using hlen.symm)).symm
  | cons a u ih =>
    cases v with
    | nil => simp at hlen
    | cons b v =>
      have hl : u.length = v.length := by simpa using hlen
      have h1 := hpos (u.length + 1) (by omega) (by simp)
      rw [posW_cons_top, hl, posW_cons_top] at h1
      have hab : a = b := congrArg Prod.fst h1
      subst hab
      congr 1
      refine ih hu.1 hv.1 hl fun m m1 m2 => ?_
      have := hpos m m1 (by simp; omega)
      rwa [posW_cons_ne m2, posW_cons_ne (by omega)] at this

/-! ### the list of words of a shape -/

/-- the row in which `p` is longer than `q` -/
def growRow (q p : List Nat) : Nat := (Tab.newRow q p).getD 0

/-- words of the tableaux in the order of the code -/
def words : Nat → List Nat → List (List Nat)
  | 0, _ => [[]]
  | n + 1, p => (subs p).flatMap fun q => (words n q).map (growRow q p :: ·)

theorem newRow_eq {n : Nat} {q p : List Nat} (hp : IsPartition n p) {r : Nat}
    (h : AddsBoxAt q p r) : Tab.newRow q p = some r := by
  have hc := (canAdd_of_addsBoxAt hp.sorted h).le_length
  clear hp
  induction q generalizing p r with
  | nil => simp at hc; subst hc; rfl
  | cons b q ih =>
    cases p with
    | nil => have := h r; simp at this
    | cons a p =>
      unfold Tab.newRow
      have h0 := h 0
      simp only [row_cons_zero] at h0
      by_cases e : r = 0
      · subst e
        simp at h0
        rw [if_pos (by omega)]
      · obtain ⟨r, rfl⟩ := Nat.exists_eq_succ_of_ne_zero e
        simp at h0
        rw [if_neg (by omega), ih (r := r) (fun i => by
          have := h (i + 1)
          simpa using this) (by simpa using hc)]
        rfl

theorem growRow_eq {m n : Nat} {q p : List Nat} (_ : IsPartition m q) (hp : IsPartition n p) {r : Nat}
    (h : AddsBoxAt q p r) : growRow q p = r := by
  unfold growRow; rw [newRow_eq hp h]; rfl

theorem mem_words {n : Nat} {p : List Nat} (hp : IsPartition n p) (u : List Nat) :
    u ∈ words n p ↔ Lat u ∧ ∀ i, u.count i = row p i := by
  induction n generalizing p u with
  | zero =>
    have hp0 : p = [] := by
      rcases p with _ | ⟨a, p⟩
      · rfl
      · have := hp.pos a (by simp)
        have := hp.sum
        simp at this
        omega
    subst hp0
    simp only [words, List.mem_singleton, row_nil]
    constructor
    · rintro rfl; simp [Lat]
    · rintro ⟨_, h⟩
      rcases u with _ | ⟨a, u⟩
      · rfl
      · have := h a; simp at this
  | succ n ih =>
    simp only [words, List.mem_flatMap, List.mem_map]
    constructor
    · rintro ⟨q, hq, v, hv, rfl⟩
      obtain ⟨hq1, r, hb⟩ := (mem_subs hp q).1 hq
      obtain ⟨h1, h2⟩ := (ih hq1 v).1 hv
      rw [growRow_eq hq1 hp hb]
      have hca := canAdd_of_addsBoxAt hp.sorted hb
      refine ⟨⟨h1, ?_⟩, ?_⟩
      · unfold CanAdd at hca
        rw [h2, h2]; exact hca
      · intro i
        rw [hb i, List.count_cons, h2]
        by_cases e : i = r
        · simp [e]
        · simp [e, Ne.symm e]
    · rintro ⟨h1, h2⟩
      rcases u with _ | ⟨r, v⟩
      · exfalso
        have := hp.length_pos (by omega)
        have h3 := h2 0
        have h4 := (row_pos_iff hp 0).2 this
        simp at h3
        omega
      · obtain ⟨i1, i2⟩ := toTab_shape h1.1
        have hb : AddsBoxAt ((toTab v).map List.length) p r := by
          intro i
          rw [i2, ← h2 i, List.count_cons]
          by_cases e : i = r
          · simp [e]
          · simp [e, Ne.symm e]
        have hlen : v.length = n := by
          have := sum_of_addsBoxAt hb
          rw [hp.sum, i1.sum] at this
          omega
        rw [hlen] at i1
        refine ⟨_, (mem_subs hp _).2 ⟨i1, r, hb⟩, v, (ih i1 v).2 ⟨h1.1, fun i => (i2 i).symm⟩, ?_⟩
        rw [growRow_eq i1 hp hb]

theorem subs_nodup (p : List Nat) : (subs p).Nodup := by
  unfold List.Nodup
  refine (subs_pairwise p).imp ?_
  intro a b h e
  subst e
  exact lexGreater_irrefl a h

theorem words_nodup {n : Nat} {p : List Nat} (hp : IsPartition n p) : (words n p).Nodup := by
  induction n generalizing p with
  | zero => simp [words]
  | succ n ih =>
    simp only [words]
    rw [List.nodup_flatMap]
    constructor
    · intro q hq
      exact (ih ((mem_subs hp q).1 hq).1).map fun a b h => by simpa using h
    · refine List.Pairwise.imp_of_mem ?_ (subs_nodup p)
      intro q q' hq hq' hne
      obtain ⟨h1, r, hb⟩ := (mem_subs hp q).1 hq
      obtain ⟨h1', r', hb'⟩ := (mem_subs hp q').1 hq'
      intro u hu hu'
      obtain ⟨v, hv, rfl⟩ := List.mem_map.1 hu
      obtain ⟨v', hv', e⟩ := List.mem_map.1 hu'
      have e1 : v' = v := by simpa using (List.cons.inj e).2
      subst e1
      refine hne (h1.ext h1' fun i => ?_)
      rw [← ((mem_words h1 v').1 hv).2 i, ← ((mem_words h1' v').1 hv').2 i]

theorem makeTableaux_eq {n : Nat} {p : List Nat} (hn : 1 ≤ n) (hp : IsPartition n p) :
    Tab.makeTableaux n p = some ((words n p).map toTab) := by
  induction n generalizing p with
  | zero => omega
  | succ n ih =>
    rcases n with _ | n
    · have hp1 : p = [1] := by
        have := (mem_partitions 1 (by omega) p).2 hp
        simpa [partitions] using this
      subst hp1
      decide
    · unfold Tab.makeTableaux
      rw [bankParents_eq hp (by omega)]
      have key : ∀ ps : List (List Nat), (∀ q ∈ ps, IsPartition (n + 1) q ∧ AddsBox q p) →
          Tab.tableauxLoop (Tab.makeTableaux (n + 1)) p (n + 2) ps =
            some ((ps.flatMap fun q => (words (n + 1) q).map (growRow q p :: ·)).map toTab) := by
        intro ps hps
        induction ps with
        | nil => rfl
        | cons q ps ih2 =>
          obtain ⟨hq, r, hb⟩ := hps q (by simp)
          rw [Tab.tableauxLoop, newRow_eq hp hb, ih (by omega) hq,
            ih2 fun q' hq' => hps q' (by simp [hq'])]
          simp only [List.flatMap_cons, List.map_append, List.map_map]
          congr 2
          apply List.map_congr_left
          intro u hu
          have hw := (mem_words hq u).1 hu
          have hlen := (toTab_isSYT hq hw.1 hw.2).2
          simp only [Function.comp_apply, growRow_eq hq hp hb]
          show _ = Tab.add (toTab u) r (u.length + 1)
          rw [hlen]
      exact key (subs p) fun q hq => (mem_subs hp q).1 hq

theorem tableaux_eq {n : Nat} {p : List Nat} (hn : 1 ≤ n) (hp : IsPartition n p) :
    tableaux p = some ((words n p).map toTab) := by
  unfold tableaux
  rw [getn_eq, hp.sum]
  exact makeTableaux_eq hn hp

end Snob
