import Verif.Model.Tableau
import Verif.Spec.Tableau
import Verif.Proofs.PartitionList

namespace Snob

open IP

/-! ### cells -/

theorem cell_add {t : Tab} {r : Nat} (hr : r ≤ t.length) (v i j : Nat) :
    cell (Tab.add t r v) i j =
      if i = r ∧ j = row (t.map List.length) r then some v else cell t i j := by
  unfold cell Tab.add
  by_cases h : r < t.length
  · have hrow : row (t.map List.length) r = t[r].length := by
      rw [row_of_lt (by simpa using h)]; simp
    rw [if_pos h, hrow, List.getElem?_modify]
    by_cases e : r = i
    · subst e
      simp only [h, List.getElem?_eq_getElem, true_and, if_true, Option.map_eq_map,
        Option.map_some, Option.bind_some]
      rw [List.getElem?_append]
      rcases lt_trichotomy j t[r].length with h1 | h1 | h1
      · rw [if_pos h1, if_neg (by omega)]
      · rw [if_neg (by omega), if_pos h1]; simp [h1]
      · rw [if_neg (by omega), if_neg (by omega)]
        rw [List.getElem?_eq_none (by simp; omega), List.getElem?_eq_none (by omega)]
    · simp [e, Ne.symm e]
  · have e : r = t.length := by omega
    subst e
    rw [if_neg h, row_of_ge (by simp), List.getElem?_append]
    rcases lt_trichotomy i t.length with h1 | h1 | h1
    · rw [if_pos h1, if_neg (by omega)]
    · subst h1
      cases j <;> simp
    · rw [if_neg (by omega), if_neg (by omega)]
      rw [List.getElem?_eq_none (by simp; omega), List.getElem?_eq_none (by omega)]

theorem map_length_add (t : Tab) (r v : Nat) :
    (Tab.add t r v).map List.length = IP.add (t.map List.length) r 1 := by
  unfold Tab.add IP.add
  by_cases h : r < t.length
  · rw [if_pos h, if_pos (by simpa using h)]
    apply List.ext_getElem
    · simp
    · intro i h1 h2
      simp only [List.getElem_map, List.getElem_modify]
      split <;> simp
  · rw [if_neg h, if_neg (by simpa using h)]
    simp

theorem flatten_modify (t : Tab) (r v : Nat) (h : r < t.length) :
    (t.modify r (· ++ [v])).flatten.Perm (v :: t.flatten) := by
  induction t generalizing r with
  | nil => simp at h
  | cons x t ih =>
    cases r with
    | zero =>
      simp only [List.modify_zero_cons, List.flatten_cons, List.append_assoc, List.singleton_append]
      exact List.perm_middle
    | succ r =>
      simp only [List.modify_succ_cons, List.flatten_cons]
      exact ((ih r (by simpa using h)).append_left x).trans List.perm_middle

theorem flatten_add (t : Tab) (r v : Nat) : (Tab.add t r v).flatten.Perm (v :: t.flatten) := by
  unfold Tab.add
  split
  · next h => exact flatten_modify t r v h
  · simp only [List.flatten_append, List.flatten_cons, List.flatten_nil, List.append_nil]
    exact List.perm_append_singleton v _

theorem cell_isSome_iff (t : Tab) (i j : Nat) :
    (cell t i j).isSome ↔ j < row (t.map List.length) i := by
  unfold cell
  rcases Nat.lt_or_ge i t.length with h | h
  · rw [row_of_lt (by simpa using h)]
    simp [h]
  · rw [row_of_ge (by simpa using h)]
    simp [h]

theorem cell_lt {t : Tab} {i j x : Nat} (h : cell t i j = some x) :
    j < row (t.map List.length) i := (cell_isSome_iff t i j).1 (by simp [h])

theorem mem_flatten_iff (t : Tab) (x : Nat) : x ∈ t.flatten ↔ ∃ i j, cell t i j = some x := by
  rw [List.mem_flatten]
  constructor
  · rintro ⟨l, hl, hx⟩
    obtain ⟨i, hi, rfl⟩ := List.getElem_of_mem hl
    obtain ⟨j, hj, rfl⟩ := List.getElem_of_mem hx
    exact ⟨i, j, by simp [cell, hi, hj]⟩
  · rintro ⟨i, j, h⟩
    unfold cell at h
    rw [Option.bind_eq_some_iff] at h
    obtain ⟨l, h1, h2⟩ := h
    exact ⟨l, List.mem_of_getElem? h1, List.mem_of_getElem? h2⟩

theorem tab_ext {t t' : Tab} (hs : t.map List.length = t'.map List.length)
    (hc : ∀ i j, cell t i j = cell t' i j) : t = t' := by
  have hl : t.length = t'.length := by simpa using congrArg List.length hs
  refine List.ext_getElem hl fun i h1 h2 => ?_
  have hli : t[i].length = t'[i].length := by
    have := congrArg (fun l => l[i]?) hs
    simpa [h1, h2] using this
  refine List.ext_getElem hli fun j h3 h4 => ?_
  have := hc i j
  simpa [cell, h1, h2, h3, h4] using this

/-! ### index -/

theorem findInRow_some {m : Nat} {l : List Nat} {c : Nat} (h : Tab.findInRow m l = some c) :
    l[c]? = some m := by
  induction l generalizing c with
  | nil => simp [Tab.findInRow] at h
  | cons x l ih =>
    unfold Tab.findInRow at h
    split at h
    · next e => cases h; simp [e]
    · rw [Option.map_eq_some_iff] at h
      obtain ⟨c', h1, rfl⟩ := h
      simpa using ih h1

theorem findInRow_none {m : Nat} {l : List Nat} (h : Tab.findInRow m l = none) : m ∉ l := by
  induction l with
  | nil => simp
  | cons x l ih =>
    unfold Tab.findInRow at h
    split at h
    · cases h
    · next e =>
      rw [Option.map_eq_none_iff] at h
      simp [Ne.symm e, ih h]

theorem findPos_some {m : Nat} {t : Tab} {rc : Nat × Nat} (h : Tab.findPos m t = some rc) :
    cell t rc.1 rc.2 = some m := by
  induction t generalizing rc with
  | nil => simp [Tab.findPos] at h
  | cons x t ih =>
    unfold Tab.findPos at h
    rcases hx : Tab.findInRow m x with _ | c
    · rw [hx] at h
      simp only [Option.map_eq_some_iff] at h
      obtain ⟨rc', h1, rfl⟩ := h
      simpa [cell] using ih h1
    · rw [hx] at h
      cases h
      simpa [cell] using findInRow_some hx

theorem findPos_none {m : Nat} {t : Tab} (h : Tab.findPos m t = none) : m ∉ t.flatten := by
  induction t with
  | nil => simp
  | cons x t ih =>
    unfold Tab.findPos at h
    rcases hx : Tab.findInRow m x with _ | c
    · rw [hx] at h
      simp only [Option.map_eq_none_iff] at h
      simp [ih h, findInRow_none hx]
    · rw [hx] at h
      cases h

theorem cell_index {t : Tab} {m : Nat} (h : m ∈ t.flatten) :
    cell t (Tab.index t m).1 (Tab.index t m).2 = some m := by
  unfold Tab.index
  rcases hx : Tab.findPos m t with _ | rc
  · exact absurd h (findPos_none hx)
  · exact findPos_some hx

/-- entries are at most at one place -/
def Inj (t : Tab) : Prop :=
  ∀ i j i' j' m, cell t i j = some m → cell t i' j' = some m → i = i' ∧ j = j'

theorem index_of_cell {t : Tab} (hinj : Inj t) {i j m : Nat} (h : cell t i j = some m) :
    Tab.index t m = (i, j) := by
  have h1 := cell_index ((mem_flatten_iff t m).2 ⟨i, j, h⟩)
  obtain ⟨e1, e2⟩ := hinj _ _ _ _ _ h1 h
  exact Prod.ext e1 e2

theorem inj_of_nodup {t : Tab} (h : t.flatten.Nodup) : Inj t := by
  intro i j i' j' m h1 h2
  rw [List.nodup_flatten] at h
  obtain ⟨hr, hd⟩ := h
  unfold cell at h1 h2
  rw [Option.bind_eq_some_iff] at h1 h2
  obtain ⟨l, a1, b1⟩ := h1
  obtain ⟨l', a2, b2⟩ := h2
  have hi : i = i' := by
    by_contra hne
    obtain ⟨hi, rfl⟩ := List.getElem?_eq_some_iff.1 a1
    obtain ⟨hi', rfl⟩ := List.getElem?_eq_some_iff.1 a2
    have m1 := List.mem_of_getElem? b1
    have m2 := List.mem_of_getElem? b2
    rw [List.pairwise_iff_getElem] at hd
    rcases lt_or_gt_of_ne hne with hlt | hlt
    · exact hd i i' hi hi' hlt m1 m2
    · exact hd i' i hi' hi hlt m2 m1
  subst hi
  rw [a1] at a2
  cases a2
  refine ⟨rfl, ?_⟩
  have hn := hr l (List.mem_of_getElem? a1)
  obtain ⟨hj, e1⟩ := List.getElem?_eq_some_iff.1 b1
  obtain ⟨hj', e2⟩ := List.getElem?_eq_some_iff.1 b2
  exact (hn.getElem_inj_iff).1 (e1.trans e2.symm)

theorem nodup_of_inj {t : Tab} (h : Inj t) : t.flatten.Nodup := by
  rw [List.nodup_flatten]
  constructor
  · intro l hl
    obtain ⟨i, hi, rfl⟩ := List.getElem_of_mem hl
    rw [List.nodup_iff_getElem?_ne_getElem?]
    intro a b hab hb e
    have h1 : cell t i a = some (t[i])[a] := by simp [cell, hi]
    have h2 : cell t i b = some (t[i])[b] := by simp [cell, hi]
    rw [List.getElem?_eq_getElem (by omega), List.getElem?_eq_getElem hb] at e
    rw [← e] at h2
    exact absurd (h _ _ _ _ _ h1 h2).2 (by omega)
  · rw [List.pairwise_iff_getElem]
    intro i j hi hj hij m h1 h2
    obtain ⟨a, ha, e1⟩ := List.getElem_of_mem h1
    obtain ⟨b, hb, e2⟩ := List.getElem_of_mem h2
    have c1 : cell t i a = some m := by simp [cell, hi, ha, e1]
    have c2 : cell t j b = some m := by simp [cell, hj, hb, e2]
    exact absurd (h _ _ _ _ _ c1 c2).1 (by omega)

/-! ### exchanging entries -/

theorem setAt_spec {t : Tab} {rc : Nat × Nat} {m : Nat} (h : cell t rc.1 rc.2 = some m) (x : Nat) :
    ∃ t', Tab.setAt t rc x = some t' ∧ t'.map List.length = t.map List.length ∧
      ∀ i j, cell t' i j = if i = rc.1 ∧ j = rc.2 then some x else cell t i j := by
  unfold cell at h
  rw [Option.bind_eq_some_iff] at h
  obtain ⟨l, a, b⟩ := h
  obtain ⟨hi, rfl⟩ := List.getElem?_eq_some_iff.1 a
  obtain ⟨hj, _⟩ := List.getElem?_eq_some_iff.1 b
  refine ⟨t.set rc.1 (t[rc.1].set rc.2 x), ?_, ?_, ?_⟩
  · unfold Tab.setAt
    rw [a]
    simp only
    rw [if_pos hj]
  · rw [List.map_set]
    apply List.ext_getElem
    · simp
    · intro i h1 h2
      simp only [List.length_set, List.getElem_set, List.getElem_map]
      split
      · next e => subst e; rfl
      · rfl
  · intro i j
    unfold cell
    rw [List.getElem?_set]
    by_cases e : rc.1 = i
    · subst e
      simp only [hi, if_true, Option.bind_some, true_and, List.getElem?_eq_getElem]
      rw [List.getElem?_set]
      by_cases e' : rc.2 = j
      · subst e'; simp [hj]
      · simp [e', Ne.symm e']
    · simp [e, Ne.symm e]

/-- exchange of two numbers -/
def swp (i j m : Nat) : Nat := if m = i then j else if m = j then i else m

theorem swp_swp (i j m : Nat) : swp i j (swp i j m) = m := by
  unfold swp; split_ifs <;> simp_all

theorem applyTransp_spec {t : Tab} (hinj : Inj t) {i j : Nat} {ri ci rj cj : Nat}
    (hi : cell t ri ci = some i) (hj : cell t rj cj = some j) :
    ∃ t', Tab.applyTransp t i j = some (t', ((cj : Int) - rj) - ((ci : Int) - ri)) ∧
      t'.map List.length = t.map List.length ∧
      ∀ r c, cell t' r c = (cell t r c).map (swp i j) := by
  obtain ⟨t1, e1, s1, c1⟩ := setAt_spec (rc := (ri, ci)) hi j
  have hj1 : ∃ m, cell t1 rj cj = some m := by
    rw [c1]; split
    · exact ⟨_, rfl⟩
    · exact ⟨_, hj⟩
  obtain ⟨m, hm⟩ := hj1
  obtain ⟨t2, e2, s2, c2⟩ := setAt_spec (rc := (rj, cj)) hm i
  refine ⟨t2, ?_, s2.trans s1, ?_⟩
  · unfold Tab.applyTransp
    rw [index_of_cell hinj hi, index_of_cell hinj hj]
    simp only [e1, e2]
  · intro r c
    rw [c2, c1]
    by_cases h2 : r = rj ∧ c = cj
    · simp only [h2, and_self, if_true, hj, Option.map_some, swp]
      split
      · next h => rw [h]
      · rfl
    · rw [if_neg h2]
      by_cases h1 : r = ri ∧ c = ci
      · simp only [h1, and_self, if_true, hi, Option.map_some, swp]
      · rw [if_neg h1]
        rcases hx : cell t r c with _ | x
        · rfl
        · simp only [Option.map_some, swp]
          rw [if_neg, if_neg]
          · rintro rfl; exact h2 (hinj _ _ _ _ _ hx hj)
          · rintro rfl; exact h1 (hinj _ _ _ _ _ hx hi)

end Snob
