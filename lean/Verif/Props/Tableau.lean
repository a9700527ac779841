import Verif.Proofs.WordSwap

/-! # Properties C19 - C22: standard Young tableaux -/

namespace Snob.Props

open Snob

/-- **C19.** The tableaux list of a partition contains every standard tableau of that shape exactly
once and nothing else. -/
theorem C19_tableaux_complete (n : Nat) (hn : 1 ≤ n) (p : List Nat) (hp : IsPartition n p) :
    ∃ L, tableaux p = some L ∧ L.Nodup ∧ ∀ T, T ∈ L ↔ IsSYT p T := by
  refine ⟨_, tableaux_eq hn hp, ?_, ?_⟩
  · refine (words_nodup hp).map_on ?_
    intro u hu v hv h
    exact toTab_injective ((mem_words hp u).1 hu).1 ((mem_words hp v).1 hv).1 h
  · intro T
    rw [isSYT_iff hp, List.mem_map]
    constructor
    · rintro ⟨u, hu, rfl⟩
      obtain ⟨h1, h2⟩ := (mem_words hp u).1 hu
      exact ⟨u, h1, h2, rfl⟩
    · rintro ⟨u, h1, h2, rfl⟩
      exact ⟨u, (mem_words hp u).2 ⟨h1, h2⟩, rfl⟩

example : tableaux [2, 2] = some [[[1, 2], [3, 4]], [[1, 3], [2, 4]]] := by decide

/-- **C20.** The tableaux list of a partition of `n+1` is the concatenation, over its sub-partitions in
the order of `parents`, of their tableaux lists with `n+1` added in the removed box. -/
theorem C20_tableaux_adapted (n : Nat) (hn : 1 ≤ n) (p : List Nat) (hp : IsPartition (n + 1) p) :
    ∃ ps, IP.parents p = some ps ∧ ∃ (tab : List Nat → List Tab) (r : List Nat → Nat),
      (∀ q ∈ ps, tableaux q = some (tab q) ∧ AddsBoxAt q p (r q)) ∧
      tableaux p = some (ps.flatMap fun q => (tab q).map fun T => Tab.add T (r q) (n + 1)) := by
  refine ⟨_, parents_eq hp (by omega), fun q => (words n q).map toTab, fun q => growRow q p, ?_, ?_⟩
  · intro q hq
    obtain ⟨h1, r, hb⟩ := (mem_subs hp q).1 hq
    exact ⟨tableaux_eq hn h1, by show AddsBoxAt q p (growRow q p); rw [growRow_eq h1 hp hb]; exact hb⟩
  · rw [tableaux_eq (by omega) hp]
    congr 1
    simp only [words, List.map_flatMap, List.map_map]
    have key : ∀ L : List (List Nat), (∀ q ∈ L, IsPartition n q) →
        (L.flatMap fun q => (words n q).map (toTab ∘ (growRow q p :: ·))) =
        L.flatMap fun q => (words n q).map ((fun T => Tab.add T (growRow q p) (n + 1)) ∘ toTab) := by
      intro L hL
      induction L with
      | nil => rfl
      | cons q L ih =>
        rw [List.flatMap_cons, List.flatMap_cons, ih fun q' h => hL q' (by simp [h])]
        congr 1
        apply List.map_congr_left
        intro u hu
        have hq := hL q (by simp)
        obtain ⟨h1, h2⟩ := (mem_words hq u).1 hu
        have hlen := (toTab_isSYT hq h1 h2).2
        show Tab.add (toTab u) _ (u.length + 1) = _
        rw [hlen]
        rfl
    exact key _ fun q hq => ((mem_subs hp q).1 hq).1

example : IP.parents [2, 1] = some [[2], [1, 1]] ∧ tableaux [2] = some [[[1, 2]]] ∧
    tableaux [2, 1] = some [[[1, 2], [3]], [[1, 3], [2]]] := by decide

/-- **C21.** On a tableau with distinct entries `apply_transp(i,j)` exchanges the entries `i` and `j`,
leaves all other cells and the shape as they are, returns `content(j)-content(i)` (contents before the
call) and, called again, restores the tableau. -/
theorem C21_apply_transp (T : Tab) (hT : T.flatten.Nodup) (i j ri ci rj cj : Nat)
    (hi : cell T ri ci = some i) (hj : cell T rj cj = some j) :
    ∃ T', Tab.applyTransp T i j = some (T', ((cj : Int) - rj) - ((ci : Int) - ri)) ∧
      T'.map List.length = T.map List.length ∧
      cell T' ri ci = some j ∧ cell T' rj cj = some i ∧
      (∀ r c m, m ≠ i → m ≠ j → (cell T' r c = some m ↔ cell T r c = some m)) ∧
      ∃ d, Tab.applyTransp T' i j = some (T, d) := by
  have hinj := inj_of_nodup hT
  obtain ⟨T', e, hs, hc⟩ := applyTransp_spec hinj hi hj
  have h1 : cell T' ri ci = some j := by rw [hc, hi]; simp [swp]
  have h2 : cell T' rj cj = some i := by rw [hc, hj]; simp [swp]
  have hinj' : Inj T' := by
    intro a b a' b' m h3 h4
    rw [hc, Option.map_eq_some_iff] at h3 h4
    obtain ⟨x, hx, ex⟩ := h3
    obtain ⟨y, hy, ey⟩ := h4
    have : x = y := by rw [← swp_swp i j x, ex, ← ey, swp_swp]
    subst this
    exact hinj _ _ _ _ _ hx hy
  obtain ⟨T'', e', hs', hc'⟩ := applyTransp_spec hinj' h2 h1
  refine ⟨T', e, hs, h1, h2, ?_, ?_⟩
  · intro r c m n1 n2
    rw [hc, Option.map_eq_some_iff]
    constructor
    · rintro ⟨x, hx, rfl⟩
      have : swp i j x = x := by
        unfold swp at n1 n2 ⊢
        split_ifs at n1 n2 ⊢ <;> first | rfl | (exact absurd rfl n1) | (exact absurd rfl n2)
      rw [this]; exact hx
    · intro h
      exact ⟨m, h, by simp [swp, n1, n2]⟩
  · have : T'' = T := tab_ext (hs'.trans hs) fun r c => by
      rw [hc', hc]
      rcases cell T r c with _ | x
      · rfl
      · simp [swp_swp]
    subst this
    exact ⟨_, e'⟩

example : Tab.applyTransp [[1, 2, 5], [3, 4]] 2 3 = some ([[1, 3, 5], [2, 4]], -2) ∧
    Tab.applyTransp [[1, 3, 5], [2, 4]] 2 3 = some ([[1, 2, 5], [3, 4]], 2) ∧
    ([[1, 2, 5], [3, 4]] : Tab).flatten.Nodup := by decide

/-- **C21.** For neighbouring entries of a standard tableau the distance is never zero, and the result
is standard exactly when the distance is neither 1 nor -1. -/
theorem C21_adjacent (n : Nat) (p : List Nat) (hp : IsPartition n p) (T : Tab) (hT : IsSYT p T)
    (i : Nat) (h1 : 1 ≤ i) (h2 : i < n) :
    ∃ T' d, Tab.applyTransp T i (i + 1) = some (T', d) ∧ d ≠ 0 ∧
      (IsSYT p T' ↔ d ≠ 1 ∧ d ≠ -1) := by
  obtain ⟨u, hu, hc, rfl⟩ := hT.exists_word hp
  have hlen := (toTab_isSYT hp hu hc).2
  obtain ⟨T', d, e, _, h0, hs, hcell, hyes, hno⟩ := applyTransp_toTab hu h1 (by omega)
  refine ⟨T', d, e, h0, ?_, ?_⟩
  · intro h
    constructor
    · intro hd; exact hno (Or.inl hd) p h
    · intro hd; exact hno (Or.inr hd) p h
  · intro hd
    obtain ⟨u', hu', rfl, _, hcnt, _⟩ := hyes hd
    exact (toTab_isSYT hp hu' fun r => by rw [hcnt, hc]).1

example : IsPartition 3 [2, 1] ∧ IsSYT [2, 1] [[1, 2], [3]] := by
  refine ⟨⟨by decide, by decide, by decide⟩, ?_⟩
  obtain ⟨L, h1, _, h3⟩ := C19_tableaux_complete 3 (by decide) [2, 1] ⟨by decide, by decide, by decide⟩
  have : tableaux [2, 1] = some [[[1, 2], [3]], [[1, 3], [2]]] := by decide
  rw [this] at h1
  cases h1
  exact (h3 _).1 (by simp)

/-! ### C22 -/

theorem shape_eq (T : Tab) : Tab.shape T = T.map List.length := by
  have key : ∀ i, i ≤ T.length →
      (List.range i).foldl (fun r i => IP.add r i ((T[i]?.map List.length).getD 0))
        (List.replicate T.length 0) =
      (T.map List.length).take i ++ List.replicate (T.length - i) 0 := by
    intro i hi
    induction i with
    | zero => simp
    | succ i ih =>
      rw [List.range_succ, List.foldl_append, ih (by omega)]
      simp only [List.foldl_cons, List.foldl_nil]
      have hi' : i < T.length := by omega
      unfold IP.add
      rw [if_pos (by simp; omega)]
      apply List.ext_getElem
      · simp; omega
      · intro j h1 h2
        rw [List.getElem_modify]
        simp only [List.getElem_append, List.length_take, List.length_map, List.getElem_take,
          List.getElem_map, List.getElem_replicate]
        rcases lt_trichotomy j i with h | h | h
        · have : j < T.length := by omega
          simp [h, show ¬ i = j by omega, show j < i + 1 by omega, this]
        · subst h; simp [hi']
        · simp [show ¬ i = j by omega, show ¬ j < i by omega, show ¬ j < i + 1 by omega]
  have := key T.length (Nat.le_refl _)
  unfold Tab.shape
  rw [this]
  simp

theorem cell_ofShapeFrom (t : Nat) (p : List Nat) (r c : Nat) :
    cell (Tab.ofShapeFrom t p) r c =
      if c < row p r then some (t + (p.take r).sum + c) else none := by
  induction p generalizing t r with
  | nil => simp [Tab.ofShapeFrom, cell]
  | cons x p ih =>
    cases r with
    | zero =>
      simp only [Tab.ofShapeFrom, cell, row_cons_zero, List.take_zero, List.sum_nil, Nat.add_zero]
      simp only [List.getElem?_cons_zero, Option.bind_some]
      by_cases h : c < x
      · simp [h]
      · simp [h]
    | succ r =>
      have := ih (t + x) r
      simp only [Tab.ofShapeFrom, cell, row_cons_succ, List.take_succ_cons, List.sum_cons] at this ⊢
      rw [List.getElem?_cons_succ, this]
      simp [Nat.add_assoc]

/-- **C22.** `shape()` returns the row lengths; the tableau built from a shape is standard of that shape
and its `shape()` is that shape (no assumption on `p` is needed). -/
theorem C22_shape_of_shape (p : List Nat) :
    IsSYT p (Tab.ofShape p) ∧ Tab.shape (Tab.ofShape p) = p ∧
      ∀ T : Tab, Tab.shape T = T.map List.length := by
  have hsh : ∀ (t : Nat) (p : List Nat), (Tab.ofShapeFrom t p).map List.length = p := by
    intro t p
    induction p generalizing t with
    | nil => rfl
    | cons x p ih => simp [Tab.ofShapeFrom, ih]
  have hfl : ∀ (t : Nat) (p : List Nat), (Tab.ofShapeFrom t p).flatten = List.range' t p.sum := by
    intro t p
    induction p generalizing t with
    | nil => rfl
    | cons x p ih =>
      simp only [Tab.ofShapeFrom, List.flatten_cons, ih, List.sum_cons]
      rw [List.range'_append_1]
  refine ⟨⟨hsh 1 p, ?_, ?_, ?_⟩, ?_, shape_eq⟩
  · show (Tab.ofShapeFrom 1 p).flatten.Perm _
    rw [hfl]
  · intro r c x y h1 h2
    unfold Tab.ofShape at h1 h2
    rw [cell_ofShapeFrom] at h1 h2
    split at h1 <;> split at h2 <;> simp at h1 h2
    omega
  · intro r c x y h1 h2
    unfold Tab.ofShape at h1 h2
    rw [cell_ofShapeFrom] at h1 h2
    split at h1 <;> split at h2 <;> simp at h1 h2
    next hc _ =>
      have hr : r < p.length := by
        by_contra hne
        rw [row_of_ge (by omega)] at hc
        omega
      have : (p.take (r + 1)).sum = (p.take r).sum + row p r := by
        rw [List.take_add_one, List.sum_append, getElem?_eq_row hr]
        simp
      omega
  · rw [shape_eq]
    exact hsh 1 p

example : Tab.ofShape [3, 2] = [[1, 2, 3], [4, 5]] ∧ Tab.shape [[1, 2, 3], [4, 5]] = [3, 2] := by
  decide

/-- **C22.** `add(r,j)` puts `j` in the first free column of row `r` (or opens a new last row), and
`remove(r)` afterwards restores the tableau when the row was not empty or is new. -/
theorem C22_add_remove_partial (T : Tab) (r j : Nat) (hr : r ≤ T.length)
    (hne : ∀ row, T[r]? = some row → row ≠ []) :
    Tab.remove (Tab.add T r j) r = some T ∧
      (∀ i c, cell (Tab.add T r j) i c =
        if i = r ∧ c = row (T.map List.length) r then some j else cell T i c) := by
  refine ⟨?_, fun i c => cell_add hr j i c⟩
  unfold Tab.add
  by_cases h : r < T.length
  · rw [if_pos h]
    have hlen : T[r] ≠ [] := hne _ (List.getElem?_eq_getElem h)
    have hpos := List.length_pos_of_ne_nil hlen
    unfold Tab.remove
    rw [List.getElem?_modify]
    simp only [if_true, List.getElem?_eq_getElem h, Option.map_eq_map, Option.map_some]
    rw [if_pos (by simp; omega)]
    congr 1
    apply List.ext_getElem
    · simp
    · intro i h1 h2
      simp only [List.getElem_modify]
      split
      · next e => subst e; simp
      · rfl
  · have e : r = T.length := by omega
    subst e
    rw [if_neg h]
    unfold Tab.remove
    simp

example : Tab.remove (Tab.add [[1, 2], [3]] 1 4) 1 = some [[1, 2], [3]] ∧
    Tab.remove (Tab.add [[1, 2], [3]] 2 4) 2 = some [[1, 2], [3]] := by decide

/-- **C22**, where the code goes wrong: removing the only box of an inner row deletes the last row
instead (entry 4 is lost, entry 3 stays). -/
theorem C22_remove_inner_row : Tab.remove [[1, 2], [3], [4]] 1 = some [[1, 2], [3]] := by decide

/-- **C22, reading.** `at(r,c)` is the entry in row `r` and column `c`; `index(m)` says where `m` is: the entry there is
`m`, and in a tableau without repetitions it is the only such place. -/
theorem C22_at_index (T : Tab) :
    (∀ r c m, Tab.at' T r c = some m ↔ ∃ row, T[r]? = some row ∧ row[c]? = some m) ∧
    (∀ m ∈ T.flatten, Tab.at' T (Tab.index T m).1 (Tab.index T m).2 = some m) ∧
    (T.flatten.Nodup → ∀ r c m, Tab.at' T r c = some m → Tab.index T m = (r, c)) ∧
    (∀ m, m ∉ T.flatten → Tab.index T m = (0, 0)) := by
  refine ⟨fun r c m => Option.bind_eq_some_iff, fun m h => cell_index h, fun h r c m hm => index_of_cell (inj_of_nodup h) hm, ?_⟩
  intro m hm
  unfold Tab.index
  rcases hx : Tab.findPos m T with _ | rc
  · rfl
  · exact absurd ((mem_flatten_iff T m).2 ⟨_, _, findPos_some hx⟩) hm

example : Tab.at' [[1, 2, 4], [3, 5]] 0 2 = some 4 ∧ Tab.index [[1, 2, 4], [3, 5]] 5 = (1, 1) ∧
    Tab.at' [[1, 2, 4], [3, 5]] 1 2 = none ∧ Tab.index [[1, 2, 4], [3, 5]] 6 = (0, 0) := by decide

end Snob.Props
