import Verif.Proofs.FFTTmpl

/-! # Positions of words and the assembly of blocks -/

namespace Snob

open IP

/-! ## Positions -/

theorem idxOf_map_inj {α β : Type} [BEq α] [LawfulBEq α] [BEq β] [LawfulBEq β] (f : α → β) (hf : Function.Injective f) (l : List α) (x : α) :
    (l.map f).idxOf (f x) = l.idxOf x := by
  induction l with
  | nil => rfl
  | cons a l ih =>
    rw [List.map_cons]
    by_cases h : a = x
    · rw [h, List.idxOf_cons_self, List.idxOf_cons_self]
    · rw [List.idxOf_cons_ne _ (fun e => h (hf e)), List.idxOf_cons_ne _ h, ih]

theorem idxOf_inj {α : Type} [BEq α] [LawfulBEq α] {l : List α} {x y : α} (hx : x ∈ l) (h : l.idxOf x = l.idxOf y) : x = y := by
  have h1 := List.idxOf_lt_length_of_mem hx
  have h2 : l.idxOf y < l.length := by rw [← h]; exact h1
  have h3 : l[l.idxOf x]? = some x := by rw [List.getElem?_eq_getElem h1, List.getElem_idxOf]
  have h4 : l[l.idxOf y]? = some y := by rw [List.getElem?_eq_getElem h2, List.getElem_idxOf]
  rw [h] at h3
  exact Option.some.inj (h3.symm.trans h4)

/-- row number of a word -/
def rowIx (n : Nat) (p : List Nat) (u : List Nat) : Nat := (words n p).idxOf u

/-- column number of a word -/
def colIx (m n : Nat) (p : List Nat) (u : List Nat) : Nat := (colW m n p).idxOf u

theorem rowIx_lt {n : Nat} {p : List Nat} (u : Wd n p) : rowIx n p u.1 < dimW n p := List.idxOf_lt_length_of_mem u.2

theorem mem_colW {m n : Nat} {p : List Nat} (u : Wd n p) (h : goodW m u.1 = true) : u.1 ∈ colW m n p :=
  List.mem_filter.2 ⟨u.2, h⟩

theorem colIx_lt {m n : Nat} {p : List Nat} (u : Wd n p) (h : goodW m u.1 = true) : colIx m n p u.1 < (colW m n p).length :=
  List.idxOf_lt_length_of_mem (mem_colW u h)

theorem rowIx_inj {n : Nat} {p : List Nat} {u v : Wd n p} (h : rowIx n p u.1 = rowIx n p v.1) : u = v :=
  Subtype.ext (idxOf_inj u.2 h)

theorem colIx_inj {m n : Nat} {p : List Nat} {u v : Wd n p} (hu : goodW m u.1 = true) (h : colIx m n p u.1 = colIx m n p v.1) :
    u = v :=
  Subtype.ext (idxOf_inj (mem_colW u hu) h)

theorem exists_rowIx {n : Nat} {p : List Nat} {i : Nat} (hp : IsPartition n p) (h : i < dimW n p) : ∃ u : Wd n p, rowIx n p u.1 = i :=
  ⟨⟨(words n p)[i], List.getElem_mem h⟩, List.Nodup.idxOf_getElem (words_nodup hp) i h⟩

theorem exists_colIx {m n : Nat} {p : List Nat} {k : Nat} (hp : IsPartition n p) (h : k < (colW m n p).length) :
    ∃ u : Wd n p, goodW m u.1 = true ∧ colIx m n p u.1 = k := by
  have h1 : (colW m n p)[k] ∈ colW m n p := List.getElem_mem h
  obtain ⟨h2, h3⟩ := List.mem_filter.1 h1
  refine ⟨⟨_, h2⟩, h3, ?_⟩
  exact List.Nodup.idxOf_getElem ((words_nodup hp).filter _) k h

/-- offset of the blocks of the given sub-partitions -/
def rowOff (l : Nat) (S : List (List Nat)) : Nat := (S.map (dimW l)).sum

def colOff (m l : Nat) (S : List (List Nat)) : Nat := (S.map fun q => (colW m l q).length).sum

theorem idxOf_flatMap {S1 S2 : List (List Nat)} {q : List Nat} (g : List Nat → List (List Nat)) (x : List Nat)
    (h1 : ∀ q' ∈ S1, x ∉ g q') (h2 : x ∈ g q) :
    ((S1 ++ q :: S2).flatMap g).idxOf x = (S1.map fun q' => (g q').length).sum + (g q).idxOf x := by
  rw [List.flatMap_append, List.flatMap_cons, List.idxOf_append_of_notMem, List.idxOf_append_of_mem h2, List.length_flatMap]
  intro h
  obtain ⟨q', hq', h⟩ := List.mem_flatMap.1 h
  exact h1 q' hq' h

section
variable {m l : Nat} {p q : List Nat} {r : Nat}

theorem emb_val (hp : IsPartition (l + 1) p) (hq : IsPartition l q) (hb : AddsBoxAt q p r) (u : Wd l q) :
    (emb hp hq hb u).1 = growRow q p :: u.1 := by
  rw [growRow_eq hq hp hb]; rfl

theorem not_mem_block (hp : IsPartition (l + 1) p) (hq : IsPartition l q) (hb : AddsBoxAt q p r) {q' : List Nat}
    (hq' : q' ∈ subs p) (hne : q' ≠ q) (u : List Nat) (W : List (List Nat)) :
    growRow q p :: u ∉ W.map (growRow q' p :: ·) := by
  intro h
  obtain ⟨h1, r', hb'⟩ := (mem_subs hp q').1 hq'
  obtain ⟨w, -, h⟩ := List.mem_map.1 h
  have h2 := (List.cons.inj h).1
  rw [growRow_eq hq hp hb, growRow_eq h1 hp hb'] at h2
  subst h2
  exact hne (sub_unique h1 hq hb' hb)

theorem subs_split (m : Nat) (p : List Nat) : ∃ t, subs p = subsM m p ++ t := by
  obtain ⟨t, h, -⟩ := filter_prefix (subs_pairwise p) (fun q => decide (m ≤ row q 0)) (by
    intro x _ y _ hxy hy
    rw [decide_eq_true_iff] at hy ⊢
    obtain ⟨i, h1, h2⟩ := hxy
    rcases Nat.eq_zero_or_pos i with e | e
    · subst e; omega
    · have := h1 0 e; omega)
  exact ⟨t, h⟩

theorem subsM_nodup (m : Nat) (p : List Nat) : (subsM m p).Nodup := (subs_nodup p).filter _

theorem mem_subsM (hp : IsPartition (l + 1) p) (q : List Nat) :
    q ∈ subsM m p ↔ (IsPartition l q ∧ AddsBox q p) ∧ m ≤ row q 0 := by
  unfold subsM
  rw [List.mem_filter, mem_subs hp, decide_eq_true_iff]

theorem rowIx_emb (hp : IsPartition (l + 1) p) (hq : IsPartition l q) (hb : AddsBoxAt q p r) (u : Wd l q)
    {S1 S2 : List (List Nat)} (hS : subsM m p = S1 ++ q :: S2) :
    rowIx (l + 1) p (emb hp hq hb u).1 = rowOff l S1 + rowIx l q u.1 := by
  obtain ⟨t, ht⟩ := subs_split m p
  have hnd := subsM_nodup m p
  rw [hS] at ht hnd
  unfold rowIx
  rw [emb_val, words, ht, List.append_assoc, List.cons_append, idxOf_flatMap]
  · rw [idxOf_map_inj (growRow q p :: ·) (fun a b h => (List.cons.inj h).2)]
    simp only [List.length_map]
    rfl
  · intro q' hq'
    refine not_mem_block hp hq hb (by rw [ht]; simp [hq']) ?_ _ _
    rintro rfl
    exact (List.nodup_append.1 hnd).2.2 q' hq' q' (by simp) rfl
  · exact List.mem_map.2 ⟨u.1, u.2, rfl⟩

theorem good_emb (hp : IsPartition (l + 1) p) (hq : IsPartition l q) (hb : AddsBoxAt q p r) (hm : m ≤ l) (w : Wd l q) :
    goodW m (emb hp hq hb w).1 = goodW m w.1 := by
  rw [emb_val]
  exact goodW_cons (by rw [w.length hq]; exact hm)

theorem colIx_emb (hm : m ≤ l) (hp : IsPartition (l + 1) p) (hq : IsPartition l q) (hb : AddsBoxAt q p r) (w : Wd l q)
    (hw : goodW m w.1 = true) {S1 S2 : List (List Nat)} (hS : subsM m p = S1 ++ q :: S2) :
    colIx m (l + 1) p (emb hp hq hb w).1 = colOff m l S1 + colIx m l q w.1 := by
  obtain ⟨t, ht⟩ := subs_split m p
  have hnd := subsM_nodup m p
  rw [hS] at ht hnd
  unfold colIx
  rw [emb_val, colW_succ hm hp, hS, idxOf_flatMap]
  · rw [idxOf_map_inj (growRow q p :: ·) (fun a b h => (List.cons.inj h).2)]
    simp only [List.length_map]
    rfl
  · intro q' hq'
    refine not_mem_block hp hq hb (by rw [ht]; simp [hq']) ?_ _ _
    rintro rfl
    exact (List.nodup_append.1 hnd).2.2 q' hq' q' (by simp) rfl
  · exact List.mem_map.2 ⟨w.1, mem_colW w hw, rfl⟩

/-- a word with its first letters in row zero lies over a partition of the level -/
theorem exists_emb_good (hm : m ≤ l) (hp : IsPartition (l + 1) p) (w : Wd (l + 1) p) (hw : goodW m w.1 = true) :
    ∃ q ∈ subsM m p, ∃ (hq : IsPartition l q) (r : Nat) (hb : AddsBoxAt q p r) (w' : Wd l q),
      goodW m w'.1 = true ∧ w = emb hp hq hb w' := by
  obtain ⟨q, hqs, hq, r, hb, w', rfl⟩ := exists_emb hp w
  rw [good_emb hp hq hb hm] at hw
  refine ⟨q, (mem_subsM hp q).2 ⟨⟨hq, r, hb⟩, ?_⟩, hq, r, hb, w', hw, rfl⟩
  rw [← ((mem_words hq w'.1).1 w'.2).2 0]
  exact goodW_count hw (by rw [w'.length hq]; exact hm)

end

/-! ## Vectors of parts -/

/-- a part of shape `p` at level `l` with the given entries -/
structure Holds' {l : Nat} (m N : Nat) {p : List Nat} (G : Nat → Wd l p → Wd l p → ℝ) (P : MPart) : Prop where
  N_eq : P.N = N
  d_eq : P.d = dimW l p
  m_eq : P.m = (colW m l p).length
  data : ∀ (u w : Wd l p), goodW m w.1 = true → ∀ s < N, P.data (rowIx l p u.1) (s, colIx m l p w.1) = G s u w

/-- a vector of parts at level `l` -/
structure VecOk (m l N : Nat) (G : (p : List Nat) → IsPartition l p → Nat → Wd l p → Wd l p → ℝ) (v : List MPart) : Prop where
  len : v.length = (PL m l).length
  part : ∀ (i : Nat) (p : List Nat) (hp : IsPartition l p), (PL m l)[i]? = some p →
    ∃ P, v[i]? = some P ∧ Holds' m N (G p hp) P

theorem VecOk.at {m l N : Nat} {G : (p : List Nat) → IsPartition l p → Nat → Wd l p → Wd l p → ℝ} {v : List MPart}
    (h : VecOk m l N G v) {q : List Nat} (hq : IsPartition l q) (hm : q ∈ PL m l) :
    ∃ P, v[(PL m l).idxOf q]? = some P ∧ Holds' m N (G q hq) P := by
  refine h.part _ q hq ?_
  rw [List.getElem?_eq_getElem (List.idxOf_lt_length_of_mem hm), List.getElem_idxOf]

/-- `Gup` is the block diagonal sum of the `G q` -/
structure BlockDiag {l : Nat} (m : Nat) {p : List Nat} (hp : IsPartition (l + 1) p)
    (G : (q : List Nat) → IsPartition l q → Nat → Wd l q → Wd l q → ℝ)
    (Gup : Nat → Wd (l + 1) p → Wd (l + 1) p → ℝ) : Prop where
  diag : ∀ (q : List Nat) (hq : IsPartition l q) (r : Nat) (hb : AddsBoxAt q p r) (s : Nat) (u w : Wd l q), goodW m w.1 = true →
    Gup s (emb hp hq hb u) (emb hp hq hb w) = G q hq s u w
  off : ∀ (q : List Nat) (hq : IsPartition l q) (r : Nat) (hb : AddsBoxAt q p r) (q' : List Nat) (hq' : IsPartition l q')
    (r' : Nat) (hb' : AddsBoxAt q' p r') (s : Nat) (u : Wd l q) (w : Wd l q'), r ≠ r' → goodW m w.1 = true →
    Gup s (emb hp hq hb u) (emb hp hq' hb' w) = 0

open Classical in
theorem blockLoop_eq {m l N : Nat} (hm : m ≤ l) (hl : 0 < l) {p : List Nat} (hp : IsPartition (l + 1) p)
    {G : (q : List Nat) → IsPartition l q → Nat → Wd l q → Wd l q → ℝ} {v : List MPart} (hv : VecOk m l N G v)
    {Gup : Nat → Wd (l + 1) p → Wd (l + 1) p → ℝ} (hG : BlockDiag m hp G Gup)
    (S1 S2 : List (List Nat)) (hS : subsM m p = S1 ++ S2) (P : MPart)
    (hP : Holds' m N (fun s u w => if w.1.head? ∈ S1.map (fun q => some (growRow q p)) then Gup s u w else 0) P) :
    ∃ P', blockLoop v (blocksW m l (rowOff l S1) (colOff m l S1) S2) P = some P' ∧ P'.irrep = P.irrep ∧ Holds' m N Gup P' := by
  induction S2 generalizing S1 P with
  | nil =>
    refine ⟨P, rfl, rfl, hP.N_eq, hP.d_eq, hP.m_eq, fun u w hw s hs => ?_⟩
    rw [hP.data u w hw s hs, if_pos]
    obtain ⟨q, hqm, hq, r, hb, w', hw', rfl⟩ := exists_emb_good hm hp w hw
    rw [hS, List.append_nil] at hqm
    rw [emb_val]
    exact List.mem_map.2 ⟨q, hqm, rfl⟩
  | cons q S2 ih =>
    have hqm : q ∈ subsM m p := by rw [hS]; simp
    obtain ⟨⟨hq, r, hb⟩, hqr⟩ := (mem_subsM hp q).1 hqm
    have hnd := subsM_nodup m p
    rw [hS] at hnd
    obtain ⟨M, hM, hMh⟩ := hv.at hq ((mem_PL hl q).2 ⟨hq, hqr⟩)
    have hoff1 : rowOff l (S1 ++ [q]) = rowOff l S1 + dimW l q := by simp [rowOff]
    have hoff2 : colOff m l (S1 ++ [q]) = colOff m l S1 + (colW m l q).length := by simp [colOff]
    -- bounds
    have hb1 : rowOff l S1 + dimW l q ≤ dimW (l + 1) p := by
      obtain ⟨u, hu⟩ := exists_rowIx (n := l) (p := q) (i := dimW l q - 1) hq (by have := dimW_pos hq; omega)
      have h1 := rowIx_emb hp hq hb u hS
      have h2 := rowIx_lt (emb hp hq hb u)
      have := dimW_pos hq
      omega
    have hb2 : colOff m l S1 + (colW m l q).length ≤ (colW m (l + 1) p).length := by
      rw [colW_succ hm hp, hS, List.length_flatMap]
      simp only [List.length_map, List.map_append, List.map_cons, List.sum_append, List.sum_cons, colOff]
      omega
    have hcond : M.N = P.N ∧ rowOff l S1 + M.d ≤ P.d ∧ colOff m l S1 + M.m ≤ P.m := by
      rw [hMh.N_eq, hP.N_eq, hMh.d_eq, hMh.m_eq, hP.d_eq, hP.m_eq]
      exact ⟨rfl, hb1, hb2⟩
    have hstep : P.addToBlock (rowOff l S1) (colOff m l S1) M = some { P with data := (fun i k =>
        if rowOff l S1 ≤ i ∧ i < rowOff l S1 + M.d ∧ colOff m l S1 ≤ k.2 ∧ k.2 < colOff m l S1 + M.m then
          P.data i k + M.data (i - rowOff l S1) (k.1, k.2 - colOff m l S1)
        else P.data i k) } := by
      unfold MPart.addToBlock
      rw [if_pos hcond]
    obtain ⟨P', h1, h2, h3⟩ := ih (S1 ++ [q]) (by rw [hS]; simp) { P with data := (fun i k =>
        if rowOff l S1 ≤ i ∧ i < rowOff l S1 + M.d ∧ colOff m l S1 ≤ k.2 ∧ k.2 < colOff m l S1 + M.m then
          P.data i k + M.data (i - rowOff l S1) (k.1, k.2 - colOff m l S1)
        else P.data i k) } (by
      refine ⟨hP.N_eq, hP.d_eq, hP.m_eq, fun u w hw s hs => ?_⟩
      simp only
      rw [hP.data u w hw s hs]
      simp only [List.map_append, List.mem_append]
      rw [hMh.d_eq, hMh.m_eq]
      obtain ⟨q', hqm', hq', r', hb', w', hw', rfl⟩ := exists_emb_good hm hp w hw
      by_cases e : q' = q
      · subst e
        obtain rfl := addsBoxAt_unique hb hb'
        have hnot : (emb hp hq' hb' w').1.head? ∉ S1.map (fun q => some (growRow q p)) := by
          intro hh
          rw [emb_val] at hh
          obtain ⟨q2, hq2, hh⟩ := List.mem_map.1 hh
          obtain ⟨⟨hq2', r2, hb2'⟩, -⟩ := (mem_subsM hp q2).1 (by rw [hS]; simp [hq2])
          have hh' := Option.some.inj hh
          rw [growRow_eq hq2' hp hb2', growRow_eq hq' hp hb'] at hh'
          subst hh'
          have := sub_unique hq2' hq' hb2' hb'
          subst this
          exact (List.nodup_append.1 hnd).2.2 q2 hq2 q2 (by simp) rfl
        have hin : (emb hp hq' hb' w').1.head? ∈ [q'].map (fun q => some (growRow q p)) := by
          rw [emb_val]; simp
        rw [if_neg hnot, if_pos (Or.inr hin)]
        rw [colIx_emb hm hp hq' hb' w' hw' hS]
        have hc := colIx_lt w' hw'
        obtain ⟨q3, hqs3, hq3, r3, hb3, u3, rfl⟩ := exists_emb hp u
        by_cases e3 : r3 = r
        · subst e3
          have := sub_unique hq3 hq' hb3 hb'
          subst this
          rw [rowIx_emb hp hq3 hb3 u3 hS]
          have hr := rowIx_lt u3
          rw [if_pos ⟨by omega, by omega, by omega, by omega⟩, hG.diag q3 hq3 r3 hb3 s u3 w' hw', zero_add,
            Nat.add_sub_cancel_left, Nat.add_sub_cancel_left]
          exact hMh.data u3 w' hw' s hs
        · rw [hG.off q3 hq3 r3 hb3 q' hq' r hb' s u3 w' e3 hw', if_neg]
          rintro ⟨k1, k2, -, -⟩
          obtain ⟨u0, hu0⟩ := exists_rowIx (n := l) (p := q') (i := rowIx (l + 1) p (emb hp hq3 hb3 u3).1 - rowOff l S1) hq' (by omega)
          have k3 := rowIx_emb hp hq' hb' u0 hS
          have k4 : emb hp hq3 hb3 u3 = emb hp hq' hb' u0 := rowIx_inj (by rw [k3]; omega)
          exact e3 (List.cons.inj (congrArg Subtype.val k4)).1
      · have hr' : r' ≠ r := by
          rintro rfl
          exact e (sub_unique hq' hq hb' hb)
        have hnot : (emb hp hq' hb' w').1.head? ∉ [q].map (fun q => some (growRow q p)) := by
          rw [emb_val, growRow_eq hq' hp hb']
          simp only [List.map_cons, List.map_nil, List.mem_singleton, List.head?_cons, Option.some.injEq]
          rw [growRow_eq hq hp hb]
          exact hr'
        simp only [hnot, or_false]
        rw [if_neg]
        rintro ⟨-, -, k1, k2⟩
        obtain ⟨w0, hw0, hw0'⟩ := exists_colIx (m := m) (n := l) (p := q) (k := colIx m (l + 1) p (emb hp hq' hb' w').1 - colOff m l S1) hq
          (by omega)
        have k3 := colIx_emb hm hp hq hb w0 hw0 hS
        have k4 : emb hp hq' hb' w' = emb hp hq hb w0 := colIx_inj hw (by rw [k3]; omega)
        exact hr' (List.cons.inj (congrArg Subtype.val k4)).1)
    refine ⟨P', ?_, h2, h3⟩
    rw [blocksW, blockLoop, hM]
    simp only [Option.bind_eq_bind, Option.bind_some]
    rw [hstep]
    simp only [Option.bind_some]
    rw [← hoff1, ← hoff2]
    exact h1

end Snob
