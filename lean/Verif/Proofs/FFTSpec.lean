import Verif.Proofs.FFTSurj
import Verif.Spec.FFT

/-! # The transforms in terms of the interface -/

namespace Snob

open IP Snob.Perm
open scoped Nat

theorem goodW_zero (u : List Nat) : goodW 0 u = true := by simp [goodW]

theorem goodW_succ {m : Nat} {u : List Nat} (hm : m < u.length) :
    goodW (m + 1) u = (goodW m u && ((posW u (m + 1)).1 == 0)) := by
  induction u with
  | nil => simp at hm
  | cons r u ih =>
    by_cases e : m = u.length
    · subst e
      unfold goodW
      simp [posW_cons_top, Bool.and_comm]
    · have hm' : m < u.length := by simp at hm; omega
      rw [goodW_cons (by omega), goodW_cons (by omega), posW_cons_ne (by omega), ih hm']

theorem goodW_iff {u : List Nat} (m : Nat) (hm : m ≤ u.length) :
    goodW m u = true ↔ ∀ k, 1 ≤ k → k ≤ m → (posW u k).1 = 0 := by
  induction m with
  | zero => simp only [goodW_zero, true_iff]; intro k h1 h2; omega
  | succ m ih =>
    rw [goodW_succ (by omega), Bool.and_eq_true, ih (by omega), beq_iff_eq]
    constructor
    · rintro ⟨h1, h2⟩ k hk1 hk2
      by_cases e : k = m + 1
      · subst e; exact h2
      · exact h1 k hk1 (by omega)
    · intro h
      exact ⟨fun k h1 h2 => h k h1 (by omega), h _ (by omega) (by omega)⟩

theorem startsWith_iff {n m : Nat} {p : List Nat} (hp : IsPartition n p) (hm : m ≤ n) (u : Wd n p) :
    StartsWith m (toTab u.1) ↔ goodW m u.1 = true := by
  rw [goodW_iff m (by rw [u.length hp]; exact hm)]
  unfold StartsWith
  refine forall_congr' fun k => forall_congr' fun h1 => forall_congr' fun h2 => ?_
  constructor
  · rintro ⟨c, hc⟩
    rw [cell_toTab (u.lat hp)] at hc
    rw [hc.2.2]
  · intro h
    exact ⟨(posW u.1 k).2, (cell_toTab (u.lat hp) _ _ _).2 ⟨h1, by rw [u.length hp]; omega, by rw [← h]⟩⟩

section
variable {n m : Nat} {p : List Nat} {hp : IsPartition n p} {R : IrrepObj}

theorem Repr'.startCols_map (h : Repr' hp R) (hm : m ≤ n) :
    (startCols m R.tableaux).map (fun j => (words n p).getD j []) = colW m n p := by
  classical
  have hl : R.tableaux.length = (words n p).length := by rw [h.tab, List.length_map]
  have e1 : words n p = (List.range (words n p).length).map fun j => (words n p).getD j [] := by
    refine List.ext_getElem (by simp) fun i h1 h2 => ?_
    simp [List.getD_eq_getElem?_getD, h1]
  unfold colW startCols
  conv_rhs => rw [e1, List.filter_map]
  rw [hl]
  congr 1
  refine List.filter_congr fun j hj => ?_
  have hj' : j < (words n p).length := List.mem_range.1 hj
  have h2 : (words n p).getD j [] = (words n p)[j] := by simp [List.getD_eq_getElem?_getD, hj']
  rw [Function.comp_apply, h2, h.tab]
  have h3 := startsWith_iff hp hm ⟨(words n p)[j], List.getElem_mem hj'⟩
  simp only at h3
  rw [Bool.eq_iff_iff, decide_eq_true_iff, ← h3]
  constructor
  · rintro ⟨T, h1, h2⟩
    rw [List.getElem?_map, List.getElem?_eq_getElem hj'] at h1
    obtain rfl := Option.some.inj h1
    exact h2
  · intro h4
    exact ⟨_, by rw [List.getElem?_map, List.getElem?_eq_getElem hj']; rfl, h4⟩

theorem Repr'.startCols_length (h : Repr' hp R) (hm : m ≤ n) : (startCols m R.tableaux).length = (colW m n p).length := by
  rw [← h.startCols_map hm, List.length_map]

theorem Repr'.startCols_one (h : Repr' hp R) (hn : 1 ≤ n) : startCols 1 R.tableaux = List.range R.d := by
  classical
  unfold startCols
  have hl : R.tableaux.length = R.d := by rw [h.tab, List.length_map, h.d_eq]
  rw [hl, List.filter_eq_self]
  intro j hj
  have hj' : j < (words n p).length := by rw [← h.d_eq]; exact List.mem_range.1 hj
  rw [decide_eq_true_iff]
  refine ⟨toTab (words n p)[j], by rw [h.tab, List.getElem?_map, List.getElem?_eq_getElem hj']; rfl, ?_⟩
  refine (startsWith_iff hp hn ⟨(words n p)[j], List.getElem_mem hj'⟩).2 ?_
  have : (words n p)[j] ∈ colW 1 n p := by rw [colW_one hn hp]; exact List.getElem_mem hj'
  exact (List.mem_filter.1 this).2

/-- the word of the column with number `k` -/
theorem Repr'.startCols_get (h : Repr' hp R) (hm : m ≤ n) {k j : Nat} (hk : (startCols m R.tableaux)[k]? = some j) :
    ∃ hj : j < R.d, goodW m (h.eqv ⟨j, hj⟩).1 = true ∧ colIx m n p (h.eqv ⟨j, hj⟩).1 = k := by
  have hjm := List.mem_of_getElem? hk
  unfold startCols at hjm
  rw [List.mem_filter, List.mem_range, h.tab, List.length_map, ← h.d_eq] at hjm
  have hjw : j < (words n p).length := by rw [← h.d_eq]; exact hjm.1
  have hw : (colW m n p)[k]? = some (h.eqv ⟨j, hjm.1⟩).1 := by
    rw [← h.startCols_map hm, List.getElem?_map, hk]
    simp only [Option.map_some, Option.some.injEq]
    show (words n p).getD j [] = (words n p)[j]
    simp [List.getD_eq_getElem?_getD, hjw]
  obtain ⟨hlt, hget⟩ := List.getElem?_eq_some_iff.1 hw
  refine ⟨hjm.1, ?_, ?_⟩
  · exact (List.mem_filter.1 (List.mem_of_getElem? hw)).2
  · unfold colIx
    rw [← hget]
    exact List.Nodup.idxOf_getElem ((words_nodup hp).filter _) _ hlt

end

/-- the labels of a vector are those of the level -/
def LabelOk (m n : Nat) (ws : List VPart) : Prop :=
  ∀ (i : Nat) (p : List Nat) (W : VPart), (PL m n)[i]? = some p → ws[i]? = some W → mkIrrep p = some W.irrep

theorem FOk.hasShape {m n : Nat} (hm : 0 < m) (hn : m ≤ n) {F : (p : List Nat) → IsPartition n p → Wd n p → Wd n p → ℝ}
    {ws : List VPart} (h : FOk m n F ws) (hl : LabelOk m n ws) : HasShape (fun R => startCols m R.tableaux) (PL m n) ws := by
  refine ⟨h.len, fun i p W hi hW => ?_⟩
  obtain ⟨hp, -⟩ := (mem_PL (by omega) _).1 (List.mem_of_getElem? hi)
  obtain ⟨W', a1, a2, a3, -⟩ := h.part i p hp hi
  obtain rfl : W' = W := Option.some.inj (a1.symm.trans hW)
  have hmk := hl i p W' hi hW
  obtain ⟨R, hR, -, hrep⟩ := exists_repr (by omega) hp
  obtain rfl : R = W'.irrep := Option.some.inj (hR.symm.trans hmk)
  exact ⟨hmk, by rw [a2, hrep.d_eq]; rfl, by rw [a3, hrep.startCols_length hn]⟩

theorem FOk.isTransform {m n : Nat} (hm : 0 < m) (hn : m ≤ n) {f : Nat → ℝ}
    {ws : List VPart} (h : FOk m n (fun p hp u w => tF m f n p hp 0 u w) ws) (hl : LabelOk m n ws) :
    IsTransform (snsmSize n m) (fun c => snsmElement n m c) f (fun R => startCols m R.tableaux) ws := by
  intro W hW
  obtain ⟨i, hi⟩ := List.mem_iff_getElem?.1 hW
  have hi' : i < (PL m n).length := by rw [← h.len]; exact (List.getElem?_eq_some_iff.1 hi).1
  have hip := List.getElem?_eq_getElem hi'
  obtain ⟨hp, -⟩ := (mem_PL (by omega) _).1 (List.getElem_mem hi')
  obtain ⟨W', a1, a2, a3, a4⟩ := h.part i _ hp hip
  obtain rfl : W' = W := Option.some.inj (a1.symm.trans hi)
  have hmk := hl i _ W' hip hi
  obtain ⟨R, hR, -, hrep⟩ := exists_repr (by omega) hp
  obtain rfl : R = W'.irrep := Option.some.inj (hR.symm.trans hmk)
  choose A hA hA' using hrep.eval_eq
  refine ⟨fun c => A (elem n (c * m !))⁻¹, fun c hc => ⟨_, _, snsmElement_eq n m hn c hc, inverse_eq _, hA _⟩, ?_⟩
  intro a ha k j hk
  obtain ⟨hj, hg, hc⟩ := hrep.startCols_get hn hk
  have ha' : a < W'.irrep.d := by rw [a2] at ha; rw [hrep.d_eq]; exact ha
  have h1 := a4 (hrep.eqv ⟨a, ha'⟩) (hrep.eqv ⟨j, hj⟩) hg
  rw [hc, hrep.eqv_rowIx] at h1
  rw [h1]
  unfold tF snsmSize
  refine Finset.sum_congr rfl fun c _ => ?_
  have h2 := hA' (elem n (c * m !))⁻¹ ⟨a, ha'⟩ ⟨j, hj⟩
  rw [hrep.rep_apply] at h2
  rw [Nat.zero_mul, Nat.zero_add]
  exact congrArg (f c * ·) h2.symm

theorem tF_congr {m n : Nat} {f g : Nat → ℝ} (hfg : ∀ e < n ! / m !, f e = g e) (p : List Nat) (hp : IsPartition n p) (u w : Wd n p) :
    tF m f n p hp 0 u w = tF m g n p hp 0 u w := by
  unfold tF
  refine Finset.sum_congr rfl fun e he => ?_
  rw [Nat.zero_mul, Nat.zero_add, hfg e (Finset.mem_range.1 he)]

theorem labelOk_of_maps {m n : Nat} {ws : List VPart}
    (h1 : ws.map (fun W => mkIrrep W.irrep.lambda) = ws.map (fun W => some W.irrep))
    (h2 : ws.map (fun W => W.irrep.lambda) = PL m n) : LabelOk m n ws := by
  intro i p W hp hW
  rw [← h2, List.getElem?_map, hW] at hp
  obtain rfl := Option.some.inj hp
  have := congrArg (fun l => l[i]?) h1
  simp only [List.getElem?_map, hW, Option.map_some, Option.some.injEq] at this
  exact this

/-- the forward transform -/
theorem fft_spec {ap : ViewAct} {m n : Nat} (f : Nat → ℝ) (hm : 0 < m) (hn : m < n ∨ m = 1 ∧ n = 1) (hap : ∀ k, m < k → k ≤ n → ActOk ap m k) :
    ∃ Ls ws, fftLevels n m = some Ls ∧ Ls.length = n - m + 1 ∧ fftWith ap Ls (n ! / m !) f = some ws ∧
      FOk m n (fun p hp u w => tF m f n p hp 0 u w) ws ∧ LabelOk m n ws := by
  obtain ⟨Ls, ws, h1, h2, h3, h4⟩ := fftWith_eq (ap := ap) f hm (by omega) hap
  obtain ⟨Ls', e1, e2, -⟩ := fftLevels_ok hm (show m ≤ n by omega)
  obtain rfl : Ls' = Ls := Option.some.inj (e1.symm.trans h1)
  refine ⟨Ls', ws, h1, e2, h2, h3, ?_⟩
  rcases hn with hn | ⟨rfl, rfl⟩
  · obtain ⟨a, b⟩ := h4 hn
    exact labelOk_of_maps a b
  · -- a single part with irrep `[1]`
    obtain ⟨L, rfl⟩ : ∃ L, Ls' = [L] := by
      rcases Ls' with _ | ⟨L, _ | _⟩
      · simp at e2
      · exact ⟨L, rfl⟩
      · simp at e2
    obtain ⟨R, hR, -, -⟩ := exists_repr (n := 1) (by omega) (isPartition_row (n := 1) (by omega))
    unfold fftWith MPart.ofFunction at h2
    rw [hR] at h2
    simp [upLoop, MPart.toPart] at h2
    subst h2
    intro i p W hp hW
    rw [PL_self (by omega)] at hp
    rcases i with _ | i
    · simp only [List.getElem?_cons_zero, Option.some.injEq] at hp hW
      subst hp hW
      exact hR
    · simp at hW

/-- the inverse transform of an arbitrary vector -/
theorem ifft_spec {ap : ViewAct} {m n : Nat} (hm : 0 < m) (hn : m < n ∨ m = 1 ∧ n = 1) (hap : ∀ k, m < k → k ≤ n → ActOk ap m k)
    {ws : List VPart} (hw : HasShape (fun R => startCols m R.tableaux) (PL m n) ws) :
    ∃ Ls g, fftLevels n m = some Ls ∧ Ls.length = n - m + 1 ∧ ifftWith ap Ls ws = some (n ! / m !, g) ∧
      FOk m n (fun p hp u w => tF m g n p hp 0 u w) ws := by
  have hlab : LabelOk m n ws := fun i p W h1 h2 => (hw.2 i p W h1 h2).1
  let F : (p : List Nat) → IsPartition n p → Wd n p → Wd n p → ℝ := fun p _ u w =>
    match ws[(PL m n).idxOf p]? with
    | some W => W.data (rowIx n p u.1) (colIx m n p w.1)
    | none => 0
  have hF : FOk m n (fun p hp u w => tF m (invF m n F) n p hp 0 u w) ws := by
    refine ⟨hw.1, fun i p hp hi => ?_⟩
    have hlt : i < ws.length := by rw [hw.1]; exact (List.getElem?_eq_some_iff.1 hi).1
    have hW := List.getElem?_eq_getElem hlt
    obtain ⟨a1, a2, a3⟩ := hw.2 i p _ hi hW
    obtain ⟨R, hR, -, hrep⟩ := exists_repr (by omega) hp
    have e : ws[i].irrep = R := Option.some.inj (a1.symm.trans hR)
    refine ⟨_, hW, ?_, ?_, fun u w hgw => ?_⟩
    · rw [a2, e, hrep.d_eq]; rfl
    · rw [a3, e, hrep.startCols_length (by omega)]
    · rw [tF_invF hm (by omega) F p hp u w hgw]
      have hidx : (PL m n).idxOf p = i := by
        obtain ⟨hl, hg⟩ := List.getElem?_eq_some_iff.1 hi
        rw [← hg]
        exact List.Nodup.idxOf_getElem (PL_nodup m n) i hl
      show _ = (match ws[(PL m n).idxOf p]? with
        | some W => W.data (rowIx n p u.1) (colIx m n p w.1)
        | none => 0)
      rw [hidx, hW]
  obtain ⟨Ls, g, h1, h2, h3⟩ := ifftWith_eq (ap := ap) (invF m n F) hm (by omega) hap hF (fun _ => hlab)
  obtain ⟨Ls', e1, e2, -⟩ := fftLevels_ok hm (show m ≤ n by omega)
  obtain rfl : Ls' = Ls := Option.some.inj (e1.symm.trans h1)
  refine ⟨Ls', g, h1, e2, h2, hF.len, fun i p hp hi => ?_⟩
  obtain ⟨W, a1, a2, a3, a4⟩ := hF.part i p hp hi
  exact ⟨W, a1, a2, a3, fun u w hgw => (a4 u w hgw).trans (tF_congr (fun e he => (h3 e he).symm) p hp u w)⟩

theorem FOk.same {m n : Nat} (hm : 0 < m) (hn : m ≤ n) {F : (p : List Nat) → IsPartition n p → Wd n p → Wd n p → ℝ}
    {ws ws' : List VPart} (h : FOk m n F ws) (h' : FOk m n F ws') (hl : LabelOk m n ws) (hl' : LabelOk m n ws') : SameVec ws ws' := by
  refine ⟨h.len.trans h'.len.symm, fun i W W' hW hW' => ?_⟩
  have hi : i < (PL m n).length := by rw [← h.len]; exact (List.getElem?_eq_some_iff.1 hW).1
  have hip := List.getElem?_eq_getElem hi
  obtain ⟨hp, -⟩ := (mem_PL (by omega) _).1 (List.getElem_mem hi)
  obtain ⟨V, a1, a2, a3, a4⟩ := h.part i _ hp hip
  obtain rfl : V = W := Option.some.inj (a1.symm.trans hW)
  obtain ⟨V', b1, b2, b3, b4⟩ := h'.part i _ hp hip
  obtain rfl : V' = W' := Option.some.inj (b1.symm.trans hW')
  refine ⟨Option.some.inj ((hl i _ V hip hW).symm.trans (hl' i _ V' hip hW')), a2.trans b2.symm, a3.trans b3.symm, fun a ha b hb => ?_⟩
  rw [a2] at ha
  rw [a3] at hb
  obtain ⟨u, rfl⟩ := exists_rowIx hp ha
  obtain ⟨w, hw, rfl⟩ := exists_colIx hp hb
  rw [a4 u w hw, b4 u w hw]

end Snob
