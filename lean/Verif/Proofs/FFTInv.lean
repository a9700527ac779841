import Verif.Proofs.FFTDown

/-! # The inverse transform undoes the forward transform -/

namespace Snob

open IP Snob.Perm
open scoped Nat

theorem slicePerm_last (l t : Nat) : ((slicePerm l t (Fin.last l) : Fin (l + 1)) : Nat) = l - t := by
  unfold slicePerm
  rw [cyc_apply _ _ (Fin.le_last _)]
  simp only [Fin.val_last]
  split_ifs <;> omega

theorem slicePerm_ne {l t t' : Nat} (ht : t ≤ l) (ht' : t' ≤ l) (h : t ≠ t') :
    ((slicePerm l t)⁻¹ * slicePerm l t') (Fin.last l) ≠ Fin.last l := by
  intro e
  rw [Equiv.Perm.mul_apply, Equiv.Perm.inv_eq_iff_eq] at e
  have := congrArg (fun x : Fin (l + 1) => (x : Nat)) e
  simp only [slicePerm_last] at this
  omega

theorem sum_wt_blk {l : Nat} {q : List Nat} (hq : IsPartition l q) (g : Equiv.Perm (Fin (l + 1))) (u w : Wd l q) :
    ∑ p : Pt (l + 1), wt l p.1 q * blk p.2 hq (fun a b => rho p.2 g a b) u w =
      (∑ p : Pt (l + 1), (dimW (l + 1) p.1 : ℝ) * blk p.2 hq (fun a b => rho p.2 g a b) u w) / (dimW l q * (l + 1)) := by
  rw [Finset.sum_div]
  refine Finset.sum_congr rfl fun p _ => ?_
  rw [wt]; ring

theorem downG_tF {m l : Nat} (hm : m ≤ l) (f : Nat → ℝ) (q : List Nat) (hq : IsPartition l q) (s : Nat) (u w : Wd l q) :
    downG l (tF m f (l + 1)) q hq s u w = tF m f l q hq s u w := by
  have hd : (dimW l q : ℝ) ≠ 0 := by exact_mod_cast (dimW_pos hq).ne'
  have hl : ((l : ℝ) + 1) ≠ 0 := by positivity
  have ht : s % (l + 1) < l + 1 := Nat.mod_lt _ (by omega)
  have h1 : downG l (tF m f (l + 1)) q hq s u w = ∑ t' ∈ Finset.range (l + 1), ∑ e ∈ Finset.range (l ! / m !),
      f (s / (l + 1) * ((l + 1) * (l ! / m !)) + (t' * (l ! / m !) + e)) *
        ∑ p : Pt (l + 1), wt l p.1 q * blk p.2 hq (fun a b => rho p.2 ((slicePerm l (s % (l + 1)))⁻¹ * slicePerm l t' *
          extend (elem l (e * m !))⁻¹) a b) u w := by
    unfold downG tF
    simp only [quot_succ hm]
    have e1 : ∀ p : Pt (l + 1), blk p.2 hq (fun a b => ∑ x, rho p.2 (slicePerm l (s % (l + 1)))⁻¹ a x *
        ∑ e ∈ Finset.range ((l + 1) * (l ! / m !)), f (s / (l + 1) * ((l + 1) * (l ! / m !)) + e) * rho p.2 (elem (l + 1) (e * m !))⁻¹ x b) u w =
        ∑ t' ∈ Finset.range (l + 1), ∑ e ∈ Finset.range (l ! / m !),
          f (s / (l + 1) * ((l + 1) * (l ! / m !)) + (t' * (l ! / m !) + e)) *
            blk p.2 hq (fun a b => rho p.2 ((slicePerm l (s % (l + 1)))⁻¹ * slicePerm l t' * extend (elem l (e * m !))⁻¹) a b) u w := by
      intro p
      simp only [← blk_mul, ← blk_sum]
      congr 1
      funext a b
      simp only [Finset.mul_sum, sum_range_mul']
      rw [Finset.sum_comm]
      refine Finset.sum_congr rfl fun t' _ => ?_
      rw [Finset.sum_comm]
      refine Finset.sum_congr rfl fun e he => ?_
      rw [elem_succ hm (Finset.mem_range.1 he), mul_inv_rev, inv_inv, mul_assoc, ← extend_inv]
      have e2 : rho p.2 ((slicePerm l (s % (l + 1)))⁻¹ * (slicePerm l t' * extend (elem l (e * m !))⁻¹)) a b =
          ∑ x, rho p.2 (slicePerm l (s % (l + 1)))⁻¹ a x * rho p.2 (slicePerm l t' * extend (elem l (e * m !))⁻¹) x b := by
        rw [map_mul, Matrix.mul_apply]
      rw [e2, Finset.mul_sum]
      refine Finset.sum_congr rfl fun x _ => ?_
      ring
    rw [Finset.sum_congr rfl fun p _ => by rw [e1 p]]
    simp only [Finset.mul_sum]
    rw [Finset.sum_comm]
    refine Finset.sum_congr rfl fun t' _ => ?_
    rw [Finset.sum_comm]
    refine Finset.sum_congr rfl fun e _ => ?_
    refine Finset.sum_congr rfl fun p _ => ?_
    ring
  rw [h1, Finset.sum_eq_single (s % (l + 1))]
  · unfold tF
    refine Finset.sum_congr rfl fun e _ => ?_
    rw [sum_wt_blk, inv_mul_cancel, one_mul, sum_blk_extend]
    have : s / (l + 1) * ((l + 1) * (l ! / m !)) + (s % (l + 1) * (l ! / m !) + e) = s * (l ! / m !) + e := by
      conv_rhs => rw [← Nat.div_add_mod' s (l + 1)]
      ring
    rw [this]
    field_simp
  · intro t' ht' hne
    have ht'' := Finset.mem_range.1 ht'
    refine Finset.sum_eq_zero fun e _ => ?_
    rw [sum_wt_blk, sum_blk_zero, zero_div, mul_zero]
    rw [Equiv.Perm.mul_apply, extend_last]
    exact slicePerm_ne (by omega) (by omega) (Ne.symm hne)
  · intro h
    exact absurd (Finset.mem_range.2 ht) h

theorem downLoop_eq {ap : ViewAct} {m n : Nat} (f : Nat → ℝ) (hm : 0 < m) (Ls : List LevelT) {l : Nat} {L : LevelT} (hl : m ≤ l)
    (hn : n = l + Ls.length) (hap : ∀ k, l < k → k ≤ n → ActOk ap m k) (hC : ChainOk m l (L :: Ls)) {V : List MPart}
    (hV : VecOk m n 1 (tF m f n) V) (hi : m < n → IrrOk m n V) :
    ∃ v, downLoop ap (L :: Ls) V = some v ∧ (m < n → IrrOk m l v) ∧ VecOk m l (n ! / l !) (tF m f l) v := by
  induction Ls generalizing l L with
  | nil =>
    obtain rfl : n = l := hn
    rw [quot_self]
    exact ⟨V, by rw [downLoop]; simp, hi, hV⟩
  | cons L' Ls ih =>
    simp only [List.length_cons] at hn
    rcases hC with _ | ⟨hL, hB, hC⟩
    have hL' : LevelOk m (l + 1) L' := by
      cases hC <;> assumption
    obtain ⟨v1, k1, k2, k3⟩ := ih (l := l + 1) (by omega) (by omega) (fun k h h' => hap k (by omega) h') hC
    obtain ⟨v, h1, h2, h3⟩ := down_step hl (by omega) (hap (l + 1) (by omega) (by omega)) hL hL' hB k3 (k2 (by omega))
    refine ⟨v, ?_, fun _ => h2, ?_⟩
    · rw [downLoop, k1]; exact h1
    · rw [quot_pred (n := n) (l := l) (by omega)]
      refine ⟨h3.len, fun i q hq hi => ?_⟩
      obtain ⟨P, a1, a2⟩ := h3.part i q hq hi
      refine ⟨P, a1, a2.N_eq, a2.d_eq, a2.m_eq, fun u w hw s hs => ?_⟩
      rw [a2.data u w hw s hs, downG_tF hl]

theorem dimsOk_iff (ps : List PartT) (ws : List VPart) :
    dimsOk ps ws = true ↔ ps.length = ws.length ∧ ∀ (i : Nat) (p : PartT) (w : VPart), ps[i]? = some p → ws[i]? = some w → w.d = p.d ∧ w.m = p.m := by
  induction ps generalizing ws with
  | nil =>
    cases ws with
    | nil => simp [dimsOk]
    | cons w ws => simp [dimsOk]
  | cons p ps ih =>
    cases ws with
    | nil => simp [dimsOk]
    | cons w ws =>
      rw [dimsOk, Bool.and_eq_true, ih]
      simp only [Bool.and_eq_true, beq_iff_eq, List.length_cons, Nat.add_right_cancel_iff]
      constructor
      · rintro ⟨h1, h2, h3⟩
        refine ⟨h2, fun i p' w' => ?_⟩
        rcases i with _ | i
        · simp only [List.getElem?_cons_zero, Option.some.injEq]
          rintro rfl rfl
          exact h1
        · simp only [List.getElem?_cons_succ]
          exact h3 i p' w'
      · rintro ⟨h2, h3⟩
        exact ⟨h3 0 p w rfl rfl, h2, fun i p' w' a b => h3 (i + 1) p' w' (by simpa using a) (by simpa using b)⟩

theorem chain_last {m : Nat} (Ls : List LevelT) (l : Nat) (L : LevelT) (h : ChainOk m l (L :: Ls)) :
    LevelOk m (l + Ls.length) ((L :: Ls).getLast (by simp)) := by
  induction Ls generalizing l L with
  | nil => cases h; assumption
  | cons L' Ls ih =>
    cases h with
    | step _ _ h =>
      have := ih _ _ h
      rw [List.getLast_cons (by simp), List.length_cons, show l + (Ls.length + 1) = l + 1 + Ls.length by omega]
      exact this

/-- the inverse transform applied to the transform of `f` -/
theorem ifftWith_eq {ap : ViewAct} {m n : Nat} (f : Nat → ℝ) (hm : 0 < m) (hn : m ≤ n) (hap : ∀ k, m < k → k ≤ n → ActOk ap m k)
    {ws : List VPart} (hw : FOk m n (fun p hp u w => tF m f n p hp 0 u w) ws)
    (hi : m < n → ∀ (i : Nat) (p : List Nat) (W : VPart), (PL m n)[i]? = some p → ws[i]? = some W → mkIrrep p = some W.irrep) :
    ∃ Ls g, fftLevels n m = some Ls ∧ ifftWith ap Ls ws = some (n ! / m !, g) ∧ ∀ e < n ! / m !, g e = f e := by
  obtain ⟨Ls, h1, h2, h3⟩ := fftLevels_ok hm hn
  obtain ⟨L, Ls', rfl⟩ : ∃ L Ls', Ls = L :: Ls' := by
    rcases Ls with _ | ⟨L, Ls'⟩
    · simp at h2
    · exact ⟨L, Ls', rfl⟩
  simp only [List.length_cons] at h2
  have hlast := chain_last _ _ _ h3
  rw [show m + Ls'.length = n by omega] at hlast
  have hV : VecOk m n 1 (tF m f n) (ws.map MPart.ofPart) := by
    refine ⟨by rw [List.length_map]; exact hw.len, fun i p hp hi => ?_⟩
    obtain ⟨W, a1, a2, a3, a4⟩ := hw.part i p hp hi
    refine ⟨MPart.ofPart W, by rw [List.getElem?_map, a1]; rfl, rfl, a2, a3, fun u w hgw s hs => ?_⟩
    obtain rfl : s = 0 := by omega
    exact a4 u w hgw
  have hI : m < n → IrrOk m n (ws.map MPart.ofPart) := by
    intro hmn i p M h1 h2
    rw [List.getElem?_map] at h2
    obtain ⟨W, hW, rfl⟩ := Option.map_eq_some_iff.1 h2
    exact hi hmn i p W h1 hW
  obtain ⟨v, k1, k2, k3⟩ := downLoop_eq (ap := ap) f hm Ls' (Nat.le_refl m) (by omega) hap h3 hV hI
  have hPL0 : (PL m m)[0]? = some [m] := by rw [PL_self hm]; rfl
  obtain ⟨P, p1, p2⟩ := k3.part 0 [m] (isPartition_row hm) hPL0
  have hd : P.d = 1 := by rw [p2.d_eq]; simp [dimW, words_self hm]
  have hmm : P.m = 1 := by rw [p2.m_eq]; simp [colW_self hm]
  refine ⟨L :: Ls', fun e => P.data (e / (P.N * P.m)) (e / P.m % P.N, e % P.m), h1, ?_, fun e he => ?_⟩
  · unfold ifftWith
    rw [List.getLast?_eq_some_getLast (by simp)]
    simp only [Option.bind_eq_bind, Option.bind_some]
    rw [if_pos]
    · rw [k1]
      simp only [Option.bind_some]
      rw [List.head?_eq_getElem?, p1]
      simp only [Option.bind_some]
      rw [hd, hmm, p2.N_eq, Nat.one_mul, Nat.mul_one]
    · rw [dimsOk_iff]
      refine ⟨by rw [hw.len, ← hlast.keys, List.length_map], fun i p w a b => ?_⟩
      have hk : (PL m n)[i]? = some p.irrep.lambda := by
        rw [← hlast.keys, List.getElem?_map, a]; rfl
      have hp := ((mem_PL (by omega) _).1 (List.mem_of_getElem? hk)).1
      obtain ⟨W, a1, a2, a3, -⟩ := hw.part i _ hp hk
      obtain rfl : W = w := Option.some.inj (a1.symm.trans b)
      obtain ⟨-, -, b1, b2⟩ := hlast.part i p a
      exact ⟨a2.trans b1.symm, a3.trans b2.symm⟩
  · have hu : List.replicate m 0 ∈ words m [m] := by rw [words_self hm]; simp
    have hgood : goodW m (List.replicate m 0) = true := by
      have : List.replicate m 0 ∈ colW m m [m] := by rw [colW_self hm]; simp
      exact (List.mem_filter.1 this).2
    have h := p2.data ⟨_, hu⟩ ⟨_, hu⟩ hgood e he
    have r0 : rowIx m [m] (List.replicate m 0) = 0 := by unfold rowIx; rw [words_self hm]; simp
    have c0 : colIx m m [m] (List.replicate m 0) = 0 := by unfold colIx; rw [colW_self hm]; simp
    simp only at h
    rw [r0, c0] at h
    simp only [hmm, p2.N_eq, Nat.mul_one, Nat.div_one, Nat.mod_one]
    rw [Nat.div_eq_of_lt he, Nat.mod_eq_of_lt he, h]
    simp only [tF, quot_self, Finset.range_one, Finset.sum_singleton, Nat.mul_one, Nat.add_zero]
    rw [rho_row hm, mul_one]

end Snob
