import Verif.Proofs.FFTUp
import Verif.Proofs.SnCosets

/-! # What the forward transform computes -/

namespace Snob

open IP Snob.Perm
open scoped Nat

theorem sum_range_mul' (a b : Nat) (g : Nat → ℝ) :
    ∑ i ∈ Finset.range (a * b), g i = ∑ t ∈ Finset.range a, ∑ e ∈ Finset.range b, g (t * b + e) := by
  induction a with
  | zero => simp
  | succ a ih =>
    rw [Finset.sum_range_succ, ← ih, Nat.succ_mul, Finset.sum_range_add]

theorem quot_mul {n m : Nat} (h : m ≤ n) : n ! / m ! * m ! = n ! := Nat.div_mul_cancel (Nat.factorial_dvd_factorial h)

theorem quot_succ {l m : Nat} (h : m ≤ l) : (l + 1)! / m ! = (l + 1) * (l ! / m !) := by
  rw [Nat.factorial_succ, Nat.mul_div_assoc _ (Nat.factorial_dvd_factorial h)]

theorem quot_pred {n l : Nat} (h : l + 1 ≤ n) : n ! / l ! = n ! / (l + 1)! * (l + 1) := by
  refine Nat.div_eq_of_eq_mul_left (Nat.factorial_pos _) ?_
  rw [Nat.mul_assoc, ← Nat.factorial_succ, quot_mul h]

theorem quot_self (n : Nat) : n ! / n ! = 1 := Nat.div_self (Nat.factorial_pos _)

theorem elem_succ {m l t e : Nat} (hm : m ≤ l) (he : e < l ! / m !) :
    elem (l + 1) ((t * (l ! / m !) + e) * m !) = extend (elem l (e * m !)) * (slicePerm l t)⁻¹ := by
  have h1 : (t * (l ! / m !) + e) * m ! = e * m ! + l ! * t := by
    calc (t * (l ! / m !) + e) * m ! = t * (l ! / m ! * m !) + e * m ! := by ring
      _ = e * m ! + l ! * t := by rw [quot_mul hm]; ring
  have h2 : e * m ! < l ! := by
    calc e * m ! < l ! / m ! * m ! := Nat.mul_lt_mul_of_pos_right he (Nat.factorial_pos _)
      _ = l ! := quot_mul hm
  rw [elem, ins, h1]
  congr 2
  · rw [Nat.add_mul_mod_self_left, Nat.mod_eq_of_lt h2]
  · rw [slicePerm]
    congr 1
    simp only [Fin.mk.injEq]
    rw [Nat.add_mul_div_left _ _ (Nat.factorial_pos _), Nat.div_eq_of_lt h2, Nat.zero_add]

/-- the transform on the cosets of `Sm` in `Sl` of the functions `e ↦ f (c*l!/m! + e)` -/
noncomputable def tF (m : Nat) (f : Nat → ℝ) (l : Nat) (p : List Nat) (hp : IsPartition l p) (c : Nat) (u w : Wd l p) : ℝ :=
  ∑ e ∈ Finset.range (l ! / m !), f (c * (l ! / m !) + e) * rho hp (elem l (e * m !))⁻¹ u w

/-- the same with the permutations extended by a fixed point -/
noncomputable def tFup (m : Nat) (f : Nat → ℝ) (l : Nat) (p : List Nat) (hp : IsPartition (l + 1) p) (c : Nat) (u w : Wd (l + 1) p) : ℝ :=
  ∑ e ∈ Finset.range (l ! / m !), f (c * (l ! / m !) + e) * rho hp (extend (elem l (e * m !)))⁻¹ u w

theorem tFup_block (m : Nat) (f : Nat → ℝ) (l : Nat) (p : List Nat) (hp : IsPartition (l + 1) p) :
    BlockDiag m hp (tF m f l) (tFup m f l p hp) := by
  refine ⟨fun q hq r hb s u w _ => ?_, fun q hq r hb q' hq' r' hb' s u w hr _ => ?_⟩
  · unfold tF tFup
    refine Finset.sum_congr rfl fun e _ => ?_
    rw [← extend_inv, rho_emb]
  · unfold tFup
    refine Finset.sum_eq_zero fun e _ => ?_
    rw [← extend_inv, rho_emb_ne hp hq' hb' hq hb hr.symm, mul_zero]

theorem tF_succ {m l : Nat} (hm : m ≤ l) (f : Nat → ℝ) (p : List Nat) (hp : IsPartition (l + 1) p) (c : Nat) (u w : Wd (l + 1) p) :
    ∑ t ∈ Finset.range (l + 1), ∑ x, rho hp (slicePerm l t) u x * tFup m f l p hp (c * (l + 1) + t) x w = tF m f (l + 1) p hp c u w := by
  unfold tF tFup
  rw [quot_succ hm, sum_range_mul']
  refine Finset.sum_congr rfl fun t _ => ?_
  simp only [Finset.mul_sum]
  rw [Finset.sum_comm]
  refine Finset.sum_congr rfl fun e he => ?_
  rw [elem_succ hm (Finset.mem_range.1 he), mul_inv_rev, inv_inv, map_mul, Matrix.mul_apply, Finset.mul_sum]
  refine Finset.sum_congr rfl fun x _ => ?_
  have : (c * (l + 1) + t) * (l ! / m !) + e = c * ((l + 1) * (l ! / m !)) + (t * (l ! / m !) + e) := by ring
  rw [this]
  ring

theorem upLoop_eq {ap : ViewAct} {m n : Nat} (f : Nat → ℝ) (hm : 0 < m) (Ls : List LevelT) {l : Nat} {L : LevelT} (hl : m ≤ l) (hn : n = l + Ls.length)
    (hap : ∀ k, l < k → k ≤ n → ActOk ap m k) (hC : ChainOk m l (L :: Ls)) {v : List MPart}
    (hv : VecOk m l (n ! / l !) (tF m f l) v) :
    ∃ v', upLoop ap Ls v = some v' ∧ VecOk m n 1 (tF m f n) v' ∧
      (Ls = [] ∧ v' = v ∨ Ls ≠ [] ∧ v'.map MPart.irrep = ((L :: Ls).getLast (by simp)).parts.map PartT.irrep) := by
  induction Ls generalizing l L v with
  | nil =>
    obtain rfl : n = l := hn
    rw [quot_self] at hv
    exact ⟨v, rfl, hv, Or.inl ⟨rfl, rfl⟩⟩
  | cons L' Ls ih =>
    simp only [List.length_cons] at hn
    rcases hC with _ | ⟨hL, hB, hC⟩
    have hL' : LevelOk m (l + 1) L' := by
      cases hC <;> assumption
    rw [quot_pred (n := n) (l := l) (by omega)] at hv
    obtain ⟨v1, h1, h2, h3⟩ := up_step hl (by omega) (hap (l + 1) (by omega) (by omega)) hL' hB hv
      (fun p hp => tFup_block m f l p hp)
    have h3' : VecOk m (l + 1) (n ! / (l + 1)!) (tF m f (l + 1)) v1 := by
      refine ⟨h3.len, fun i p hp hi => ?_⟩
      obtain ⟨P, a1, a2⟩ := h3.part i p hp hi
      refine ⟨P, a1, a2.N_eq, a2.d_eq, a2.m_eq, fun u w hw s hs => ?_⟩
      rw [a2.data u w hw s hs, tF_succ hl]
    obtain ⟨v', k1, k2, k3⟩ := ih (by omega) (by omega) (fun k h h' => hap k (by omega) h') hC h3'
    refine ⟨v', ?_, k2, Or.inr ⟨by simp, ?_⟩⟩
    · rw [upLoop, h1]; exact k1
    · rcases k3 with ⟨rfl, rfl⟩ | ⟨_, k3⟩
      · simpa using h2
      · rw [List.getLast_cons (by simp)]; exact k3

theorem PL_self' {m : Nat} (hm : 0 < m) : PL m m = [[m]] := PL_self hm

theorem wd_row_unique {n : Nat} (hn : 1 ≤ n) (u v : Wd n [n]) : u = v :=
  wd_subsingleton_of_cont (isPartition_row hn) _ (fun u m h1 h2 => cont_row hn u h1 h2) u v

/-- the first vector -/
theorem start_ok {m N : Nat} (hm : 0 < m) (f : Nat → ℝ) :
    ∃ P, MPart.ofFunction N f = some P ∧ VecOk m m N (tF m f m) [P] := by
  obtain ⟨R, hR, -, -⟩ := exists_repr (n := 1) (by omega) (isPartition_row (n := 1) (by omega))
  refine ⟨⟨N, 1, 1, R, fun _ k => f k.1⟩, by simp [MPart.ofFunction, hR], by rw [PL_self hm]; rfl, fun i p hp hi => ?_⟩
  rw [PL_self hm] at hi
  rcases i with _ | i
  · obtain rfl : [m] = p := by simpa using hi
    refine ⟨_, rfl, rfl, ?_, ?_, fun u w hw s hs => ?_⟩
    · simp [dimW, words_self hm]
    · simp [colW_self hm]
    · simp only [tF, quot_self, Finset.range_one, Finset.sum_singleton, Nat.mul_one, Nat.add_zero]
      rw [rho_row hm, mul_one]
  · simp at hi

/-- what the forward transform returns -/
structure FOk (m n : Nat) (F : (p : List Nat) → IsPartition n p → Wd n p → Wd n p → ℝ) (ws : List VPart) : Prop where
  len : ws.length = (PL m n).length
  part : ∀ (i : Nat) (p : List Nat) (hp : IsPartition n p), (PL m n)[i]? = some p →
    ∃ W, ws[i]? = some W ∧ W.d = dimW n p ∧ W.m = (colW m n p).length ∧
      ∀ (u w : Wd n p), goodW m w.1 = true → W.data (rowIx n p u.1) (colIx m n p w.1) = F p hp u w

theorem fftWith_eq {ap : ViewAct} {m n : Nat} (f : Nat → ℝ) (hm : 0 < m) (hn : m ≤ n) (hap : ∀ k, m < k → k ≤ n → ActOk ap m k) :
    ∃ Ls ws, fftLevels n m = some Ls ∧ fftWith ap Ls (n ! / m !) f = some ws ∧ FOk m n (fun p hp u w => tF m f n p hp 0 u w) ws ∧
      (m < n → ws.map (fun W => mkIrrep W.irrep.lambda) = ws.map (fun W => some W.irrep) ∧
        ws.map (fun W => W.irrep.lambda) = PL m n) := by
  obtain ⟨Ls, h1, h2, h3⟩ := fftLevels_ok hm hn
  obtain ⟨P, hP, hv⟩ := start_ok (m := m) (N := n ! / m !) hm f
  obtain ⟨L, Ls', rfl⟩ : ∃ L Ls', Ls = L :: Ls' := by
    rcases Ls with _ | ⟨L, Ls'⟩
    · simp at h2
    · exact ⟨L, Ls', rfl⟩
  simp only [List.length_cons] at h2
  obtain ⟨v', k1, k2, k3⟩ := upLoop_eq (ap := ap) (n := n) f hm Ls' (Nat.le_refl m) (by omega) (fun k a b => hap k a b) h3 hv
  obtain ⟨ws, w1, w2, w3⟩ := mapM_exists MPart.toPart v'
    (fun i P W => W = ⟨P.d, P.m, P.irrep, fun i j => P.data i (0, j)⟩) (by
    intro i P hi
    have hi' : i < (PL m n).length := by rw [← k2.len]; exact (List.getElem?_eq_some_iff.1 hi).1
    obtain ⟨hp, -⟩ := (mem_PL (by omega) _).1 (List.getElem_mem hi')
    obtain ⟨P', a1, a2⟩ := k2.part i _ hp (List.getElem?_eq_getElem hi')
    obtain rfl : P' = P := Option.some.inj (a1.symm.trans hi)
    refine ⟨_, ?_, rfl⟩
    unfold MPart.toPart
    rw [if_pos a2.N_eq])
  have hirr : ws.map VPart.irrep = v'.map MPart.irrep := by
    refine List.ext_getElem? fun i => ?_
    rw [List.getElem?_map, List.getElem?_map]
    rcases h : v'[i]? with _ | p
    · have : ws[i]? = none := by
        rw [List.getElem?_eq_none_iff] at h ⊢
        omega
      rw [this]; rfl
    · obtain ⟨y, hy, rfl⟩ := w3 i p h
      rw [hy]; rfl
  refine ⟨L :: Ls', ws, h1, ?_, ⟨w2.trans k2.len, fun i p hp hi => ?_⟩, fun hmn => ?_⟩
  · unfold fftWith
    rw [hP]
    simp only [Option.bind_eq_bind, Option.bind_some, List.tail_cons]
    rw [k1]
    exact w1
  · obtain ⟨P', a1, a2⟩ := k2.part i p hp hi
    obtain ⟨W, b1, rfl⟩ := w3 i P' a1
    exact ⟨_, b1, a2.d_eq, a2.m_eq, fun u w hw => a2.data u w hw 0 (by omega)⟩
  · rcases k3 with ⟨rfl, -⟩ | ⟨-, k3⟩
    · simp at h2; omega
    · have hlast : ∀ (Ls : List LevelT) (l : Nat) (L : LevelT), ChainOk m l (L :: Ls) → LevelOk m (l + Ls.length) ((L :: Ls).getLast (by simp)) := by
        intro Ls
        induction Ls with
        | nil => intro l L h; cases h; assumption
        | cons L' Ls ih =>
          intro l L h
          cases h with
          | step _ _ h =>
            have := ih _ _ h
            rw [List.getLast_cons (by simp), List.length_cons, show l + (Ls.length + 1) = l + 1 + Ls.length by omega]
            exact this
      have hLO := hlast _ _ _ h3
      rw [show m + Ls'.length = n by omega] at hLO
      rw [k3] at hirr
      have e1 : ws.map (fun W => mkIrrep W.irrep.lambda) = (ws.map VPart.irrep).map fun R => mkIrrep R.lambda := by simp
      have e2 : ws.map (fun W => some W.irrep) = (ws.map VPart.irrep).map some := by simp
      have e3 : ws.map (fun W => W.irrep.lambda) = (ws.map VPart.irrep).map IrrepObj.lambda := by simp
      rw [e1, e2, e3, hirr]
      refine ⟨?_, by rw [List.map_map]; exact hLO.keys⟩
      rw [List.map_map, List.map_map]
      refine List.map_congr_left fun p hp => ?_
      obtain ⟨i, hi⟩ := List.mem_iff_getElem?.1 hp
      exact (hLO.part i p hi).2.1

end Snob
