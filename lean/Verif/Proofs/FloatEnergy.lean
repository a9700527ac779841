import Verif.Proofs.FloatIFFT
import Verif.Proofs.Plancherel
import Mathlib.Algebra.Order.Chebyshev

/-! # The energy of the intermediate states of the transforms -/

namespace Snob

open IP Matrix Snob.Perm
open scoped Nat

/-! ### the energy of a state -/

theorem tF_shift (m : Nat) (f : Nat → ℝ) (l : Nat) (p : List Nat) (hp : IsPartition l p) (s : Nat) :
    tF m f l p hp s = tF m (fun e => f (s * (l ! / m !) + e)) l p hp 0 := by
  funext u w
  unfold tF
  simp only [Nat.zero_mul, Nat.zero_add]

theorem tF_sub (m : Nat) (f g : Nat → ℝ) (l : Nat) (p : List Nat) (hp : IsPartition l p) (s : Nat) (u w : Wd l p) :
    tF m (fun e => f e - g e) l p hp s u w = tF m f l p hp s u w - tF m g l p hp s u w := by
  unfold tF
  rw [← Finset.sum_sub_distrib]
  exact Finset.sum_congr rfl fun e _ => by ring

theorem energy {m l : Nat} (hm : 0 < m) (hl : m ≤ l) (f : Nat → ℝ) (N : Nat) :
    ∑ s ∈ Finset.range N, ∑ p : Pt l, (dimW l p.1 : ℝ) * goodDot m (tF m f l p.1 p.2 s) (tF m f l p.1 p.2 s) =
      (l ! / m ! : ℕ) * ∑ e ∈ Finset.range (N * (l ! / m !)), f e * f e := by
  rw [sum_range_mul', Finset.mul_sum]
  refine Finset.sum_congr rfl fun s _ => ?_
  simp only [tF_shift m f l _ _ s]
  exact plancherel_coset hm hl (fun e => f (s * (l ! / m !) + e)) (fun e => f (s * (l ! / m !) + e))

/-- a slice before the twist is the transform of a function with values on one coset of the smaller group only -/
theorem tFup_eq {m l : Nat} (hm : m ≤ l) (f : Nat → ℝ) (p : List Nat) (hp : IsPartition (l + 1) p) (s : Nat) :
    tFup m f l p hp s = tF m (fun e => if e < l ! / m ! then f (s * (l ! / m !) + e) else 0) (l + 1) p hp 0 := by
  funext u w
  rw [← tF_succ hm, Finset.sum_eq_single 0]
  · rw [slicePerm_zero, map_one, Finset.sum_eq_single u]
    · rw [Matrix.one_apply_eq, one_mul]
      unfold tFup
      refine Finset.sum_congr rfl fun e he => ?_
      have he' := Finset.mem_range.1 he
      rw [show (0 * (l + 1) + 0) * (l ! / m !) + e = e by ring]
      simp only [if_pos he']
    · intro x _ hx
      rw [Matrix.one_apply_ne (Ne.symm hx), zero_mul]
    · intro h; exact absurd (Finset.mem_univ _) h
  · intro t _ ht
    refine Finset.sum_eq_zero fun x _ => ?_
    unfold tFup
    rw [Finset.sum_eq_zero, mul_zero]
    intro e _
    have : l ! / m ! ≤ (0 * (l + 1) + t) * (l ! / m !) := by
      rw [Nat.zero_mul, Nat.zero_add]
      exact Nat.le_mul_of_pos_left _ (by omega)
    have hn : ¬ (0 * (l + 1) + t) * (l ! / m !) + e < l ! / m ! := by omega
    simp only [if_neg hn]
    exact zero_mul _
  · intro h; exact absurd (Finset.mem_range.2 (by omega)) h

theorem energy_up {m l : Nat} (hm : 0 < m) (hl : m ≤ l) (f : Nat → ℝ) (N : Nat) :
    ∑ s ∈ Finset.range N, ∑ p : Pt (l + 1), (dimW (l + 1) p.1 : ℝ) * goodDot m (tFup m f l p.1 p.2 s) (tFup m f l p.1 p.2 s) =
      ((l + 1)! / m ! : ℕ) * ∑ e ∈ Finset.range (N * (l ! / m !)), f e * f e := by
  rw [sum_range_mul', Finset.mul_sum]
  refine Finset.sum_congr rfl fun s _ => ?_
  simp only [tFup_eq hl f _ _ s]
  rw [plancherel_coset hm (by omega)]
  congr 1
  rw [quot_succ hl, Nat.succ_mul, Nat.add_comm, Finset.sum_range_add, Finset.sum_eq_zero (s := Finset.range (l * (l ! / m !))), add_zero]
  · exact Finset.sum_congr rfl fun e he => by rw [if_pos (Finset.mem_range.1 he)]
  · intro e _
    rw [if_neg (by omega), zero_mul]

/-! ### every state is the state of some function -/

theorem exists_tF {m l : Nat} (hm : 0 < m) (hl : m ≤ l) (G : (p : List Nat) → IsPartition l p → Nat → Wd l p → Wd l p → ℝ) :
    ∃ f : Nat → ℝ, ∀ p (hp : IsPartition l p) s (u w : Wd l p), goodW m w.1 = true → tF m f l p hp s u w = G p hp s u w := by
  have hK : 0 < l ! / m ! := Nat.div_pos (Nat.factorial_le hl) (Nat.factorial_pos _)
  refine ⟨fun e => invF m l (fun p hp u w => G p hp (e / (l ! / m !)) u w) (e % (l ! / m !)), fun p hp s u w hw => ?_⟩
  rw [tF_shift, ← tF_invF hm hl (fun p hp u w => G p hp s u w) p hp u w hw]
  refine tF_congr (fun e he => ?_) p hp u w
  rw [Nat.mul_comm s, Nat.mul_add_div hK, Nat.div_eq_of_lt he, Nat.add_zero, Nat.mul_add_mod, Nat.mod_eq_of_lt he]

theorem exists_fun {m l N : Nat} (hm : 0 < m) (hl : m ≤ l) {v : List MPart} (hlen : v.length = (PL m l).length)
    (hd : ∀ (i : Nat) (p : List Nat) (P : MPart), (PL m l)[i]? = some p → v[i]? = some P →
      P.N = N ∧ P.d = dimW l p ∧ P.m = (colW m l p).length) : ∃ f, VecOk m l N (tF m f l) v := by
  obtain ⟨f, hf⟩ := exists_tF hm hl (fun p _ s u w =>
    match v[(PL m l).idxOf p]? with
    | some P => P.data (rowIx l p u.1) (s, colIx m l p w.1)
    | none => 0)
  refine ⟨f, hlen, fun i p hp hi => ?_⟩
  have hlt : i < v.length := by rw [hlen]; exact (List.getElem?_eq_some_iff.1 hi).1
  obtain ⟨a1, a2, a3⟩ := hd i p _ hi (List.getElem?_eq_getElem hlt)
  refine ⟨_, List.getElem?_eq_getElem hlt, a1, a2, a3, fun u w hw s _ => ?_⟩
  have hidx : (PL m l).idxOf p = i := by
    obtain ⟨h1, h2⟩ := List.getElem?_eq_some_iff.1 hi
    rw [← h2]
    exact List.Nodup.idxOf_getElem (PL_nodup m l) i h1
  rw [hf p hp s u w hw, hidx, List.getElem?_eq_getElem hlt]

/-! ### distances -/

theorem nrm_rows {l : Nat} {p : List Nat} (hp : IsPartition l p) (x : Nat → ℝ) :
    nrm (dimW l p) x * nrm (dimW l p) x = ∑ u : Wd l p, x (rowIx l p u.1) * x (rowIx l p u.1) := by
  rw [nrm_sq, sum_rowIx hp]

/-- from the columns to the functions -/
theorem energy_diff {m l N : Nat} (hm : 0 < m) (hl : m ≤ l) {f f' : Nat → ℝ} {v v' : List MPart} (hv : VecOk m l N (tF m f l) v)
    (hv' : VecOk m l N (tF m f' l) v') {C : ℝ} {B : (p : List Nat) → IsPartition l p → Nat → Wd l p → ℝ}
    (hB : ∀ (i : Nat) (p : List Nat) (hp : IsPartition l p) (P Q : MPart), (PL m l)[i]? = some p → v[i]? = some P → v'[i]? = some Q →
      ∀ s < N, ∀ w : Wd l p, goodW m w.1 = true →
        nrm P.d (fun i => Q.data i (s, colIx m l p w.1) - P.data i (s, colIx m l p w.1)) ≤ C * B p hp s w) :
    (l ! / m ! : ℕ) * ∑ e ∈ Finset.range (N * (l ! / m !)), (f' e - f e) * (f' e - f e) ≤
      C * C * ∑ s ∈ Finset.range N, ∑ p : Pt l, (dimW l p.1 : ℝ) * ∑ w : Wd l p.1, if goodW m w.1 = true then B p.1 p.2 s w * B p.1 p.2 s w else 0 := by
  rw [← energy hm hl (fun e => f' e - f e), Finset.mul_sum]
  refine Finset.sum_le_sum fun s hs => ?_
  rw [Finset.mul_sum]
  refine Finset.sum_le_sum fun p _ => ?_
  rw [← mul_assoc, mul_comm (C * C), mul_assoc]
  refine mul_le_mul_of_nonneg_left ?_ (Nat.cast_nonneg _)
  unfold goodDot
  rw [Finset.mul_sum]
  refine Finset.sum_le_sum fun w _ => ?_
  by_cases hw : goodW m w.1 = true
  · rw [if_pos hw, if_pos hw]
    have hmem := (mem_PL (by omega) p.1).2 ⟨p.2, good_row p.2 hl w hw⟩
    obtain ⟨P, h1, h2⟩ := hv.at p.2 hmem
    obtain ⟨Q, h3, h4⟩ := hv'.at p.2 hmem
    have hi : (PL m l)[(PL m l).idxOf p.1]? = some p.1 := by
      rw [List.getElem?_eq_getElem (List.idxOf_lt_length_of_mem hmem), List.getElem_idxOf]
    have h5 := hB _ p.1 p.2 P Q hi h1 h3 s (Finset.mem_range.1 hs) w hw
    have h6 := mul_self_le_mul_self (nrm_nonneg _ _) h5
    rw [h2.d_eq, nrm_rows p.2] at h6
    refine le_trans (le_of_eq (Finset.sum_congr rfl fun u _ => ?_)) (h6.trans (le_of_eq (by ring)))
    rw [tF_sub, h4.data u w hw s (Finset.mem_range.1 hs), h2.data u w hw s (Finset.mem_range.1 hs)]
  · rw [if_neg hw, if_neg hw, mul_zero]

/-- the length of the values `0,..,K-1` of a function -/
theorem nrm_le_of_energy {K : Nat} {a C : ℝ} (ha : 0 < a) (hC : 0 ≤ C) {x y : Nat → ℝ}
    (h : a * ∑ e ∈ Finset.range K, x e * x e ≤ C * C * (a * ∑ e ∈ Finset.range K, y e * y e)) : nrm K x ≤ C * nrm K y := by
  refine nrm_le_of_sq (mul_nonneg hC (nrm_nonneg _ _)) ?_
  rw [show C * nrm K y * (C * nrm K y) = C * C * (nrm K y * nrm K y) by ring, nrm_sq]
  refine le_of_mul_le_mul_left ?_ ha
  linarith

section
variable {F : Rounding} {u η : ℝ}

/-! ### one level up -/

/-- the blocks of a part, with one rounding of each number -/
theorem blockLoop_local (hs : RelErr u F.s) (hu : 0 ≤ u) {m l N : Nat} {G : (q : List Nat) → IsPartition l q → Nat → Wd l q → Wd l q → ℝ}
    {v : List MPart} (hv : VecOk m l N G v)
    (S : List (List Nat)) (hS : ∀ q ∈ S, IsPartition l q ∧ q ∈ PL m l) (io jo : Nat) (P Q P' : MPart)
    (hN : Q.N = P.N) (hd : Q.d = P.d) (hm : Q.m = P.m) (hi : Q.irrep = P.irrep)
    (hnear : ∀ i k, |Q.data i k - P.data i k| ≤ u * |P.data i k|) (hz : ∀ i c j, jo ≤ j → P.data i (c, j) = 0 ∧ Q.data i (c, j) = 0)
    (hP : blockLoop v (blocksW m l io jo S) P = some P') :
    ∃ Q', F.blockLoop v (blocksW m l io jo S) Q = some Q' ∧ Q'.N = P'.N ∧ Q'.d = P'.d ∧ Q'.m = P'.m ∧ Q'.irrep = P'.irrep ∧
      ∀ i k, |Q'.data i k - P'.data i k| ≤ u * |P'.data i k| := by
  induction S generalizing io jo P Q with
  | nil =>
    simp only [blocksW, blockLoop, Option.some.injEq] at hP
    subst hP
    exact ⟨Q, rfl, hN, hd, hm, hi, hnear⟩
  | cons q S ih =>
    obtain ⟨hq, hqm⟩ := hS q (by simp)
    obtain ⟨X, hX, hXh⟩ := hv.at hq hqm
    simp only [blocksW, blockLoop, Option.bind_eq_bind, Option.bind_eq_some_iff] at hP
    obtain ⟨X', e1, P1, e2, e3⟩ := hP
    obtain rfl : X' = X := Option.some.inj (e1.symm.trans hX)
    unfold MPart.addToBlock at e2
    split at e2
    · rename_i hcond
      cases e2
      have hcond' : X'.N = Q.N ∧ io + X'.d ≤ Q.d ∧ jo + X'.m ≤ Q.m := by
        rw [hN, hd, hm]
        exact hcond
      have hm' : X'.m = (colW m l q).length := hXh.m_eq
      obtain ⟨Q', q1, q2⟩ := ih (fun q' hq' => hS q' (by simp [hq'])) (io + dimW l q) (jo + (colW m l q).length)
        { P with data := (fun i k =>
            if io ≤ i ∧ i < io + X'.d ∧ jo ≤ k.2 ∧ k.2 < jo + X'.m then P.data i k + X'.data (i - io) (k.1, k.2 - jo)
            else P.data i k) }
        { Q with data := (fun i k =>
            if io ≤ i ∧ i < io + X'.d ∧ jo ≤ k.2 ∧ k.2 < jo + X'.m then F.s (Q.data i k + X'.data (i - io) (k.1, k.2 - jo))
            else Q.data i k) } hN hd hm hi (by
          intro i k
          simp only
          by_cases hc : io ≤ i ∧ i < io + X'.d ∧ jo ≤ k.2 ∧ k.2 < jo + X'.m
          · obtain ⟨z1, z2⟩ := hz i k.1 k.2 hc.2.2.1
            rw [if_pos hc, if_pos hc, z1, z2, zero_add]
            exact hs _
          · rw [if_neg hc, if_neg hc]
            exact hnear i k)
        (by
          intro i c j hj
          simp only
          rw [if_neg (by omega), if_neg (by omega)]
          exact hz i c j (by omega)) e3
      refine ⟨Q', ?_, q2⟩
      simp only [blocksW, Rounding.blockLoop, Option.bind_eq_bind]
      rw [hX]
      simp only [Option.bind_some]
      unfold Rounding.addToBlock
      rw [if_pos hcond']
      exact q1
    · cases e2

/-- one level of the forward transform, with and without rounding, from the same state -/
theorem up_local (hs : RelErr u F.s) (hu : 0 ≤ u) {ap fap : ViewAct} {m l newN : Nat} (hm : m ≤ l) (hl : 0 < l) (hap : ActOk ap m (l + 1))
    (hfap : FActOk fap η m (l + 1)) (hη : 0 ≤ η) {ord : Nat → SumTree} (hord : (ord (l + 1)).Covers (l + 1)) {L : LevelT}
    (hL : LevelOk m (l + 1) L) (hB : BlocksOk m l L) {f : Nat → ℝ} {v w : List MPart}
    (hv : VecOk m l (newN * (l + 1)) (tF m f l) v) (hw : L.uptransform ap v = some w) :
    ∃ w', F.levelUp fap ord L v = some w' ∧
      List.Forall₂ (fun P Q => ∃ M, MNear ((1 + η) ^ l * (1 + u) ^ (l + 2)) M P Q ∧
        ∀ (hp : IsPartition (l + 1) P.irrep.lambda), ∀ c < newN, ∀ x : Wd (l + 1) P.irrep.lambda, goodW m x.1 = true →
          M c (colIx m (l + 1) P.irrep.lambda x.1) = ∑ t ∈ Finset.range (l + 1),
            √(∑ y, tFup m f l P.irrep.lambda hp (c * (l + 1) + t) y x * tFup m f l P.irrep.lambda hp (c * (l + 1) + t) y x)) w w' := by
  have hN := vecN_eq hm hl hv
  have hdiv : newN * (l + 1) / (l + 1) = newN := Nat.mul_div_cancel _ (by omega)
  unfold LevelT.uptransform at hw
  rw [hN, hL.n_eq] at hw
  simp only [Option.bind_eq_bind, Option.bind_some, Option.bind_eq_some_iff] at hw
  rw [hdiv] at hw
  obtain ⟨w1, e1, e2⟩ := hw
  obtain ⟨w1', f1, f2⟩ := mapM_rel (g := fun p => (F.partUp p v).bind (twistUp fap (l + 1) newN))
    (fun P Q => ∃ M, MNear ((1 + u) * (1 + η) ^ l) M P Q ∧ IP.getn P.irrep.lambda = l + 1 ∧ P.N = newN * (l + 1) ∧
      ∀ (hp : IsPartition (l + 1) P.irrep.lambda), ∀ s < newN * (l + 1), ∀ x : Wd (l + 1) P.irrep.lambda, goodW m x.1 = true →
          M s (colIx m (l + 1) P.irrep.lambda x.1) =
            √(∑ y, tFup m f l P.irrep.lambda hp s y x * tFup m f l P.irrep.lambda hp s y x)) L.parts w1 (by
    intro p hpL P2 hP2
    simp only [Option.bind_eq_some_iff] at hP2
    obtain ⟨P1, a1, a2⟩ := hP2
    obtain ⟨i, hip⟩ := List.mem_iff_getElem?.1 hpL
    obtain ⟨hp, hrow⟩ := hL.mem (by omega) hpL
    obtain ⟨-, hmk, hd, hcol⟩ := hL.part i p hip
    obtain ⟨R, hR, hlam, hrep⟩ := exists_repr (by omega) hp
    obtain rfl : p.irrep = R := Option.some.inj (hmk.symm.trans hR)
    unfold PartT.uptransform at a1
    rw [hN] at a1
    simp only [Option.bind_eq_bind, Option.bind_some] at a1
    rw [hB p hpL] at a1
    have hS : ∀ q ∈ subsM m p.irrep.lambda, IsPartition l q ∧ q ∈ PL m l := by
      intro q hq
      obtain ⟨⟨b1, b2⟩, b3⟩ := (mem_subsM hp q).1 hq
      exact ⟨b1, (mem_PL hl q).2 ⟨b1, b3⟩⟩
    obtain ⟨Q1, c1, c2, c3, c4, c5, c6⟩ := blockLoop_local hs hu hv _ hS 0 0 (MPart.zero (newN * (l + 1)) p.irrep p.m)
      (MPart.zero (newN * (l + 1)) p.irrep p.m) P1 rfl rfl rfl rfl (fun i k => by simp [MPart.zero]) (fun i c j _ => ⟨rfl, rfl⟩) a1
    obtain ⟨P1', g1, g2, g3⟩ := blockLoop_eq hm hl hp hv (tFup_block m f l _ hp) [] (subsM m p.irrep.lambda) rfl
      (MPart.zero (newN * (l + 1)) p.irrep p.m) ⟨rfl, by rw [MPart.zero, hrep.d_eq]; rfl, hcol, fun u w hw s hs => by simp [MPart.zero]⟩
    obtain rfl : P1' = P1 := Option.some.inj (g1.symm.trans a1)
    have g2' : P1'.irrep = p.irrep := g2
    have hnear : MNear (1 + u) (fun c j => nrm P1'.d fun i => P1'.data i (c, j)) P1' Q1 := by
      refine ⟨c2, c3, c4, c5, fun c _ j _ => ?_⟩
      have h0 : ColNear P1'.d 1 (nrm P1'.d fun i => P1'.data i (c, j)) (fun i => P1'.data i (c, j)) (fun i => P1'.data i (c, j)) :=
        ⟨le_refl _, by simp [nrm_zero]⟩
      have := h0.round hu (z := fun i => Q1.data i (c, j)) (fun i _ => c6 i (c, j))
      rw [one_mul] at this
      exact this
    obtain ⟨Q2, d1, d2, d3, d4, d5⟩ := twistUp_near hap hfap hη (P := P1') (hp := hp) (by rw [g2']; exact hrep) (by rw [g2']; exact hmk) hrow
      (E := 1 + u) (by linarith) hnear g3.N_eq (by rw [g3.d_eq, g2', hrep.d_eq]; rfl) a2
    refine ⟨Q2, ?_, _, d2, ?_, ?_, ?_⟩
    · unfold Rounding.partUp
      rw [hN]
      simp only [Option.bind_eq_bind, Option.bind_some]
      rw [hB p hpL, c1]
      exact d1
    · rw [d3, g2', getn_eq, hp.sum]
    · rw [d4, g3.N_eq]
    · rw [d3, g2']
      intro hp' s hs' x hx
      rw [← Real.sqrt_mul_self (nrm_nonneg _ _), g3.d_eq, nrm_rows hp]
      congr 1
      exact Finset.sum_congr rfl fun y _ => by rw [g3.data y x hx s hs']) e1
  obtain ⟨w', g1, g2⟩ := mapM_rel₂ _ (fun P Q => ∃ M, MNear ((1 + η) ^ l * (1 + u) ^ (l + 2)) M P Q ∧
        ∀ (hp : IsPartition (l + 1) P.irrep.lambda), ∀ c < newN, ∀ x : Wd (l + 1) P.irrep.lambda, goodW m x.1 = true →
          M c (colIx m (l + 1) P.irrep.lambda x.1) = ∑ t ∈ Finset.range (l + 1),
            √(∑ y, tFup m f l P.irrep.lambda hp (c * (l + 1) + t) y x * tFup m f l P.irrep.lambda hp (c * (l + 1) + t) y x))
    (g := F.reduce ord) f2 (by
    rintro P _ Q P' ⟨M, h1, h2, h3, h4⟩ hP
    obtain ⟨Q', k1, k2⟩ := reduce_near hs hu hord h2 h1 h3 hP
    have hirr : P'.irrep = P.irrep := by
      unfold MPart.reduce at hP
      simp only at hP
      split at hP
      · cases hP
      · cases hP; rfl
    refine ⟨Q', k1, fun c j => ∑ t ∈ Finset.range (l + 1), M (c * (l + 1) + t) j, ?_, ?_⟩
    · rw [show (1 + η) ^ l * (1 + u) ^ (l + 2) = (1 + u) * (1 + η) ^ l * (1 + u) ^ (l + 1) by ring]
      exact k2
    · rw [hirr]
      intro hp c hc x hx
      refine Finset.sum_congr rfl fun t ht => h4 hp _ ?_ x hx
      calc c * (l + 1) + t < c * (l + 1) + (l + 1) := by have := Finset.mem_range.1 ht; omega
        _ = (c + 1) * (l + 1) := by ring
        _ ≤ newN * (l + 1) := Nat.mul_le_mul_right _ hc) e2
  refine ⟨w', ?_, g2⟩
  unfold Rounding.levelUp
  rw [hN, hL.n_eq]
  simp only [Option.bind_eq_bind, Option.bind_some]
  rw [hdiv, f1]
  exact g1

theorem sq_sum_sqrt_le (n : Nat) (x : Nat → ℝ) (hx : ∀ t, 0 ≤ x t) :
    (∑ t ∈ Finset.range n, √(x t)) * ∑ t ∈ Finset.range n, √(x t) ≤ n * ∑ t ∈ Finset.range n, x t := by
  have h := sq_sum_le_card_mul_sum_sq (s := Finset.range n) (f := fun t => √(x t))
  rw [Finset.card_range, sq] at h
  simpa only [Real.sq_sqrt (hx _)] using h

/-- one level of the forward transform with rounding: the result is the exact state of a function near the one before -/
theorem up_energy (hs : RelErr u F.s) (hu : 0 ≤ u) {ap fap : ViewAct} {m l newN : Nat} (hm0 : 0 < m) (hm : m ≤ l) (hap : ActOk ap m (l + 1))
    (hfap : FActOk fap η m (l + 1)) (hη : 0 ≤ η) {ord : Nat → SumTree} (hord : (ord (l + 1)).Covers (l + 1)) {L : LevelT}
    (hL : LevelOk m (l + 1) L) (hB : BlocksOk m l L) {f : Nat → ℝ} {v : List MPart} (hv : VecOk m l (newN * (l + 1)) (tF m f l) v) :
    ∃ f' w', F.levelUp fap ord L v = some w' ∧ VecOk m (l + 1) newN (tF m f' (l + 1)) w' ∧ w'.map MPart.irrep = L.parts.map PartT.irrep ∧
      nrm (newN * ((l + 1)! / m !)) (fun e => f' e - f e) ≤
        √((l : ℝ) + 1) * ((1 + η) ^ l * (1 + u) ^ (l + 2) - 1) * nrm (newN * ((l + 1)! / m !)) f := by
  have hl : 0 < l := by omega
  obtain ⟨w, h1, h2, h3⟩ := up_step hm hl hap hL hB hv (fun p hp => tFup_block m f l p hp)
  have h3' : VecOk m (l + 1) newN (tF m f (l + 1)) w := by
    refine ⟨h3.len, fun i p hp hi => ?_⟩
    obtain ⟨P, a1, a2⟩ := h3.part i p hp hi
    refine ⟨P, a1, a2.N_eq, a2.d_eq, a2.m_eq, fun u w hw s hs => ?_⟩
    rw [a2.data u w hw s hs, tF_succ hm]
  obtain ⟨w', k1, k2⟩ := up_local hs hu hm hl hap hfap hη hord hL hB hv h1
  have hmaps : w'.map MPart.irrep = w.map MPart.irrep := by
    refine List.ext_getElem? fun i => ?_
    rw [List.getElem?_map, List.getElem?_map]
    cases hi : w[i]? with
    | none =>
      have : w'[i]? = none := by
        rw [List.getElem?_eq_none_iff] at hi ⊢
        rw [← k2.length_eq]; exact hi
      rw [this]
    | some P =>
      obtain ⟨Q, hQ, M, hM, -⟩ := forall₂_getElem? k2 hi
      rw [hQ, Option.map_some, Option.map_some, hM.irrep]
  have hlam : ∀ (i : Nat) (p : List Nat) (P : MPart), (PL m (l + 1))[i]? = some p → w[i]? = some P → P.irrep.lambda = p := by
    intro i p P hi hP
    have := congrArg (fun l => l[i]?) h2
    simp only [List.getElem?_map, hP, Option.map_some] at this
    rw [← hL.keys, List.getElem?_map] at hi
    obtain ⟨q, hq, rfl⟩ := Option.map_eq_some_iff.1 hi
    rw [hq, Option.map_some] at this
    rw [Option.some.inj this]
  obtain ⟨f', hf'⟩ : ∃ f', VecOk m (l + 1) newN (tF m f' (l + 1)) w' := by
    refine exists_fun hm0 (by omega) (by rw [← k2.length_eq]; exact h3.len) fun i p Q hi hQ => ?_
    have hlt : i < w.length := by rw [k2.length_eq]; exact (List.getElem?_eq_some_iff.1 hQ).1
    obtain ⟨Q2, hQ2, M, hM, -⟩ := forall₂_getElem? k2 (List.getElem?_eq_getElem hlt)
    obtain rfl : Q2 = Q := Option.some.inj (hQ2.symm.trans hQ)
    have hp := ((mem_PL (by omega) _).1 (List.mem_of_getElem? hi)).1
    obtain ⟨P, a1, a2⟩ := h3.part i p hp hi
    obtain rfl : w[i] = P := Option.some.inj ((List.getElem?_eq_getElem hlt).symm.trans a1)
    exact ⟨hM.N.trans a2.N_eq, hM.d.trans a2.d_eq, hM.m.trans a2.m_eq⟩
  refine ⟨f', w', k1, hf', hmaps.trans h2, ?_⟩
  have hg : (0 : ℝ) ≤ (1 + η) ^ l * (1 + u) ^ (l + 2) - 1 := by
    have : (1 : ℝ) ≤ (1 + η) ^ l * (1 + u) ^ (l + 2) :=
      one_le_mul_of_one_le_of_one_le (one_le_pow₀ (by linarith)) (one_le_pow₀ (by linarith))
    linarith
  have hK : (0 : ℝ) < ((l + 1)! / m ! : ℕ) := by
    exact_mod_cast Nat.div_pos (Nat.factorial_le (by omega)) (Nat.factorial_pos _)
  set C := (1 + η) ^ l * (1 + u) ^ (l + 2) - 1
  have hd := energy_diff hm0 (by omega) h3' hf' (C := C) (B := fun p hp c x => ∑ t ∈ Finset.range (l + 1),
      √(∑ y, tFup m f l p hp (c * (l + 1) + t) y x * tFup m f l p hp (c * (l + 1) + t) y x)) (by
    intro i p hp P Q hi hP hQ c hc x hx
    obtain ⟨Q2, hQ2, M, hM, hM2⟩ := forall₂_getElem? k2 hP
    obtain rfl : Q2 = Q := Option.some.inj (hQ2.symm.trans hQ)
    obtain rfl := hlam i p P hi hP
    obtain ⟨P2, a1, a2⟩ := h3'.part i _ hp hi
    obtain rfl : P2 = P := Option.some.inj (a1.symm.trans hP)
    rw [← hM2 hp c hc x hx]
    exact (hM.col c (by rw [a2.N_eq]; exact hc) _ (by rw [a2.m_eq]; exact colIx_lt x hx)).err)
  refine nrm_le_of_energy hK (mul_nonneg (Real.sqrt_nonneg _) hg) (hd.trans ?_)
  rw [show √((l : ℝ) + 1) * C * (√((l : ℝ) + 1) * C) = C * C * (√((l : ℝ) + 1) * √((l : ℝ) + 1)) by ring,
    Real.mul_self_sqrt (by positivity), mul_assoc (C * C)]
  refine mul_le_mul_of_nonneg_left ?_ (mul_self_nonneg C)
  have e0 : newN * ((l + 1)! / m !) = newN * (l + 1) * (l ! / m !) := by rw [quot_succ hm, Nat.mul_assoc]
  rw [e0, ← energy_up hm0 hm f (newN * (l + 1)), sum_range_mul', Finset.mul_sum]
  refine Finset.sum_le_sum fun c _ => ?_
  have e1 : ∀ p : Pt (l + 1), (∑ x : Wd (l + 1) p.1, if goodW m x.1 = true then (∑ t ∈ Finset.range (l + 1),
      √(∑ y, tFup m f l p.1 p.2 (c * (l + 1) + t) y x * tFup m f l p.1 p.2 (c * (l + 1) + t) y x)) * (∑ t ∈ Finset.range (l + 1),
      √(∑ y, tFup m f l p.1 p.2 (c * (l + 1) + t) y x * tFup m f l p.1 p.2 (c * (l + 1) + t) y x)) else 0) ≤
      ((l : ℝ) + 1) * ∑ t ∈ Finset.range (l + 1), goodDot m (tFup m f l p.1 p.2 (c * (l + 1) + t)) (tFup m f l p.1 p.2 (c * (l + 1) + t)) := by
    intro p
    unfold goodDot
    rw [Finset.sum_comm, Finset.mul_sum]
    refine Finset.sum_le_sum fun x _ => ?_
    by_cases hx : goodW m x.1 = true
    · simp only [if_pos hx]
      refine (sq_sum_sqrt_le (l + 1) _ fun t => Finset.sum_nonneg fun y _ => mul_self_nonneg _).trans (le_of_eq ?_)
      push_cast
      rfl
    · simp only [if_neg hx, Finset.sum_const_zero, mul_zero, le_refl]
  refine (Finset.sum_le_sum fun p _ => mul_le_mul_of_nonneg_left (e1 p) (Nat.cast_nonneg _)).trans (le_of_eq ?_)
  rw [Finset.sum_comm, Finset.mul_sum]
  refine Finset.sum_congr rfl fun p _ => ?_
  rw [← Finset.mul_sum]
  ring

end

end Snob
