import Verif.Proofs.FloatFFT
import Verif.Proofs.FFTSpec

/-! # The inverse transform with rounding -/

namespace Snob

open IP Matrix Snob.Perm
open scoped Nat

/-! ### columns -/

theorem ColNear.add {d : Nat} {E M M' : ℝ} {x y x' y' : Nat → ℝ} (h : ColNear d E M x y) (h' : ColNear d E M' x' y') :
    ColNear d E (M + M') (fun i => x i + x' i) (fun i => y i + y' i) := by
  refine ⟨(nrm_add _ _ _).trans (add_le_add h.len h'.len), ?_⟩
  have h1 := nrm_add d (fun i => y i - x i) (fun i => y' i - x' i)
  rw [show nrm d (fun i => y i + y' i - (x i + x' i)) = nrm d (fun i => y i - x i + (y' i - x' i)) from nrm_congr fun i _ => by ring]
  have := h.err
  have := h'.err
  linarith

theorem ColNear.scale {d : Nat} {E M e c c' : ℝ} {x y : Nat → ℝ} (h : ColNear d E M x y) (hc : 0 ≤ c) (he : 1 ≤ e)
    (hcc : |c' - c| ≤ (e - 1) * c) : ColNear d (E * e) (c * M) (fun i => c * x i) (fun i => c' * y i) := by
  have h1 : nrm d (fun i => c * x i) ≤ c * nrm d x := nrm_le_mul hc fun i _ => by rw [abs_mul, abs_of_nonneg hc]
  refine ⟨h1.trans (mul_le_mul_of_nonneg_left h.len hc), ?_⟩
  have h2 : nrm d (fun i => (c' - c) * y i) ≤ (e - 1) * c * nrm d y := nrm_le_mul (mul_nonneg (by linarith) hc) fun i _ => by
    rw [abs_mul]; exact mul_le_mul_of_nonneg_right hcc (abs_nonneg _)
  have h3 : nrm d (fun i => c * (y i - x i)) ≤ c * nrm d (fun i => y i - x i) := nrm_le_mul hc fun i _ => by
    rw [abs_mul, abs_of_nonneg hc]
  have h4 := nrm_add d (fun i => (c' - c) * y i) (fun i => c * (y i - x i))
  rw [show nrm d (fun i => c' * y i - c * x i) = nrm d (fun i => (c' - c) * y i + c * (y i - x i)) from nrm_congr fun i _ => by ring]
  have h5 := mul_le_mul_of_nonneg_left h.bound (mul_nonneg (by linarith : 0 ≤ e - 1) hc)
  have h6 := mul_le_mul_of_nonneg_left h.err hc
  have h7 : (E * e - 1) * (c * M) = (e - 1) * c * (E * M) + c * ((E - 1) * M) := by ring
  linarith

theorem nrm_sub {d d' io : Nat} (h : io + d' ≤ d) (x : Nat → ℝ) : nrm d' (fun i => x (i + io)) ≤ nrm d x := by
  have h1 : nrm d (fun i => if io ≤ i ∧ i < io + d' then x i else 0) = nrm d' (fun i => x (i + io)) := by
    refine nrm_block h _ _ (fun i hi => ?_) fun i _ hi => ?_
    · rw [if_pos ⟨by omega, by omega⟩, Nat.add_comm]
    · rw [if_neg hi]
  rw [← h1]
  refine (nrm_le_mul (c := 1) (by norm_num) fun i _ => ?_).trans (le_of_eq (one_mul _))
  split
  · rw [one_mul]
  · rw [abs_zero, one_mul]; exact abs_nonneg _

theorem ColNear.sub {d d' io : Nat} {E M : ℝ} {x y : Nat → ℝ} (h : ColNear d E M x y) (hd : io + d' ≤ d) :
    ColNear d' E M (fun i => x (i + io)) (fun i => y (i + io)) :=
  ⟨(nrm_sub hd x).trans h.len, (nrm_sub hd fun i => y i - x i).trans h.err⟩

/-! ### the weights -/

theorem dimW_le {l : Nat} {p q : List Nat} (hp : IsPartition (l + 1) p) (hq : IsPartition l q) (hb : AddsBox q p) : dimW l q ≤ dimW (l + 1) p := by
  obtain ⟨r, hb⟩ := hb
  have h1 : ∀ {n : Nat} {p : List Nat}, IsPartition n p → Fintype.card (Wd n p) = dimW n p := by
    intro n p hp
    exact card_Wd hp
  rw [← h1 hq, ← h1 hp]
  refine Fintype.card_le_of_injective (emb hp hq hb) fun a b h => ?_
  exact Subtype.ext (List.cons.inj (congrArg Subtype.val h)).2

theorem wt_pos {l : Nat} {p q : List Nat} (hp : IsPartition (l + 1) p) (hq : IsPartition l q) : 0 < wt l p q := by
  unfold wt
  have h1 : (0 : ℝ) < dimW (l + 1) p := by exact_mod_cast dimW_pos hp
  have h2 : (0 : ℝ) < dimW l q := by exact_mod_cast dimW_pos hq
  positivity

theorem wt_ge {l : Nat} {p q : List Nat} (hp : IsPartition (l + 1) p) (hq : IsPartition l q) (hb : AddsBox q p) : 1 / ((l : ℝ) + 1) ≤ wt l p q := by
  unfold wt
  have h2 : (0 : ℝ) < dimW l q := by exact_mod_cast dimW_pos hq
  have h3 : (dimW l q : ℝ) ≤ dimW (l + 1) p := by exact_mod_cast dimW_le hp hq hb
  have hl : (0 : ℝ) < (l : ℝ) + 1 := by positivity
  rw [div_le_div_iff₀ hl (by positivity)]
  nlinarith

/-- the weights of the blocks over `q`, and their number, among the shapes in a list -/
noncomputable def wtSum (m l : Nat) (q : List Nat) (ps : List (List Nat)) : ℝ := (ps.map fun p => if q ∈ subsM m p then wt l p q else 0).sum

def wtCount (m : Nat) (q : List Nat) (ps : List (List Nat)) : Nat := (ps.map fun p => if q ∈ subsM m p then 1 else 0).sum

theorem wtSum_one {m l : Nat} (hl : 0 < l) {q : List Nat} (hq : IsPartition l q) (hqm : m ≤ row q 0) : wtSum m l q (PL m (l + 1)) = 1 := by
  classical
  unfold wtSum
  rw [sum_PL (by omega)]
  obtain ⟨u⟩ : Nonempty (Wd l q) := by
    obtain ⟨w, hw⟩ := List.exists_mem_of_ne_nil _ (words_ne_nil hq)
    exact ⟨⟨w, hw⟩⟩
  have h1 := sum_blk_extend hq 1 u u
  have h2 := sum_wt_blk hq (extend 1) u u
  rw [h1] at h2
  have hd : (dimW l q : ℝ) ≠ 0 := by exact_mod_cast (dimW_pos hq).ne'
  have hl' : ((l : ℝ) + 1) ≠ 0 := by positivity
  rw [map_one, Matrix.one_apply_eq, mul_one, div_self (mul_ne_zero hd hl')] at h2
  rw [← h2]
  refine Finset.sum_congr rfl fun p _ => ?_
  by_cases hb : AddsBox q p.1
  · have hrow : m ≤ row p.1 0 := by
      obtain ⟨r, hb⟩ := hb
      have := hb 0
      split_ifs at this <;> omega
    obtain ⟨r, hb'⟩ := hb
    rw [if_pos hrow, if_pos ((mem_subsM p.2 q).2 ⟨⟨hq, r, hb'⟩, hqm⟩), blk_eq p.2 hq hb', extend_one, map_one, Matrix.one_apply_eq, mul_one]
  · rw [blk_none p.2 hq hb, mul_zero]
    split_ifs with h3 h4
    · exact absurd ((mem_subsM p.2 q).1 h4).1.2 hb
    · rfl
    · rfl

theorem wtCount_le {m l : Nat} {q : List Nat} (hq : IsPartition l q) (ps : List (List Nat)) (hps : ∀ p ∈ ps, IsPartition (l + 1) p) :
    (wtCount m q ps : ℝ) ≤ (l + 1) * wtSum m l q ps := by
  have hl : (0 : ℝ) < (l : ℝ) + 1 := by positivity
  induction ps with
  | nil => simp [wtCount, wtSum]
  | cons p ps ih =>
    have h1 := ih fun p' h' => hps p' (by simp [h'])
    unfold wtCount wtSum at h1 ⊢
    simp only [List.map_cons, List.sum_cons]
    by_cases h : q ∈ subsM m p
    · have h2 := wt_ge (hps p (by simp)) hq ((mem_subsM (hps p (by simp)) q).1 h).1.2
      rw [div_le_iff₀ hl] at h2
      rw [if_pos h, if_pos h, Nat.cast_add, Nat.cast_one]
      linarith
    · rw [if_neg h, if_neg h, Nat.cast_add, Nat.cast_zero]
      linarith

section
variable {F : Rounding} {u η : ℝ}

theorem weight_near (hs : RelErr u F.s) (hu : 0 ≤ u) (hu2 : u ≤ 1 / 2) (a b : Nat) (hb : 0 < b) :
    |F.s (F.s (a : ℝ) / F.s (b : ℝ)) - (a : ℝ) / b| ≤ ((1 + u) ^ 4 - 1) * ((a : ℝ) / b) := by
  have ha : (0 : ℝ) ≤ a := Nat.cast_nonneg a
  have hb' : (0 : ℝ) < b := by exact_mod_cast hb
  have h1 : |F.s (a : ℝ) - a| ≤ u * a := by have := hs (a : ℝ); rwa [abs_of_nonneg ha] at this
  have h2 : |F.s (b : ℝ) - b| ≤ u * b := by have := hs (b : ℝ); rwa [abs_of_nonneg hb'.le] at this
  generalize F.s (a : ℝ) = x at *
  generalize F.s (b : ℝ) = y at *
  have hy : (1 - u) * b ≤ y := by have := (abs_le.1 h2).1; linarith
  have hy0 : 0 < y := lt_of_lt_of_le (mul_pos (by linarith) hb') hy
  have h3 : |x / y - a / b| ≤ 2 * u / (1 - u) * (a / b) := by
    have e1 : x / y - a / b = ((x - a) * b + a * (b - y)) / (y * b) := by field_simp; ring
    have e2 : |(x - a) * b + a * (b - y)| ≤ 2 * u * a * b := by
      refine (abs_add_le _ _).trans ?_
      rw [abs_mul, abs_mul, abs_of_pos hb', abs_of_nonneg ha, abs_sub_comm (b : ℝ) y]
      nlinarith
    rw [e1, abs_div, abs_of_pos (mul_pos hy0 hb')]
    rw [div_le_iff₀ (mul_pos hy0 hb')]
    refine e2.trans ?_
    have e3 : 2 * u / (1 - u) * (a / b) * (y * b) = 2 * u * a * (y / (1 - u)) := by
      have : (1 - u) ≠ 0 := by linarith
      field_simp
    rw [e3]
    refine mul_le_mul_of_nonneg_left ?_ (by positivity)
    rw [le_div_iff₀ (by linarith)]
    linarith
  have hab : (0 : ℝ) ≤ a / b := by positivity
  have h4 := hs.le hu h3 (le_of_eq (abs_of_nonneg hab))
  refine h4.trans (mul_le_mul_of_nonneg_right ?_ hab)
  have h5 : (1 + u) * (1 + 2 * u / (1 - u)) ≤ (1 + u) ^ 4 := by
    have e : 1 + 2 * u / (1 - u) = (1 + u) / (1 - u) := by
      have : (1 - u) ≠ 0 := by linarith
      field_simp
      ring
    rw [e, show (1 + u) ^ 4 = (1 + u) * (1 + u) ^ 3 by ring]
    refine mul_le_mul_of_nonneg_left ?_ (by linarith)
    rw [div_le_iff₀ (by linarith)]
    nlinarith [mul_nonneg hu hu, mul_nonneg hu (mul_nonneg hu hu), mul_nonneg hu (by linarith : 0 ≤ 1 / 2 - u),
      mul_nonneg (mul_nonneg hu hu) (by linarith : 0 ≤ 1 / 2 - u), mul_nonneg (mul_nonneg hu (mul_nonneg hu hu)) (by linarith : 0 ≤ 1 / 2 - u)]
  nlinarith [h5]

/-! ### the parts of the smaller level while the blocks are added -/

/-- `R'` is near `R`: the columns of the part `q` are at most as long as `C q` says, and are sums of `a q` terms -/
def RNear (u : ℝ) (m l : Nat) (E : ℝ) (C : List Nat → Nat → Nat → ℝ) (a : List Nat → Nat) (R R' : List MPart) : Prop :=
  R.length = R'.length ∧ ∀ (i : Nat) (q : List Nat) (P P' : MPart), (PL m l)[i]? = some q → R[i]? = some P → R'[i]? = some P' →
    MNear (E * (1 + u) ^ a q) (C q) P P'

/-- the first column of the block of `q` in a part of shape `p` -/
def blockOff (m l : Nat) (p q : List Nat) : Nat := colOff m l ((subsM m p).takeWhile fun q' => decide (q' ≠ q))

theorem blockOff_eq {m l : Nat} {p q : List Nat} {S1 S2 : List (List Nat)} (h : subsM m p = S1 ++ q :: S2) : blockOff m l p q = colOff m l S1 := by
  have hnd := subsM_nodup m p
  rw [h] at hnd
  unfold blockOff
  rw [h, List.takeWhile_append_of_pos, List.takeWhile_cons_of_neg (by simp), List.append_nil]
  intro q' hq'
  rw [decide_eq_true_iff]
  rintro rfl
  exact (List.nodup_append.1 hnd).2.2 q' hq' q' (by simp) rfl

theorem unblock_near (hs : RelErr u F.s) (hu : 0 ≤ u) (hu2 : u ≤ 1 / 2) {m l : Nat} (hl : 0 < l) {p : List Nat} (hp : IsPartition (l + 1) p)
    {P P' : MPart} (hPi : mkIrrep p = some P.irrep) {E : ℝ} (hE : 0 ≤ E) {M : Nat → Nat → ℝ} (hP : MNear E M P P') (S1 S : List (List Nat))
    (hS : subsM m p = S1 ++ S) (io : Nat) {R R' R1 : List MPart} {C : List Nat → Nat → Nat → ℝ} {a : List Nat → Nat}
    (hi : IrrOk m l R) (hR : RNear u m l (E * (1 + u) ^ 5) C a R R') (h : unblockLoop l P (blocksW m l io (colOff m l S1) S) R = some R1) :
    ∃ R1', F.unblockLoop l P' (blocksW m l io (colOff m l S1) S) R' = some R1' ∧ IrrOk m l R1 ∧
      RNear u m l (E * (1 + u) ^ 5) (fun q c j => C q c j + if q ∈ S then wt l p q * M c (j + blockOff m l p q) else 0)
        (fun q => a q + if q ∈ S then 1 else 0) R1 R1' := by
  induction S generalizing S1 io R R' C a with
  | nil =>
    simp only [blocksW, unblockLoop, Option.some.injEq] at h
    subst h
    refine ⟨R', rfl, hi, ?_⟩
    simpa using hR
  | cons q S ih =>
    obtain ⟨⟨hq, hb⟩, hqr⟩ := (mem_subsM hp q).1 (by rw [hS]; simp)
    have hoff := blockOff_eq (l := l) hS
    have hoff2 : colOff m l (S1 ++ [q]) = colOff m l S1 + (colW m l q).length := by simp [colOff]
    have hnd := subsM_nodup m p
    rw [hS] at hnd
    have hqPL : q ∈ PL m l := (mem_PL hl q).2 ⟨hq, hqr⟩
    have hidx : (PL m l)[(PL m l).idxOf q]? = some q := by
      rw [List.getElem?_eq_getElem (List.idxOf_lt_length_of_mem hqPL), List.getElem_idxOf]
    have hqS : q ∉ S := (List.nodup_cons.1 (List.nodup_append.1 hnd).2.1).1
    generalize hjo : colOff m l S1 = jo at *
    simp only [blocksW, unblockLoop, Option.bind_eq_bind, Option.bind_eq_some_iff] at h
    obtain ⟨X, hX, X1, hX1, h⟩ := h
    have hltR : (PL m l).idxOf q < R.length := (List.getElem?_eq_some_iff.1 hX).1
    have hltR' : (PL m l).idxOf q < R'.length := by rw [← hR.1]; exact hltR
    obtain ⟨X', hX'⟩ : ∃ X', R'[(PL m l).idxOf q]? = some X' := ⟨_, List.getElem?_eq_getElem hltR'⟩
    have hXn := hR.2 _ q X X' hidx hX hX'
    have hXi := hi _ q X hidx hX
    have hd1 := irrep_d (by omega) hp hPi
    have hd2 := irrep_d hl hq hXi
    unfold MPart.addBlockTo at hX1
    split at hX1
    · rename_i hcond
      cases hX1
      obtain ⟨c1, c2, c3⟩ := hcond
      have hcond' : X'.N = P'.N ∧ io + X'.d ≤ P'.d ∧ jo + X'.m ≤ P'.m := by
        rw [hXn.N, hXn.d, hXn.m, hP.N, hP.d, hP.m]
        exact ⟨c1, c2, c3⟩
      have hw : (P.irrep.d : ℝ) / (X.irrep.d * (l + 1)) = wt l p q := by rw [hd1, hd2]; rfl
      set cf := F.s (F.s (P.irrep.d : ℝ) / F.s ((X.irrep.d * (l + 1) : Nat) : ℝ)) with hcf
      have hcf' : |cf - wt l p q| ≤ ((1 + u) ^ 4 - 1) * wt l p q := by
        have := weight_near hs hu hu2 P.irrep.d (X.irrep.d * (l + 1)) (by
          rw [hd2]; exact Nat.mul_pos (dimW_pos hq) (by omega))
        rw [Nat.cast_mul, Nat.cast_add, Nat.cast_one, hw] at this
        rw [hcf, Nat.cast_mul, Nat.cast_add, Nat.cast_one]
        exact this
      have hu1 : (1 : ℝ) ≤ (1 + u) ^ 4 := one_le_pow₀ (by linarith)
      have hwp := wt_pos hp hq
      have hnew : MNear (E * (1 + u) ^ 5 * (1 + u) ^ (a q + 1)) (fun c j => C q c j + wt l p q * M c (j + jo))
          { X with data := fun i k => X.data i k + (P.irrep.d : ℝ) / (X.irrep.d * (l + 1)) * P.data (i + io) (k.1, k.2 + jo) }
          { X' with data := fun i k => F.s (X'.data i k + F.s (cf * P'.data (i + io) (k.1, k.2 + jo))) } := by
        refine ⟨hXn.N, hXn.d, hXn.m, hXn.irrep, fun c hc j hj => ?_⟩
        simp only at hc hj ⊢
        rw [hw]
        have b1 := (hP.col c (by rw [← c1]; exact hc) (j + jo) (by omega)).sub (io := io) (d' := X.d) c2
        have b2 := (b1.scale hwp.le hu1 hcf').round hu (z := fun i => F.s (cf * P'.data (i + io) (c, j + jo))) (fun i _ => hs _)
        have e1 : E * (1 + u) ^ 4 * (1 + u) = E * (1 + u) ^ 5 := by ring
        rw [e1] at b2
        have b3 : E * (1 + u) ^ 5 ≤ E * (1 + u) ^ 5 * (1 + u) ^ a q :=
          le_mul_of_one_le_right (by positivity) (one_le_pow₀ (by linarith))
        have b4 := ((hXn.col c hc j hj).add (b2.mono b3)).round hu
          (z := fun i => F.s (X'.data i (c, j) + F.s (cf * P'.data (i + io) (c, j + jo)))) (fun i _ => hs _)
        rw [show E * (1 + u) ^ 5 * (1 + u) ^ (a q + 1) = E * (1 + u) ^ 5 * (1 + u) ^ a q * (1 + u) by ring]
        exact b4
      obtain ⟨R1', k1, k2, k3⟩ := ih (S1 ++ [q]) (by rw [hS]; simp) (io + dimW l q)
        (R := R.set ((PL m l).idxOf q)
          { X with data := fun i k => X.data i k + (P.irrep.d : ℝ) / (X.irrep.d * (l + 1)) * P.data (i + io) (k.1, k.2 + jo) })
        (R' := R'.set ((PL m l).idxOf q) { X' with data := fun i k => F.s (X'.data i k + F.s (cf * P'.data (i + io) (k.1, k.2 + jo))) })
        (C := fun q' c j => C q' c j + if q' = q then wt l p q' * M c (j + blockOff m l p q') else 0) (a := fun q' => a q' + if q' = q then 1 else 0)
        (by
          intro i q' Y h1 h2
          by_cases e : (PL m l).idxOf q = i
          · subst e
            rw [List.getElem?_set_self hltR] at h2
            obtain rfl := Option.some.inj h2
            exact hi _ q' X h1 hX
          · rw [List.getElem?_set_ne e] at h2
            exact hi i q' Y h1 h2)
        (by
          refine ⟨by rw [List.length_set, List.length_set]; exact hR.1, fun i q' Y Y' h1 h2 h3 => ?_⟩
          by_cases e : (PL m l).idxOf q = i
          · subst e
            obtain rfl : q = q' := Option.some.inj (hidx.symm.trans h1)
            rw [List.getElem?_set_self hltR] at h2
            rw [List.getElem?_set_self hltR'] at h3
            obtain rfl := Option.some.inj h2
            obtain rfl := Option.some.inj h3
            simp only [if_true, hoff]
            exact hnew
          · rw [List.getElem?_set_ne e] at h2 h3
            have hne : q' ≠ q := by
              rintro rfl
              obtain ⟨hlt, hg⟩ := List.getElem?_eq_some_iff.1 h1
              exact e (by rw [← hg]; exact List.Nodup.idxOf_getElem (PL_nodup m l) i hlt)
            simp only [if_neg hne, add_zero]
            exact hR.2 i q' Y Y' h1 h2 h3) (by rw [hoff2]; exact h)
      refine ⟨R1', ?_, k2, k3.1, fun i q' Y Y' h1 h2 h3 => ?_⟩
      · simp only [blocksW, Rounding.unblockLoop, Option.bind_eq_bind]
        rw [hX']
        simp only [Option.bind_some]
        rw [hP.irrep, hXn.irrep]
        unfold Rounding.addBlockTo
        rw [if_pos hcond']
        rw [hoff2] at k1
        exact k1
      · have := k3.2 i q' Y Y' h1 h2 h3
        by_cases e : q' = q
        · subst e
          simpa [hqS] using this
        · simpa [e] using this
    · cases hX1

theorem irrep_lambda {n : Nat} (hn : 0 < n) {p : List Nat} (hp : IsPartition n p) {R : IrrepObj} (h : mkIrrep p = some R) : R.lambda = p := by
  obtain ⟨R', hR, hlam, -⟩ := exists_repr hn hp
  obtain rfl : R' = R := Option.some.inj (hR.symm.trans h)
  exact hlam

/-- the bound on the columns of the part `q` after the blocks of the shapes in a list are added, where the columns of a part of shape
`p` are bounded by `M p` -/
noncomputable def wtBound (m l : Nat) (M : List Nat → Nat → Nat → ℝ) (q : List Nat) (c j : Nat) (ps : List (List Nat)) : ℝ :=
  (ps.map fun p => if q ∈ subsM m p then wt l p q * M p c (j + blockOff m l p q) else 0).sum

theorem wtBound_const (m l : Nat) (M : ℝ) (q : List Nat) (c j : Nat) (ps : List (List Nat)) :
    wtBound m l (fun _ _ _ => M) q c j ps = wtSum m l q ps * M := by
  unfold wtBound wtSum
  induction ps with
  | nil => simp
  | cons p ps ih =>
    simp only [List.map_cons, List.sum_cons]
    rw [ih, add_mul]
    split_ifs <;> simp

theorem unpart_near (hs : RelErr u F.s) (hu : 0 ≤ u) (hu2 : u ≤ 1 / 2) {m l : Nat} (hl : 0 < l) {E : ℝ} (hE : 0 ≤ E) {M : List Nat → Nat → Nat → ℝ}
    (ps : List PartT) (VV VV' : List MPart) (hVV : List.Forall₂ (fun P P' => MNear E (M P.irrep.lambda) P P') VV VV')
    (hps : ∀ p ∈ ps, p.blocks = blocksW m l 0 0 (subsM m p.irrep.lambda) ∧ IsPartition (l + 1) p.irrep.lambda)
    (hirr : ∀ (i : Nat) (p : PartT) (P : MPart), ps[i]? = some p → VV[i]? = some P → mkIrrep p.irrep.lambda = some P.irrep)
    {R R' R1 : List MPart} {C : List Nat → Nat → Nat → ℝ} {a : List Nat → Nat}
    (hi : IrrOk m l R) (hR : RNear u m l (E * (1 + u) ^ 5) C a R R') (h : unpartLoop l ps VV R = some R1) :
    ∃ R1', F.unpartLoop l ps VV' R' = some R1' ∧
      RNear u m l (E * (1 + u) ^ 5) (fun q c j => C q c j + wtBound m l M q c j (ps.map fun p => p.irrep.lambda))
        (fun q => a q + wtCount m q (ps.map fun p => p.irrep.lambda)) R1 R1' := by
  induction ps generalizing VV VV' R R' C a with
  | nil =>
    rw [unpartLoop] at h
    cases h
    refine ⟨R', by rw [Rounding.unpartLoop], ?_⟩
    simpa [wtBound, wtCount] using hR
  | cons p ps ih =>
    rcases hVV with _ | ⟨hV, hVV⟩
    · cases h
    rename_i V V' VV VV'
    obtain ⟨hbl, hp⟩ := hps p (by simp)
    rw [unpartLoop, Option.bind_eq_bind, Option.bind_eq_some_iff] at h
    obtain ⟨R2, e1, e2⟩ := h
    rw [hbl] at e1
    have hV' : MNear E (M p.irrep.lambda) V V' := by rw [← irrep_lambda (by omega) hp (hirr 0 p V rfl rfl)]; exact hV
    obtain ⟨R2', f1, f2, f3⟩ := unblock_near hs hu hu2 hl hp (hirr 0 p V rfl rfl) hE hV' [] (subsM m p.irrep.lambda) rfl 0 hi hR e1
    obtain ⟨R1', g1, g2⟩ := ih VV VV' hVV (fun p' h' => hps p' (by simp [h']))
      (fun i p' P h1 h2 => hirr (i + 1) p' P (by simpa using h1) (by simpa using h2)) f2 f3 e2
    refine ⟨R1', ?_, ?_⟩
    · rw [Rounding.unpartLoop, hbl]
      rw [show colOff m l [] = 0 from rfl] at f1
      rw [f1]
      exact g1
    · unfold wtBound wtCount at g2 ⊢
      simpa [add_assoc] using g2

theorem twistDown_near {ap fap : ViewAct} {m l : Nat} (hap : ActOk ap m (l + 1)) (hfap : FActOk fap η m (l + 1)) (hη : 0 ≤ η)
    {p : List Nat} {hp : IsPartition (l + 1) p} {P Q P' : MPart} (h : Repr' hp P.irrep) (hmk : mkIrrep P.irrep.lambda = some P.irrep)
    (hpm : m ≤ row p 0) {N : Nat} {E : ℝ} (hE : 0 ≤ E) {M : Nat → Nat → ℝ} (hn : MNear E M P Q) (hN : P.N = N * (l + 1))
    (hd : P.d = P.irrep.d) (hP : twistDown ap l N P = some P') :
    ∃ Q', twistDown fap l N Q = some Q' ∧ MNear (E * (1 + η) ^ l) M P' Q' ∧ P'.irrep = P.irrep := by
  unfold twistDown at hP ⊢
  simp only [Option.bind_eq_bind, Option.bind_eq_some_iff] at hP
  obtain ⟨A', e1, e2⟩ := hP
  cases e2
  have hcol := hn.col
  rw [hN, hd] at hcol
  obtain ⟨B', b1, b2⟩ := slices_near hap hfap hη h hmk hpm (fun j => ((l : Int) + 1, (l : Int) + 1 - j))
    (by intro j hj; push_cast; omega) hE hcol (by rw [Nat.cast_add, Nat.cast_one]; exact e1)
  refine ⟨{ Q with data := B' }, ?_, ⟨hn.N, hn.d, hn.m, hn.irrep, ?_⟩, rfl⟩
  · rw [hn.irrep, hn.m]
    simp only [Option.bind_eq_bind]
    rw [Nat.cast_add, Nat.cast_one] at b1
    rw [b1]; rfl
  · simp only
    rw [hN, hd]
    exact b2

/-- the parts of `v'` are near those of `v` -/
def VNear (m l : Nat) (E : ℝ) (M : List Nat → Nat → Nat → ℝ) (v v' : List MPart) : Prop :=
  v.length = v'.length ∧ ∀ (i : Nat) (q : List Nat) (P P' : MPart), (PL m l)[i]? = some q → v[i]? = some P → v'[i]? = some P' →
    MNear E (M q) P P'

theorem down_near (hs : RelErr u F.s) (hu : 0 ≤ u) (hu2 : u ≤ 1 / 2) {ap fap : ViewAct} {m l N : Nat} (hm : m ≤ l) (hl : 0 < l)
    (hap : ActOk ap m (l + 1)) (hfap : FActOk fap η m (l + 1)) (hη : 0 ≤ η) {L L' : LevelT}
    (hL : LevelOk m l L) (hL' : LevelOk m (l + 1) L') (hB : BlocksOk m l L')
    {G' : (p : List Nat) → IsPartition (l + 1) p → Nat → Wd (l + 1) p → Wd (l + 1) p → ℝ} {V V' w : List MPart}
    (hV : VecOk m (l + 1) N G' V) (hi : IrrOk m (l + 1) V) {E : ℝ} (hE : 1 ≤ E) {M : List Nat → Nat → Nat → ℝ}
    (hVV : VNear m (l + 1) E M V V') (hw : L.downtransform ap L' V = some w) :
    ∃ w', F.levelDown fap L L' V' = some w' ∧
      VNear m l (E * ((1 + η) ^ l * (1 + u) ^ (l + 6)))
        (fun q c j => wtBound m l (fun p c => M p (c / (l + 1))) q c j (PL m (l + 1))) w w' := by
  have hN := vecN_eq (by omega) (by omega) hV
  obtain ⟨w0, hw0, hI, hok⟩ := down_step hm hl hap hL hL' hB hV hi
  obtain rfl : w0 = w := Option.some.inj (hw0.symm.trans hw)
  unfold LevelT.downtransform at hw
  rw [hN, hL.n_eq] at hw
  simp only [Option.bind_eq_bind, Option.bind_some, Option.bind_eq_some_iff] at hw
  obtain ⟨VV, e1, e2⟩ := hw
  have hVirr : ∀ (i : Nat) (P : MPart), V[i]? = some P → ∃ p, (PL m (l + 1))[i]? = some p ∧ IsPartition (l + 1) p ∧ m ≤ row p 0 ∧
      mkIrrep p = some P.irrep ∧ P.d = dimW (l + 1) p ∧ P.N = N := by
    intro i P hiP
    have hi' : i < (PL m (l + 1)).length := by
      rw [← hV.len]; exact (List.getElem?_eq_some_iff.1 hiP).1
    have hip : (PL m (l + 1))[i]? = some (PL m (l + 1))[i] := List.getElem?_eq_getElem hi'
    obtain ⟨hp, hrow⟩ := (mem_PL (by omega) _).1 (List.getElem_mem hi')
    obtain ⟨P1, a1, a2⟩ := hV.part i _ hp hip
    obtain rfl : P1 = P := Option.some.inj (a1.symm.trans hiP)
    exact ⟨_, hip, hp, hrow, hi i _ P1 hip a1, a2.d_eq, a2.N_eq⟩
  have hF : List.Forall₂ (fun P Q => MNear E (M P.irrep.lambda) P Q) V V' := by
    rw [List.forall₂_iff_get]
    refine ⟨hVV.1, fun i h1 h2 => ?_⟩
    obtain ⟨p, hip, hp, -, hmk, -⟩ := hVirr i _ (List.getElem?_eq_getElem h1)
    have := hVV.2 i p _ _ hip (List.getElem?_eq_getElem h1) (List.getElem?_eq_getElem h2)
    rw [← irrep_lambda (by omega) hp hmk] at this
    exact this
  have hN' : vecN V' = some N := by
    unfold vecN at hN ⊢
    rw [List.head?_eq_getElem?] at hN ⊢
    obtain ⟨P, hP, e⟩ := Option.map_eq_some_iff.1 hN
    obtain ⟨Q, hQ, hn⟩ := forall₂_getElem? hF hP
    rw [hQ, Option.map_some, hn.N, e]
  -- the twist
  obtain ⟨VV', f1, f2⟩ := mapM_rel₂ _ (fun P Q => MNear (E * (1 + η) ^ l) (fun c => M P.irrep.lambda (c / (l + 1))) P Q)
    (g := fun q => twistDown fap l N (q.broadcast (l + 1))) hF (by
    intro P hP Q P' hPQ hP'
    obtain ⟨i, hiP⟩ := List.mem_iff_getElem?.1 hP
    obtain ⟨p, -, hp, hrow, hmk, hd, hPN⟩ := hVirr i P hiP
    obtain ⟨R, hR, hlam, hrep⟩ := exists_repr (by omega) hp
    have hRe : P.irrep = R := Option.some.inj (hmk.symm.trans hR)
    have hbr : MNear E (fun c => M P.irrep.lambda (c / (l + 1))) (P.broadcast (l + 1)) (Q.broadcast (l + 1)) := by
      refine ⟨by unfold MPart.broadcast; simp only; rw [hPQ.N], hPQ.d, hPQ.m, hPQ.irrep, fun c hc j hj => ?_⟩
      exact hPQ.col (c / (l + 1)) (Nat.div_lt_of_lt_mul (by rw [Nat.mul_comm]; exact hc)) j hj
    obtain ⟨Q', k1, k2, k3⟩ := twistDown_near hap hfap hη (P := P.broadcast (l + 1)) (hp := hp)
      (by show Repr' hp P.irrep; rw [hRe]; exact hrep) (by show mkIrrep P.irrep.lambda = some P.irrep; rw [hRe, hlam]; exact hR) hrow
      (by linarith) hbr (by unfold MPart.broadcast; simp only; rw [hPN])
      (by show P.d = P.irrep.d; rw [hd, hRe, hrep.d_eq]; rfl) hP'
    refine ⟨Q', k1, ?_⟩
    rw [k3]
    exact k2) e1
  have hVVirr : ∀ (i : Nat) (p : PartT) (P : MPart), L'.parts[i]? = some p → VV[i]? = some P → mkIrrep p.irrep.lambda = some P.irrep := by
    intro i p P h1 h2
    obtain ⟨a1, a2⟩ := (mapM_some_iff _ _ _).1 e1
    have hlt : i < V.length := by rw [← a1]; exact (List.getElem?_eq_some_iff.1 h2).1
    obtain ⟨y, b1, b2⟩ := a2 i _ (List.getElem?_eq_getElem hlt)
    obtain rfl : y = P := Option.some.inj (b1.symm.trans h2)
    obtain ⟨q, hq, -, -, hmk, -⟩ := hVirr i _ (List.getElem?_eq_getElem hlt)
    have hk : (PL m (l + 1))[i]? = some p.irrep.lambda := by rw [← hL'.keys, List.getElem?_map, h1]; rfl
    obtain rfl := Option.some.inj (hq.symm.trans hk)
    rw [hmk]
    congr 1
    unfold twistDown at b2
    simp only [Option.bind_eq_bind, Option.bind_eq_some_iff] at b2
    obtain ⟨A, -, b3⟩ := b2
    cases b3
    rfl
  have hI0 : IrrOk m l (L.parts.map fun p => MPart.zero (N * (l + 1)) p.irrep p.m) := by
    intro i q X h1 h2
    rw [← hL.keys, List.getElem?_map] at h1
    obtain ⟨p, hp, rfl⟩ := Option.map_eq_some_iff.1 h1
    rw [List.getElem?_map, hp] at h2
    obtain rfl := Option.some.inj h2
    exact (hL.part i p hp).2.1
  have hE1 : 0 ≤ E * (1 + η) ^ l := mul_nonneg (by linarith) (pow_nonneg (by linarith) _)
  have hR0 : RNear u m l (E * (1 + η) ^ l * (1 + u) ^ 5) (fun _ _ _ => 0) (fun _ => 0)
      (L.parts.map fun p => MPart.zero (N * (l + 1)) p.irrep p.m) (L.parts.map fun p => MPart.zero (N * (l + 1)) p.irrep p.m) := by
    refine ⟨rfl, fun i q P P' _ h2 h3 => ?_⟩
    obtain rfl := Option.some.inj (h2.symm.trans h3)
    refine ⟨rfl, rfl, rfl, rfl, fun c hc j hj => ?_⟩
    have hz : ∀ i, P.data i (c, j) = 0 := by
      rw [List.getElem?_map] at h2
      obtain ⟨p, -, rfl⟩ := Option.map_eq_some_iff.1 h2
      exact fun _ => rfl
    refine ⟨?_, ?_⟩
    · simp only [hz]; rw [nrm_zero]
    · simp only [sub_self]; rw [nrm_zero]; simp
  obtain ⟨w', g1, g2⟩ := unpart_near hs hu hu2 hl hE1 (M := fun p c => M p (c / (l + 1))) L'.parts VV VV' f2
    (fun p hp => ⟨hB p hp, (hL'.mem (by omega) hp).1⟩) hVVirr hI0 hR0 e2
  refine ⟨w', ?_, ?_⟩
  · unfold Rounding.levelDown
    rw [hN', hL.n_eq]
    simp only [Option.bind_eq_bind, Option.bind_some]
    rw [f1]
    exact g1
  · refine ⟨g2.1, fun i q P P' h0 h1 h2 => ?_⟩
    obtain ⟨hq, hqm⟩ := (mem_PL hl q).1 (List.mem_of_getElem? h0)
    have := g2.2 i q P P' h0 h1 h2
    simp only [zero_add] at this
    rw [show (L'.parts.map fun p => p.irrep.lambda) = PL m (l + 1) from hL'.keys] at this
    have hcnt : wtCount m q (PL m (l + 1)) ≤ l + 1 := by
      have := wtCount_le (m := m) hq (PL m (l + 1)) fun p hp => ((mem_PL (by omega) p).1 hp).1
      rw [wtSum_one hl hq hqm, mul_one] at this
      exact_mod_cast this
    refine ⟨this.N, this.d, this.m, this.irrep, fun c hc j hj => (this.col c hc j hj).mono ?_⟩
    rw [show E * ((1 + η) ^ l * (1 + u) ^ (l + 6)) = E * (1 + η) ^ l * (1 + u) ^ 5 * (1 + u) ^ (l + 1) by ring]
    refine mul_le_mul_of_nonneg_left (pow_le_pow_right₀ (by linarith) hcnt) ?_
    exact mul_nonneg hE1 (pow_nonneg (by linarith) _)

/-- the error factor of the inverse transform -/
noncomputable def downErr (u η : ℝ) (m n : Nat) : ℝ := ∏ l ∈ Finset.Ico m n, (1 + η) ^ l * (1 + u) ^ (l + 6)

theorem downErr_eq (u η : ℝ) (m n : Nat) : downErr u η m n = (1 + η) ^ (∑ l ∈ Finset.Ico m n, l) * (1 + u) ^ (∑ l ∈ Finset.Ico m n, (l + 6)) := by
  unfold downErr
  rw [Finset.prod_mul_distrib, Finset.prod_pow_eq_pow_sum, Finset.prod_pow_eq_pow_sum]

theorem one_le_downErr (hu : 0 ≤ u) (hη : 0 ≤ η) (m n : Nat) : 1 ≤ downErr u η m n := by
  rw [downErr_eq]
  exact one_le_mul_of_one_le_of_one_le (one_le_pow₀ (by linarith)) (one_le_pow₀ (by linarith))

theorem downLoop_near (hs : RelErr u F.s) (hu : 0 ≤ u) (hu2 : u ≤ 1 / 2) {ap fap : ViewAct} {m n : Nat} (f : Nat → ℝ) (hm : 0 < m)
    (Ls : List LevelT) {l : Nat} {L : LevelT} (hl : m ≤ l) (hn : n = l + Ls.length) (hap : ∀ k, l < k → k ≤ n → ActOk ap m k)
    (hfap : ∀ k, l < k → k ≤ n → FActOk fap η m k) (hη : 0 ≤ η) (hC : ChainOk m l (L :: Ls)) {V V' : List MPart}
    (hV : VecOk m n 1 (tF m f n) V) (hi : m < n → IrrOk m n V) {E M : ℝ} (hE : 1 ≤ E)
    (hVV : VNear m n E (fun _ _ _ => M) V V') :
    ∃ v v', downLoop ap (L :: Ls) V = some v ∧ F.downLoop fap (L :: Ls) V' = some v' ∧ (m < n → IrrOk m l v) ∧
      VecOk m l (n ! / l !) (tF m f l) v ∧ VNear m l (E * downErr u η l n) (fun _ _ _ => M) v v' := by
  induction Ls generalizing l L with
  | nil =>
    obtain rfl : n = l := hn
    rw [quot_self]
    refine ⟨V, V', by rw [downLoop]; simp, by rw [Rounding.downLoop]; simp, hi, hV, ?_⟩
    unfold downErr
    rw [Finset.Ico_self, Finset.prod_empty, mul_one]
    exact hVV
  | cons L' Ls ih =>
    simp only [List.length_cons] at hn
    rcases hC with _ | ⟨hL, hB, hC⟩
    have hL' : LevelOk m (l + 1) L' := by
      cases hC <;> assumption
    obtain ⟨v1, v1', k1, k1', k2, k3, k4⟩ := ih (l := l + 1) (by omega) (by omega) (fun k h h' => hap k (by omega) h')
      (fun k h h' => hfap k (by omega) h') hC
    obtain ⟨v, h1, h2, h3⟩ := down_step hl (by omega) (hap (l + 1) (by omega) (by omega)) hL hL' hB k3 (k2 (by omega))
    obtain ⟨v', j1, j2⟩ := down_near hs hu hu2 hl (by omega) (hap (l + 1) (by omega) (by omega)) (hfap (l + 1) (by omega) (by omega)) hη
      hL hL' hB k3 (k2 (by omega)) (one_le_mul_of_one_le_of_one_le hE (one_le_downErr hu hη _ _)) k4 h1
    refine ⟨v, v', ?_, ?_, fun _ => h2, ?_, ?_⟩
    · rw [downLoop, k1]; exact h1
    · rw [Rounding.downLoop, k1']; exact j1
    · rw [quot_pred (n := n) (l := l) (by omega)]
      refine ⟨h3.len, fun i q hq hi => ?_⟩
      obtain ⟨P, a1, a2⟩ := h3.part i q hq hi
      refine ⟨P, a1, a2.N_eq, a2.d_eq, a2.m_eq, fun u w hw s hs => ?_⟩
      rw [a2.data u w hw s hs, downG_tF hl]
    · have : downErr u η l n = downErr u η (l + 1) n * ((1 + η) ^ l * (1 + u) ^ (l + 6)) := by
        unfold downErr
        rw [Finset.prod_eq_prod_Ico_succ_bot (by omega), mul_comm]
      rw [this, ← mul_assoc]
      refine ⟨j2.1, fun i q P P' h0 h1 h2 => ?_⟩
      obtain ⟨hq, hqm⟩ := (mem_PL (by omega) q).1 (List.mem_of_getElem? h0)
      have := j2.2 i q P P' h0 h1 h2
      simp only [wtBound_const, wtSum_one (show 0 < l by omega) hq hqm, one_mul] at this
      exact this

theorem ifft_near (hs : RelErr u F.s) (hu : 0 ≤ u) (hu2 : u ≤ 1 / 2) {ap fap : ViewAct} {m n : Nat} (f : Nat → ℝ) (hm : 0 < m)
    (hn : m ≤ n) (hap : ∀ k, m < k → k ≤ n → ActOk ap m k) (hfap : ∀ k, m < k → k ≤ n → FActOk fap η m k) (hη : 0 ≤ η)
    {ws ws' : List VPart} (hw : FOk m n (fun p hp u w => tF m f n p hp 0 u w) ws)
    (hi : m < n → ∀ (i : Nat) (p : List Nat) (W : VPart), (PL m n)[i]? = some p → ws[i]? = some W → mkIrrep p = some W.irrep)
    {E M : ℝ} (hE : 1 ≤ E) (hlen : ∀ W ∈ ws, ∀ j < W.m, nrm W.d (fun i => W.data i j) ≤ M)
    (hnear : NearVec ((E - 1) * M) ws ws') {Ls : List LevelT} (hLs : fftLevels n m = some Ls) :
    ∃ g, F.ifftWith fap Ls ws' = some (n ! / m !, g) ∧ ∀ e < n ! / m !, |g e - f e| ≤ (E * downErr u η m n - 1) * M := by
  obtain ⟨Ls', h1, h2, h3⟩ := fftLevels_ok hm hn
  obtain rfl : Ls' = Ls := Option.some.inj (h1.symm.trans hLs)
  obtain ⟨L, Ls'', rfl⟩ : ∃ L Ls'', Ls' = L :: Ls'' := by
    rcases Ls' with _ | ⟨L, Ls'⟩
    · simp at h2
    · exact ⟨L, Ls', rfl⟩
  simp only [List.length_cons] at h2
  have hlast := chain_last _ _ _ h3
  rw [show m + Ls''.length = n by omega] at hlast
  have hV : VecOk m n 1 (tF m f n) (ws.map MPart.ofPart) := by
    refine ⟨by rw [List.length_map]; exact hw.len, fun i p hp hi => ?_⟩
    obtain ⟨W, a1, a2, a3, a4⟩ := hw.part i p hp hi
    refine ⟨MPart.ofPart W, by rw [List.getElem?_map, a1]; rfl, rfl, a2, a3, fun u w hgw s hs => ?_⟩
    obtain rfl : s = 0 := by omega
    exact a4 u w hgw
  have hI : m < n → IrrOk m n (ws.map MPart.ofPart) := by
    intro hmn i p M h1 h2
    rw [List.getElem?_map] at h2
    obtain ⟨W, hW, rfl⟩ := Option.map_eq_some_iff.1 h2
    exact hi hmn i p W h1 hW
  have hVV : VNear m n E (fun _ _ _ => M) (ws.map MPart.ofPart) (ws'.map MPart.ofPart) := by
    refine ⟨by rw [List.length_map, List.length_map]; exact hnear.1, fun i q P P' _ h1 h2 => ?_⟩
    rw [List.getElem?_map] at h1 h2
    obtain ⟨W, hW, rfl⟩ := Option.map_eq_some_iff.1 h1
    obtain ⟨W', hW', rfl⟩ := Option.map_eq_some_iff.1 h2
    obtain ⟨a1, a2, a3, a4⟩ := hnear.2 i _ _ hW hW'
    refine ⟨rfl, a2.symm, a3.symm, a1.symm, fun c hc j hj => ⟨hlen _ (List.mem_of_getElem? hW) j hj, ?_⟩⟩
    have := a4 j hj
    simp only [sq] at this
    exact this
  obtain ⟨v, v', k1, k1', -, k3, k4⟩ := downLoop_near (ap := ap) hs hu hu2 f hm Ls'' (Nat.le_refl m) (by omega) hap hfap hη h3 hV hI hE hVV
  have hPL0 : (PL m m)[0]? = some [m] := by rw [PL_self hm]; rfl
  obtain ⟨P, p1, p2⟩ := k3.part 0 [m] (isPartition_row hm) hPL0
  obtain ⟨Q, q1⟩ : ∃ Q, v'[0]? = some Q := ⟨_, List.getElem?_eq_getElem (by rw [← k4.1]; exact (List.getElem?_eq_some_iff.1 p1).1)⟩
  have q2 := k4.2 0 _ P Q hPL0 p1 q1
  have hd : P.d = 1 := by rw [p2.d_eq]; simp [dimW, words_self hm]
  have hmm : P.m = 1 := by rw [p2.m_eq]; simp [colW_self hm]
  refine ⟨fun e => Q.data (e / (Q.N * Q.m)) (e / Q.m % Q.N, e % Q.m), ?_, fun e he => ?_⟩
  · unfold Rounding.ifftWith
    rw [List.getLast?_eq_some_getLast (by simp)]
    simp only [Option.bind_eq_bind, Option.bind_some]
    rw [if_pos]
    · rw [k1']
      simp only [Option.bind_some]
      rw [List.head?_eq_getElem?, q1]
      simp only [Option.bind_some]
      rw [q2.d, q2.N, q2.m, hd, hmm, p2.N_eq, Nat.one_mul, Nat.mul_one]
    · rw [dimsOk_iff]
      refine ⟨by rw [← hnear.1, hw.len, ← hlast.keys, List.length_map], fun i p w a b => ?_⟩
      have hk : (PL m n)[i]? = some p.irrep.lambda := by
        rw [← hlast.keys, List.getElem?_map, a]; rfl
      have hp := ((mem_PL (by omega) _).1 (List.mem_of_getElem? hk)).1
      obtain ⟨W, a1, a2, a3, -⟩ := hw.part i _ hp hk
      obtain ⟨-, b3, b4, -⟩ := hnear.2 i W w a1 b
      obtain ⟨-, -, b1, b2⟩ := hlast.part i p a
      exact ⟨b3.symm.trans (a2.trans b1.symm), b4.symm.trans (a3.trans b2.symm)⟩
  · have hu : List.replicate m 0 ∈ words m [m] := by rw [words_self hm]; simp
    have hgood : goodW m (List.replicate m 0) = true := by
      have : List.replicate m 0 ∈ colW m m [m] := by rw [colW_self hm]; simp
      exact (List.mem_filter.1 this).2
    have h := p2.data ⟨_, hu⟩ ⟨_, hu⟩ hgood e he
    have r0 : rowIx m [m] (List.replicate m 0) = 0 := by unfold rowIx; rw [words_self hm]; simp
    have c0 : colIx m m [m] (List.replicate m 0) = 0 := by unfold colIx; rw [colW_self hm]; simp
    simp only at h
    rw [r0, c0] at h
    have hf : f e = P.data 0 (e, 0) := by
      rw [h]
      simp only [tF, quot_self, Finset.range_one, Finset.sum_singleton, Nat.mul_one, Nat.add_zero]
      rw [rho_row hm, mul_one]
    have hcol := (q2.col e (by rw [p2.N_eq]; exact he) 0 (by omega)).err
    simp only [q2.N, q2.m, hmm, p2.N_eq, Nat.mul_one, Nat.div_one, Nat.mod_one]
    rw [Nat.div_eq_of_lt he, Nat.mod_eq_of_lt he, hf]
    refine le_trans ?_ hcol
    exact abs_le_nrm (d := P.d) (x := fun i => Q.data i (e, 0) - P.data i (e, 0)) (i := 0) (by omega)

end

end Snob
