import Verif.Proofs.FFTLossUp

/-! # A function that the inverse transform does not give back -/

namespace Snob

open IP Snob.Perm
open scoped Nat

section
variable {m l : Nat}

theorem delta_rot {p : List Nat} {hp : IsPartition (l + 1) p} {R : IrrepObj} (h : Repr' hp R) {cols : List (Nat × Nat)}
    {A : Nat → Nat × Nat → ℝ} {k : Nat × Nat} (hk : k ∈ cols) {w : Wd (l + 1) p}
    (hA : ∀ u : Wd (l + 1) p, A (rowIx (l + 1) p u.1) k = if u = w then 1 else 0) (σ : Equiv.Perm (Fin (l + 1))) :
    (∀ u : Wd (l + 1) p, act (h.rep σ) cols A (rowIx (l + 1) p u.1) k = rho hp σ u w) ∧
      colNorm R.d (act (h.rep σ) cols A) k = 1 := by
  have h1 : ∀ u : Wd (l + 1) p, act (h.rep σ) cols A (rowIx (l + 1) p u.1) k = rho hp σ u w := by
    intro u
    rw [h.act_row σ cols A u k hk]
    simp only [hA, mul_ite, mul_one, mul_zero, Finset.sum_ite_eq', Finset.mem_univ, if_true]
  refine ⟨h1, ?_⟩
  rw [h.colNorm_eq]
  simp only [h1]
  have h2 := congrFun (congrFun (rho_orthogonal hp σ⁻¹) w) w
  rw [Matrix.mul_apply, Matrix.one_apply_eq] at h2
  rw [← h2]
  refine Finset.sum_congr rfl fun u _ => ?_
  rw [rho_inv]
  rfl

/-- a slice in which the column of the first tableau of shape `(l-1,2)` gets shorter -/
theorem strict_top (h5 : 5 ≤ l + 1) (h4 : 4 ≤ l + 1) : ∃ j0, 1 ≤ j0 ∧ j0 + 1 ≤ l ∧ ∀ (m : Nat), m + 1 ≤ l → ∀ q Q : MPart,
    Repr' (isPartition_two h4) q.irrep → twistUp viewAct (l + 1) 1 q = some Q →
      Holds' m (1 * (l + 1)) (idF (l + 1) j0 _ (isPartition_two h4)) q →
      colNorm q.irrep.d Q.data (j0, colIx m (l + 1) [l + 1 - 2, 2] (topW h4).1) < 1 := by
  classical
  let PW : Nat → Prop := fun tau => ∀ i < (words (l + 1) [l + 1 - 2, 2]).length, ∀ j < (words (l + 1) [l + 1 - 2, 2]).length,
    i < partnerW (words (l + 1) [l + 1 - 2, 2]) tau i → partnerW (words (l + 1) [l + 1 - 2, 2]) tau j < j → i < j
  have hex : ∃ j, ¬ PW (l - j) := ⟨l - 2, by rw [show l - (l - 2) = 2 by omega]; exact not_packed_two h5⟩
  have hJ : Nat.find hex ≤ l - 2 := Nat.find_min' hex (by rw [show l - (l - 2) = 2 by omega]; exact not_packed_two h5)
  have hJ1 : ¬ PW (l - Nat.find hex) := Nat.find_spec hex
  have hJ2 : ∀ j < Nat.find hex, PW (l - j) := fun j hj => by
    have := Nat.find_min hex hj
    rwa [not_not] at this
  generalize Nat.find hex = J at hJ hJ1 hJ2
  refine ⟨J + 1, by omega, by omega, fun m hm q Q hq h hG => ?_⟩
  have hgood := topW_good h4 (m := m) (by omega)
  obtain ⟨A1, B1, b1, b2, b3⟩ := twistUp_slice h (J + 1) (colIx m (l + 1) [l + 1 - 2, 2] (topW h4).1)
  have hmod : (J + 1) % (l + 1) = J + 1 := Nat.mod_eq_of_lt (by omega)
  rw [hmod] at b1
  have hk : (J + 1, colIx m (l + 1) [l + 1 - 2, 2] (topW h4).1) ∈ sliceCols 1 (l + 1) q.m (J + 1) :=
    (mem_sliceCols (by omega) _ _).2 ⟨by omega, hmod, by rw [hG.m_eq]; exact colIx_lt _ hgood⟩
  have hA : ∀ u : Wd (l + 1) [l + 1 - 2, 2], A1 (rowIx (l + 1) [l + 1 - 2, 2] u.1) (J + 1, colIx m (l + 1) [l + 1 - 2, 2] (topW h4).1) =
      if u = topW h4 then 1 else 0 := by
    intro u
    rw [b2, hG.data u (topW h4) hgood (J + 1) (by omega)]
    unfold idF
    rw [if_pos rfl]
  have hA1 : colNorm q.irrep.d A1 (J + 1, colIx m (l + 1) [l + 1 - 2, 2] (topW h4).1) = 1 := by
    rw [hq.colNorm_eq, Finset.sum_eq_single (topW h4)]
    · rw [hA, if_pos rfl, mul_one]
    · intro u _ hu
      rw [hA, if_neg hu, mul_zero]
    · intro hu
      exact absurd (Finset.mem_univ _) hu
  rw [colNorm_congr b3, ← hA1]
  refine hq.cycle_strict (sliceCols_nodup (by omega)) J (by omega) (fun t ht1 ht2 => ?_) ?_ b1 _ hk ?_ ?_
  · rw [hq.packed_words (by omega) ht2]
    have := hJ2 (l - t) (by omega)
    rw [show l - (l - t) = t by omega] at this
    exact this
  · rw [hq.packed_words (by omega) (by omega)]
    exact hJ1
  · have := (delta_rot hq hk hA (slicePerm l (J + 1))).1 (topW h4)
    rw [rowIx_topW] at this
    rw [this]
    exact corner_ne h4 (J + 1) (by omega) (by omega)
  · rw [hA1, (delta_rot hq hk hA (slicePerm l J)).2]

/-- what the forward transform leaves of an identity matrix in slice `j0` -/
structure TopOk (m l : Nat) (T : (p : List Nat) → IsPartition (l + 1) p → Wd (l + 1) p → Wd (l + 1) p → ℝ) : Prop where
  le : ∀ p (hp : IsPartition (l + 1) p), m ≤ row p 0 → ∀ w : Wd (l + 1) p, goodW m w.1 = true → ∑ u, T p hp u w * T p hp u w ≤ 1
  lt : ∃ p, ∃ hp : IsPartition (l + 1) p, m ≤ row p 0 ∧ ∃ w : Wd (l + 1) p, goodW m w.1 = true ∧ ∑ u, T p hp u w * T p hp u w < 1

theorem upLoop_id {l0 j0 : Nat} (hm : 0 < m) (hj0 : j0 < l0 + 1) (h4 : 4 ≤ l0 + 1) (hml : m + 1 ≤ l0)
    (hj : ∀ q Q : MPart, Repr' (isPartition_two h4) q.irrep → twistUp viewAct (l0 + 1) 1 q = some Q →
      Holds' m (1 * (l0 + 1)) (idF (l0 + 1) j0 _ (isPartition_two h4)) q →
      colNorm q.irrep.d Q.data (j0, colIx m (l0 + 1) [l0 + 1 - 2, 2] (topW h4).1) < 1)
    (Ls : List LevelT) {l : Nat} {L : LevelT} (hl : m ≤ l) (hn : l0 + 1 = l + Ls.length) (hne : Ls ≠ [])
    (hC : ChainOk m l (L :: Ls)) {v v' : List MPart} (hv : VecOk m l ((l0 + 1)! / l !) (idF l (j0 * (l0 ! / l !))) v)
    (h : upLoop viewAct Ls v = some v') :
    IrrOk m (l0 + 1) v' ∧ ∃ T, VecOk m (l0 + 1) 1 (fun p hp _ u w => T p hp u w) v' ∧ TopOk m l0 T := by
  induction Ls generalizing l L v with
  | nil => exact absurd rfl hne
  | cons L' Ls ih =>
    simp only [List.length_cons] at hn
    rcases hC with _ | ⟨hL, hB, hC⟩
    have hL' : LevelOk m (l + 1) L' := by
      cases hC <;> assumption
    rw [upLoop, Option.bind_eq_some_iff] at h
    obtain ⟨v1, h1, h2⟩ := h
    rw [quot_pred (n := l0 + 1) (l := l) (by omega)] at hv
    by_cases e : Ls = []
    · subst e
      obtain rfl : l = l0 := by simp at hn; omega
      obtain rfl := Option.some.inj h2
      rw [quot_self, quot_self, Nat.mul_one] at hv
      obtain ⟨a0, T, a1, a2⟩ := up_last hl (by omega) hj0 hL' hB hv h1
      refine ⟨a0, T, a1, fun p hp hrow w hw => (a2 p hp hrow).1 w hw, _, isPartition_two h4, ?_, topW h4, topW_good h4 (by omega), ?_⟩
      · simp; omega
      · obtain ⟨q, Q, b1, b2, b3, b4⟩ := (a2 _ (isPartition_two h4) (by simp; omega)).2
        rw [← b4 (topW h4) (topW_good h4 (by omega))]
        exact hj q Q b1 b2 b3
    · have hlt : 0 < Ls.length := List.length_pos_iff.2 e
      rw [quot_pred (n := l0) (l := l) (by omega), ← Nat.mul_assoc] at hv
      exact ih (by omega) (by omega) e hC (up_id hl (by omega) hL' hB hv h1) h2

/-- the diagonal entries of slice `c` are at most one, and one of them is less -/
structure DownOk (m l c : Nat) (G : (q : List Nat) → IsPartition l q → Nat → Wd l q → Wd l q → ℝ) : Prop where
  le : ∀ q (hq : IsPartition l q), m ≤ row q 0 → ∀ u : Wd l q, goodW m u.1 = true → G q hq c u u ≤ 1
  lt : ∃ q, ∃ hq : IsPartition l q, m ≤ row q 0 ∧ ∃ u : Wd l q, goodW m u.1 = true ∧ G q hq c u u < 1

theorem down_avg {s : Nat} (hm : m ≤ l) {H : (p : List Nat) → IsPartition (l + 1) p → Nat → Wd (l + 1) p → Wd (l + 1) p → ℝ}
    (hle : ∀ p (hp : IsPartition (l + 1) p), m ≤ row p 0 → ∀ u : Wd (l + 1) p, goodW m u.1 = true → H p hp s u u ≤ 1)
    (hlt : ∃ p, ∃ hp : IsPartition (l + 1) p, m ≤ row p 0 ∧ ∃ u : Wd (l + 1) p, goodW m u.1 = true ∧ H p hp s u u < 1) :
    DownOk m l s (fun q hq s u w => ∑ p : Pt (l + 1), wt l p.1 q * blk p.2 hq (H p.1 p.2 s) u w) := by
  refine ⟨fun q hq hrow u hu => (avg_le hm (H := fun p hp => H p hp s) hle hq hrow u hu).1, ?_⟩
  obtain ⟨p, hp, -, w, hw, h⟩ := hlt
  obtain ⟨q, hqs, hq, r, hb, u, hu, rfl⟩ := exists_emb_good hm hp w hw
  have hrow := ((mem_subsM hp q).1 hqs).2
  exact ⟨q, hq, hrow, u, hu, (avg_le hm (H := fun p hp => H p hp s) hle hq hrow u hu).2 p hp r hb h⟩

theorem downLoop_id {l0 j0 : Nat} (hm : 0 < m) (hj0 : j0 < l0 + 1) (Ls : List LevelT) {l : Nat} {L : LevelT} (hl : m ≤ l)
    (hn : l0 + 1 = l + Ls.length) (hne : Ls ≠ []) (hC : ChainOk m l (L :: Ls)) {V v : List MPart}
    {T : (p : List Nat) → IsPartition (l0 + 1) p → Wd (l0 + 1) p → Wd (l0 + 1) p → ℝ}
    (hV : VecOk m (l0 + 1) 1 (fun p hp _ u w => T p hp u w) V) (hT : TopOk m l0 T) (hi : IrrOk m (l0 + 1) V)
    (h : downLoop viewAct (L :: Ls) V = some v) :
    IrrOk m l v ∧ ∃ G, VecOk m l ((l0 + 1)! / l !) G v ∧ DownOk m l (j0 * (l0 ! / l !)) G := by
  induction Ls generalizing l L v with
  | nil => exact absurd rfl hne
  | cons L' Ls ih =>
    simp only [List.length_cons] at hn
    rcases hC with _ | ⟨hL, hB, hC⟩
    have hL' : LevelOk m (l + 1) L' := by
      cases hC <;> assumption
    rw [downLoop] at h
    simp only [Option.bind_eq_bind, Option.bind_eq_some_iff] at h
    obtain ⟨v1, h1, h2⟩ := h
    rw [quot_pred (n := l0 + 1) (l := l) (by omega)]
    by_cases e : Ls = []
    · subst e
      obtain rfl : l = l0 := by simp at hn; omega
      rw [downLoop] at h1
      · obtain rfl := Option.some.inj h1
        rw [quot_self, quot_self, Nat.mul_one]
        obtain ⟨a0, H, a1, a2⟩ := down_some hl (by omega) hL hL' hB hV hi h2
        refine ⟨a0, _, a1, down_avg hl (fun p hp hrow u hu => ?_) ?_⟩
        · have := ((a2 p hp hrow).norm j0 (by omega) u hu).trans (hT.le p hp hrow u hu)
          exact entry_le_one (f := fun x => H p hp j0 x u) this u
        · obtain ⟨p, hp, hrow, u, hu, hlt⟩ := hT.lt
          have := lt_of_le_of_lt ((a2 p hp hrow).norm j0 (by omega) u hu) hlt
          exact ⟨p, hp, hrow, u, hu, entry_lt_one (f := fun x => H p hp j0 x u) this u⟩
      · simp
    · have hlt : 0 < Ls.length := List.length_pos_iff.2 e
      obtain ⟨c0, G, c1, c2⟩ := ih (by omega) (by omega) e hC h1
      obtain ⟨a0, H, a1, a2⟩ := down_some hl (by omega) hL hL' hB c1 c0 h2
      have hs : j0 * (l0 ! / l !) = j0 * (l0 ! / (l + 1)!) * (l + 1) := by
        rw [quot_pred (n := l0) (l := l) (by omega), ← Nat.mul_assoc]
      have hslt : j0 * (l0 ! / l !) < (l0 + 1)! / (l + 1)! * (l + 1) := by
        rw [← quot_pred (n := l0 + 1) (l := l) (by omega), quot_succ (by omega)]
        exact Nat.mul_lt_mul_of_pos_right hj0 (Nat.div_pos (Nat.factorial_le (by omega)) (Nat.factorial_pos _))
      have hmod : j0 * (l0 ! / l !) % (l + 1) = 0 := by rw [hs, Nat.mul_mod_left]
      have hdiv : j0 * (l0 ! / l !) / (l + 1) = j0 * (l0 ! / (l + 1)!) := by rw [hs, Nat.mul_div_cancel _ (by omega)]
      refine ⟨a0, _, a1, down_avg hl (fun p hp hrow u hu => ?_) ?_⟩
      · rw [(a2 p hp hrow).fix _ hslt hmod u u hu, hdiv]
        exact c2.le p hp hrow u hu
      · obtain ⟨p, hp, hrow, u, hu, hlt⟩ := c2.lt
        refine ⟨p, hp, hrow, u, hu, ?_⟩
        rw [(a2 p hp hrow).fix _ hslt hmod u u hu, hdiv]
        exact hlt

end

/-- the value at one coset is not given back -/
theorem fft_loss {m l0 : Nat} (hm : 0 < m) (hml : m + 1 ≤ l0) (h5 : 5 ≤ l0 + 1) :
    ∃ c < (l0 + 1)! / m !, ∀ Ls ws, fftLevels (l0 + 1) m = some Ls →
      fftWith viewAct Ls ((l0 + 1)! / m !) (fun e => if e = c then 1 else 0) = some ws →
      (∃ F, FOk m (l0 + 1) F ws ∧ TopOk m l0 F) ∧
      (∀ (i : Nat) (p : List Nat) (W : VPart), (PL m (l0 + 1))[i]? = some p → ws[i]? = some W → mkIrrep p = some W.irrep) ∧
      ∀ N g, ifftWith viewAct Ls ws = some (N, g) → N = (l0 + 1)! / m ! ∧ g c < 1 := by
  have h4 : 4 ≤ l0 + 1 := by omega
  obtain ⟨j0, hj1, hj2, hj⟩ := strict_top h5 h4
  have hclt : j0 * (l0 ! / m !) < (l0 + 1)! / m ! := by
    rw [quot_succ (by omega)]
    exact Nat.mul_lt_mul_of_pos_right (by omega) (Nat.div_pos (Nat.factorial_le (by omega)) (Nat.factorial_pos _))
  refine ⟨j0 * (l0 ! / m !), hclt, fun Ls ws hLs hws => ?_⟩
  obtain ⟨Ls0, e1, e2, e3⟩ := fftLevels_ok hm (show m ≤ l0 + 1 by omega)
  obtain rfl : Ls0 = Ls := Option.some.inj (e1.symm.trans hLs)
  obtain ⟨L, Ls, rfl⟩ : ∃ L Ls, Ls0 = L :: Ls := by
    rcases Ls0 with _ | ⟨L, Ls⟩
    · simp at e2
    · exact ⟨L, Ls, rfl⟩
  simp only [List.length_cons] at e2
  have hne : Ls ≠ [] := by rintro rfl; simp at e2; omega
  unfold fftWith at hws
  simp only [Option.bind_eq_bind, Option.bind_eq_some_iff, List.tail_cons] at hws
  obtain ⟨P, hP, v, hv, hw⟩ := hws
  obtain ⟨P', hP', hst⟩ := start_ok (m := m) (N := (l0 + 1)! / m !) hm (fun e => if e = j0 * (l0 ! / m !) then 1 else 0)
  obtain rfl : P' = P := Option.some.inj (hP'.symm.trans hP)
  have hst' : VecOk m m ((l0 + 1)! / m !) (idF m (j0 * (l0 ! / m !))) [P'] := by
    refine ⟨hst.len, fun i p hp hi => ?_⟩
    obtain ⟨P, a1, a2⟩ := hst.part i p hp hi
    refine ⟨P, a1, a2.N_eq, a2.d_eq, a2.m_eq, fun u w hw s hs => ?_⟩
    rw [a2.data u w hw s hs]
    obtain rfl : p = [m] := by
      have := List.mem_of_getElem? hi
      rw [PL_self hm] at this
      simpa using this
    obtain rfl := wd_row_unique hm u w
    simp only [tF, quot_self, Finset.range_one, Finset.sum_singleton, Nat.mul_one, Nat.add_zero]
    rw [rho_row hm, mul_one]
    unfold idF
    simp
  obtain ⟨b0, T, b1, b2⟩ := upLoop_id hm (by omega) h4 hml (hj m hml) Ls (Nat.le_refl m) (by omega) hne e3 hst' hv
  obtain ⟨w1, w2⟩ := (mapM_some_iff _ _ _).1 hw
  have hW : ∀ (i : Nat) (P : MPart), v[i]? = some P → P.N = 1 →
      (ws.map MPart.ofPart)[i]? = some ⟨1, P.d, P.m, P.irrep, fun i k => P.data i (0, k.2)⟩ := by
    intro i P hi hN
    obtain ⟨W, c1, c2⟩ := w2 i P hi
    unfold MPart.toPart at c2
    rw [if_pos hN] at c2
    obtain rfl := Option.some.inj c2
    rw [List.getElem?_map, c1]
    rfl
  have hV : VecOk m (l0 + 1) 1 (fun p hp _ u w => T p hp u w) (ws.map MPart.ofPart) := by
    refine ⟨by rw [List.length_map, w1]; exact b1.len, fun i p hp hi => ?_⟩
    obtain ⟨P, a1, a2⟩ := b1.part i p hp hi
    exact ⟨_, hW i P a1 a2.N_eq, rfl, a2.d_eq, a2.m_eq, fun u w hgw s hs => a2.data u w hgw 0 (by omega)⟩
  have hI : IrrOk m (l0 + 1) (ws.map MPart.ofPart) := by
    intro i p M h1 h2
    obtain ⟨hp, -⟩ := (mem_PL (by omega) _).1 (List.mem_of_getElem? h1)
    obtain ⟨P, a1, a2⟩ := b1.part i p hp h1
    rw [hW i P a1 a2.N_eq] at h2
    obtain rfl := Option.some.inj h2
    exact b0 i p P h1 a1
  refine ⟨⟨T, ⟨by rw [w1]; exact b1.len, fun i p hp hi => ?_⟩, b2⟩, fun i p W h1 h2 => ?_, fun N g hg => ?_⟩
  · obtain ⟨P, a1, a2⟩ := hV.part i p hp hi
    rw [List.getElem?_map] at a1
    obtain ⟨W, c1, rfl⟩ := Option.map_eq_some_iff.1 a1
    exact ⟨W, c1, a2.d_eq, a2.m_eq, fun u w hw => a2.data u w hw 0 (by omega)⟩
  · exact hI i p (MPart.ofPart W) h1 (by rw [List.getElem?_map, h2]; rfl)
  unfold ifftWith at hg
  rw [Option.bind_eq_bind, Option.bind_eq_some_iff] at hg
  obtain ⟨Ll, -, hg⟩ := hg
  split at hg
  · simp only [Option.bind_eq_bind, Option.bind_eq_some_iff] at hg
    obtain ⟨v2, k1, P2, k2, hg⟩ := hg
    obtain ⟨-, G, d1, d2⟩ := downLoop_id (j0 := j0) hm (by omega) Ls (Nat.le_refl m) (by omega) hne e3 hV b2 hI k1
    have hPL0 : (PL m m)[0]? = some [m] := by rw [PL_self hm]; rfl
    obtain ⟨P, p1, p2⟩ := d1.part 0 [m] (isPartition_row hm) hPL0
    rw [List.head?_eq_getElem?] at k2
    obtain rfl : P = P2 := Option.some.inj (p1.symm.trans k2)
    have hd : P.d = 1 := by rw [p2.d_eq]; simp [dimW, words_self hm]
    have hmm : P.m = 1 := by rw [p2.m_eq]; simp [colW_self hm]
    obtain ⟨rfl, rfl⟩ := Prod.mk.inj (Option.some.inj hg)
    refine ⟨by rw [hd, hmm, p2.N_eq, Nat.one_mul, Nat.mul_one], ?_⟩
    obtain ⟨q, hq, hrow, u, hu, hlt⟩ := d2.lt
    obtain rfl : q = [m] := by
      have : q ∈ PL m m := (mem_PL hm q).2 ⟨hq, hrow⟩
      rw [PL_self hm] at this
      simpa using this
    have h := p2.data u u hu _ hclt
    have hu0 : ∀ x ∈ words m [m], x = List.replicate m 0 := by
      intro x hx
      rw [words_self hm] at hx
      simpa using hx
    have hu1 := hu0 u.1 u.2
    have r0 : rowIx m [m] u.1 = 0 := by rw [hu1]; unfold rowIx; rw [words_self hm]; simp
    have c0 : colIx m m [m] u.1 = 0 := by rw [hu1]; unfold colIx; rw [colW_self hm]; simp
    rw [r0, c0] at h
    simp only [hmm, p2.N_eq, Nat.mul_one, Nat.div_one, Nat.mod_one]
    rw [Nat.div_eq_of_lt hclt, Nat.mod_eq_of_lt hclt, h]
    exact hlt
  · cases hg

end Snob
