import Verif.Proofs.FFTLoss
import Verif.Proofs.FFTInv

/-! # Levels of the transforms with the action on tensor views -/

namespace Snob

open IP Snob.Perm
open scoped Nat

section
variable {m l : Nat}

/-- `F` comes from `G` by the multiplication of the slices: no column gets longer, and the slices of number zero stay -/
structure TwistOk {p : List Nat} (m N' : Nat) (G F : Nat → Wd (l + 1) p → Wd (l + 1) p → ℝ) : Prop where
  norm : ∀ s < N', ∀ w : Wd (l + 1) p, goodW m w.1 = true → ∑ u, F s u w * F s u w ≤ ∑ u, G s u w * G s u w
  fix : ∀ s < N', s % (l + 1) = 0 → ∀ u w : Wd (l + 1) p, goodW m w.1 = true → F s u w = G s u w

theorem Holds'.colNorm {N' : Nat} {p : List Nat} {hp : IsPartition (l + 1) p} {R : IrrepObj} (h : Repr' hp R)
    {G : Nat → Wd (l + 1) p → Wd (l + 1) p → ℝ} {P : MPart} (hP : Holds' m N' G P) {s : Nat} (hs : s < N') (w : Wd (l + 1) p)
    (hw : goodW m w.1 = true) : Snob.colNorm R.d P.data (s, colIx m (l + 1) p w.1) = ∑ u, G s u w * G s u w := by
  rw [h.colNorm_eq]
  exact Finset.sum_congr rfl fun u _ => by rw [hP.data u w hw s hs]

theorem TwistOk.up {newN : Nat} {p : List Nat} {hp : IsPartition (l + 1) p} {G F : Nat → Wd (l + 1) p → Wd (l + 1) p → ℝ} {q Q : MPart}
    (hq : Repr' hp q.irrep) (h : twistUp viewAct (l + 1) newN q = some Q) (hG : Holds' m (newN * (l + 1)) G q)
    (hF : Holds' m (newN * (l + 1)) F Q) : TwistOk m (newN * (l + 1)) G F := by
  refine ⟨fun s hs w hw => ?_, fun s hs h0 u w hw => ?_⟩
  · rw [← hG.colNorm hq hs w hw, ← hF.colNorm hq hs w hw]
    exact twistUp_norm hq h hs (by rw [hG.m_eq]; exact colIx_lt w hw)
  · rw [← hF.data u w hw s hs, ← hG.data u w hw s hs]
    exact twistUp_zero_slice h h0 _ _

theorem TwistOk.down {N : Nat} {p : List Nat} {hp : IsPartition (l + 1) p} {G F : Nat → Wd (l + 1) p → Wd (l + 1) p → ℝ} {q Q : MPart}
    (hq : Repr' hp q.irrep) (h : twistDown viewAct l N q = some Q) (hG : Holds' m (N * (l + 1)) G q)
    (hF : Holds' m (N * (l + 1)) F Q) : TwistOk m (N * (l + 1)) G F := by
  refine ⟨fun s hs w hw => ?_, fun s hs h0 u w hw => ?_⟩
  · rw [← hG.colNorm hq hs w hw, ← hF.colNorm hq hs w hw]
    exact twistDown_norm hq h hs (by rw [hG.m_eq]; exact colIx_lt w hw)
  · rw [← hF.data u w hw s hs, ← hG.data u w hw s hs]
    exact twistDown_zero_slice h h0 _ _

/-- one level of the forward transform, if it ends -/
theorem up_some {newN : Nat} (hm : m ≤ l) (hl : 0 < l) {L : LevelT} (hL : LevelOk m (l + 1) L) (hB : BlocksOk m l L)
    {G : (q : List Nat) → IsPartition l q → Nat → Wd l q → Wd l q → ℝ} {v v' : List MPart} (hv : VecOk m l (newN * (l + 1)) G v)
    {Gup : (p : List Nat) → IsPartition (l + 1) p → Nat → Wd (l + 1) p → Wd (l + 1) p → ℝ}
    (hG : ∀ p (hp : IsPartition (l + 1) p), BlockDiag m hp G (Gup p hp)) (h : L.uptransform viewAct v = some v') :
    IrrOk m (l + 1) v' ∧ ∃ F : (p : List Nat) → IsPartition (l + 1) p → Nat → Wd (l + 1) p → Wd (l + 1) p → ℝ,
      VecOk m (l + 1) newN (fun p hp c u w => ∑ t ∈ Finset.range (l + 1), F p hp (c * (l + 1) + t) u w) v' ∧
      ∀ p (hp : IsPartition (l + 1) p), m ≤ row p 0 → ∃ q Q, Repr' hp q.irrep ∧ twistUp viewAct (l + 1) newN q = some Q ∧
        Holds' m (newN * (l + 1)) (Gup p hp) q ∧ Holds' m (newN * (l + 1)) (F p hp) Q := by
  have hN := vecN_eq hm hl hv
  have hdiv : newN * (l + 1) / (l + 1) = newN := Nat.mul_div_cancel _ (by omega)
  unfold LevelT.uptransform at h
  rw [hN, hL.n_eq] at h
  simp only [Option.bind_eq_bind, Option.bind_some, Option.bind_eq_some_iff] at h
  obtain ⟨w, hw, h⟩ := h
  rw [hdiv] at hw
  obtain ⟨hw1, hw2⟩ := (mapM_some_iff _ _ _).1 hw
  obtain ⟨hr1, hr2⟩ := (mapM_some_iff _ _ _).1 h
  have key : ∀ (i : Nat) (p : List Nat) (hp : IsPartition (l + 1) p), (PL m (l + 1))[i]? = some p → ∃ q Q P',
      mkIrrep p = some q.irrep ∧ q.irrep.lambda = p ∧ Repr' hp q.irrep ∧ twistUp viewAct (l + 1) newN q = some Q ∧
        Holds' m (newN * (l + 1)) (Gup p hp) q ∧ v'[i]? = some P' ∧ Q.reduce = some P' := by
    intro i p hp hi
    have hi' := hi
    rw [← hL.keys, List.getElem?_map] at hi
    obtain ⟨pp, hip, rfl⟩ := Option.map_eq_some_iff.1 hi
    obtain ⟨Q, hQ, hQ'⟩ := hw2 i pp hip
    rw [Option.bind_eq_some_iff] at hQ'
    obtain ⟨q, hq, hQ'⟩ := hQ'
    obtain ⟨P', hP', hred⟩ := hr2 i Q hQ
    obtain ⟨-, hmk, hd, hcol⟩ := hL.part i pp hip
    obtain ⟨R, hR, hlam, hrep⟩ := exists_repr (by omega) hp
    have hRe : pp.irrep = R := Option.some.inj (hmk.symm.trans hR)
    subst hRe
    obtain ⟨P1, a1, a2, a3⟩ := blockLoop_eq hm hl hp hv (hG _ hp) [] (subsM m pp.irrep.lambda) rfl
      (MPart.zero (newN * (l + 1)) pp.irrep pp.m) ⟨rfl, by rw [MPart.zero, hrep.d_eq]; rfl, hcol, fun u w hw s hs => by simp [MPart.zero]⟩
    have e : q = P1 := by
      unfold PartT.uptransform at hq
      rw [hN] at hq
      simp only [Option.bind_eq_bind, Option.bind_some] at hq
      rw [hB pp (List.mem_of_getElem? hip)] at hq
      rw [show rowOff l [] = 0 from rfl, show colOff m l [] = 0 from rfl] at a1
      exact Option.some.inj (hq.symm.trans a1)
    subst e
    have a2' : q.irrep = pp.irrep := a2
    exact ⟨q, Q, P', by rw [a2']; exact hmk, by rw [a2'], by rw [a2']; exact hrep, hQ', a3, hP', hred⟩
  have key2 : ∀ (p : List Nat) (hp : IsPartition (l + 1) p), m ≤ row p 0 → ∃ q Q P',
      q.irrep.lambda = p ∧ Repr' hp q.irrep ∧ twistUp viewAct (l + 1) newN q = some Q ∧
        Holds' m (newN * (l + 1)) (Gup p hp) q ∧ v'[(PL m (l + 1)).idxOf p]? = some P' ∧ Q.reduce = some P' := by
    intro p hp hrow
    have hmem : p ∈ PL m (l + 1) := (mem_PL (by omega) p).2 ⟨hp, hrow⟩
    obtain ⟨q, Q, P', -, h⟩ := key ((PL m (l + 1)).idxOf p) p hp
      (by rw [List.getElem?_eq_getElem (List.idxOf_lt_length_of_mem hmem), List.getElem_idxOf])
    exact ⟨q, Q, P', h⟩
  choose fq fQ fP k1 k2 k3 k4 k5 k6 using key2
  refine ⟨?_, ?_⟩
  · intro i p M h1 h2
    obtain ⟨hp, -⟩ := (mem_PL (by omega) _).1 (List.mem_of_getElem? h1)
    obtain ⟨q, Q, P', a0, -, -, a3, -, a5, a6⟩ := key i p hp h1
    obtain rfl : P' = M := Option.some.inj (a5.symm.trans h2)
    rw [(reduce_some a6).1, (twistUp_some a3).1]
    exact a0
  · have hF : ∀ (p : List Nat) (hp : IsPartition (l + 1) p) (hrow : m ≤ row p 0), Holds' m (newN * (l + 1))
        (fun s (u w : Wd (l + 1) p) => (fQ p hp hrow).data (rowIx (l + 1) p u.1) (s, colIx m (l + 1) p w.1)) (fQ p hp hrow) := by
      intro p hp hrow
      obtain ⟨b1, b2, b3, b4⟩ := twistUp_some (k3 p hp hrow)
      refine ⟨b3.trans (k4 p hp hrow).N_eq, ?_, b2.trans (k4 p hp hrow).m_eq, fun _ _ _ _ _ => rfl⟩
      have h1 := k3 p hp hrow
      unfold twistUp at h1
      simp only [Option.bind_eq_bind, Option.bind_eq_some_iff] at h1
      obtain ⟨A, -, h1⟩ := h1
      have h2 := Option.some.inj h1
      rw [← (k4 p hp hrow).d_eq, ← h2]
    refine ⟨fun p hp s u w => if hrow : m ≤ row p 0 then (fQ p hp hrow).data (rowIx (l + 1) p u.1) (s, colIx m (l + 1) p w.1) else 0, ?_, ?_⟩
    · refine ⟨?_, fun i p hp hi => ?_⟩
      · rw [hr1, hw1, ← hL.keys, List.length_map]
      · obtain ⟨-, hrow⟩ := (mem_PL (by omega) _).1 (List.mem_of_getElem? hi)
        have hidx : i = (PL m (l + 1)).idxOf p := by
          obtain ⟨hlt, h1⟩ := List.getElem?_eq_some_iff.1 hi
          rw [← List.Nodup.idxOf_getElem (PL_nodup m (l + 1)) i hlt, h1]
        obtain ⟨P', c1, c2, c3⟩ := reduce_eq (hp := hp) (R := (fq p hp hrow).irrep) (k1 p hp hrow) (hF p hp hrow)
          (twistUp_some (k3 p hp hrow)).1
        obtain rfl : P' = fP p hp hrow := Option.some.inj (c1.symm.trans (k6 p hp hrow))
        refine ⟨_, by rw [hidx]; exact k5 p hp hrow, c3.N_eq, c3.d_eq, c3.m_eq, fun u w hw s hs => ?_⟩
        rw [c3.data u w hw s hs]
        exact Finset.sum_congr rfl fun t _ => by simp [hrow]
    · intro p hp hrow
      refine ⟨fq p hp hrow, fQ p hp hrow, k2 p hp hrow, k3 p hp hrow, k4 p hp hrow, ?_⟩
      have := hF p hp hrow
      refine ⟨this.N_eq, this.d_eq, this.m_eq, fun u w hw s hs => ?_⟩
      simp only
      rw [dif_pos hrow]

/-- one level of the inverse transform, if it ends -/
theorem down_some {N : Nat} (hm : m ≤ l) (hl : 0 < l) {L L' : LevelT}
    (hL : LevelOk m l L) (hL' : LevelOk m (l + 1) L') (hB : BlocksOk m l L')
    {G' : (p : List Nat) → IsPartition (l + 1) p → Nat → Wd (l + 1) p → Wd (l + 1) p → ℝ} {V v : List MPart}
    (hV : VecOk m (l + 1) N G' V) (hi : IrrOk m (l + 1) V) (h : L.downtransform viewAct L' V = some v) :
    IrrOk m l v ∧ ∃ H : (p : List Nat) → IsPartition (l + 1) p → Nat → Wd (l + 1) p → Wd (l + 1) p → ℝ,
      VecOk m l (N * (l + 1)) (fun q hq s u w => ∑ p : Pt (l + 1), wt l p.1 q * blk p.2 hq (H p.1 p.2 s) u w) v ∧
      ∀ p (hp : IsPartition (l + 1) p), m ≤ row p 0 → TwistOk m (N * (l + 1)) (fun s u w => G' p hp (s / (l + 1)) u w) (H p hp) := by
  have hN := vecN_eq (by omega) (by omega) hV
  unfold LevelT.downtransform at h
  rw [hN, hL.n_eq] at h
  simp only [Option.bind_eq_bind, Option.bind_some, Option.bind_eq_some_iff] at h
  obtain ⟨VV, hVV, h⟩ := h
  obtain ⟨hw1, hw2⟩ := (mapM_some_iff _ _ _).1 hVV
  have key : ∀ (p : List Nat) (hp : IsPartition (l + 1) p), m ≤ row p 0 → ∃ q Q,
      mkIrrep p = some q.irrep ∧ Repr' hp q.irrep ∧ twistDown viewAct l N q = some Q ∧
        Holds' m (N * (l + 1)) (fun s u w => G' p hp (s / (l + 1)) u w) q ∧ VV[(PL m (l + 1)).idxOf p]? = some Q := by
    intro p hp hrow
    have hmem : p ∈ PL m (l + 1) := (mem_PL (by omega) p).2 ⟨hp, hrow⟩
    have hidx : (PL m (l + 1))[(PL m (l + 1)).idxOf p]? = some p := by
      rw [List.getElem?_eq_getElem (List.idxOf_lt_length_of_mem hmem), List.getElem_idxOf]
    obtain ⟨P, a1, a2⟩ := hV.part _ p hp hidx
    obtain ⟨Q, b1, b2⟩ := hw2 _ P a1
    have hmk := hi _ p P hidx a1
    obtain ⟨R, hR, hlam, hrep⟩ := exists_repr (by omega) hp
    obtain rfl : P.irrep = R := Option.some.inj (hmk.symm.trans hR)
    refine ⟨P.broadcast (l + 1), Q, hmk, hrep, b2, ⟨by rw [MPart.broadcast, a2.N_eq], a2.d_eq, a2.m_eq, fun u w hw s hs => ?_⟩, b1⟩
    exact a2.data u w hw (s / (l + 1)) (Nat.div_lt_of_lt_mul (by rw [Nat.mul_comm]; exact hs))
  choose fq fQ k0 k1 k2 k3 k4 using key
  have hF : ∀ (p : List Nat) (hp : IsPartition (l + 1) p) (hrow : m ≤ row p 0), Holds' m (N * (l + 1))
      (fun s (u w : Wd (l + 1) p) => if hrow : m ≤ row p 0 then (fQ p hp hrow).data (rowIx (l + 1) p u.1) (s, colIx m (l + 1) p w.1) else 0)
      (fQ p hp hrow) := by
    intro p hp hrow
    obtain ⟨b1, b2, b3, b4, -⟩ := twistDown_some (k2 p hp hrow)
    refine ⟨b3.trans (k3 p hp hrow).N_eq, b4.trans (k3 p hp hrow).d_eq, b2.trans (k3 p hp hrow).m_eq, fun _ _ _ _ _ => by simp [hrow]⟩
  have hlen : L'.parts.length = (PL m (l + 1)).length := by rw [← hL'.keys, List.length_map]
  have hlen0 : L.parts.length = (PL m l).length := by rw [← hL.keys, List.length_map]
  have hR0 : VecOk m l (N * (l + 1)) (fun _ _ _ _ _ => 0) (L.parts.map fun p => MPart.zero (N * (l + 1)) p.irrep p.m) := by
    refine ⟨by rw [List.length_map, hlen0], fun i q hq hi' => ?_⟩
    rw [← hL.keys, List.getElem?_map] at hi'
    obtain ⟨p, hp, rfl⟩ := Option.map_eq_some_iff.1 hi'
    obtain ⟨-, hmk, hd, hcol⟩ := hL.part i p hp
    exact ⟨_, by rw [List.getElem?_map, hp]; rfl, rfl, irrep_d hl hq hmk, hcol, fun u w hw s hs => rfl⟩
  have hI0 : IrrOk m l (L.parts.map fun p => MPart.zero (N * (l + 1)) p.irrep p.m) := by
    intro i q M h1 h2
    rw [← hL.keys, List.getElem?_map] at h1
    obtain ⟨p, hp, rfl⟩ := Option.map_eq_some_iff.1 h1
    rw [List.getElem?_map, hp] at h2
    obtain rfl := Option.some.inj h2
    exact (hL.part i p hp).2.1
  obtain ⟨v1, c1, c2, c3⟩ := unpartLoop_eq hm hl
    (H := fun p hp s u w => if hrow : m ≤ row p 0 then (fQ p hp hrow).data (rowIx (l + 1) p u.1) (s, colIx m (l + 1) p w.1) else 0)
    L'.parts VV (by rw [hw1, hV.len, hlen])
    (fun p hp => ⟨hB p hp, (hL'.mem (by omega) hp).1⟩)
    (fun i p hp P h1 h2 => by
      have hk : (PL m (l + 1))[i]? = some p.irrep.lambda := by
        rw [← hL'.keys, List.getElem?_map, h1]; rfl
      have hrow := ((mem_PL (by omega) _).1 (List.mem_of_getElem? hk)).2
      have hidx : i = (PL m (l + 1)).idxOf p.irrep.lambda := by
        obtain ⟨hlt, h1⟩ := List.getElem?_eq_some_iff.1 hk
        rw [← List.Nodup.idxOf_getElem (PL_nodup m (l + 1)) i hlt, h1]
      have h4 := k4 _ hp hrow
      rw [← hidx] at h4
      obtain rfl : fQ _ hp hrow = P := Option.some.inj (h4.symm.trans h2)
      refine ⟨hF _ hp hrow, ?_⟩
      rw [(twistDown_some (k2 _ hp hrow)).1]
      exact k0 _ hp hrow) hR0 hI0
  obtain rfl : v1 = v := Option.some.inj (c1.symm.trans h)
  refine ⟨c2, fun p hp s u w => if hrow : m ≤ row p 0 then (fQ p hp hrow).data (rowIx (l + 1) p u.1) (s, colIx m (l + 1) p w.1) else 0,
    ⟨c3.len, fun i q hq hi' => ?_⟩, fun p hp hrow => TwistOk.down (k1 p hp hrow) (k2 p hp hrow) (k3 p hp hrow) (hF p hp hrow)⟩
  obtain ⟨P0, d1, d2⟩ := c3.part i q hq hi'
  refine ⟨P0, d1, d2.N_eq, d2.d_eq, d2.m_eq, fun u w hw s hs => ?_⟩
  rw [d2.data u w hw s hs, hL'.keys, sum_PL (by omega), zero_add]
  refine Finset.sum_congr rfl fun p _ => ?_
  have hqm : m ≤ row q 0 := ((mem_PL hl q).1 (List.mem_of_getElem? hi')).2
  rw [contrib, dif_pos p.2]
  by_cases hb : AddsBox q p.1
  · have hrow : m ≤ row p.1 0 := by
      obtain ⟨r, hb⟩ := hb
      have := hb 0
      split_ifs at this <;> omega
    rw [if_pos hrow, if_pos ((mem_subsM p.2 q).2 ⟨⟨hq, hb⟩, hqm⟩)]
  · rw [blk_none p.2 hq hb]
    simp

/-! ## Averages -/

theorem sum_wt_one {q : List Nat} (hq : IsPartition l q) (u : Wd l q) :
    ∑ p : Pt (l + 1), wt l p.1 q * blk p.2 hq (fun a b => if a = b then 1 else 0) u u = 1 := by
  have h1 := sum_wt_blk hq (1 : Equiv.Perm (Fin (l + 1))) u u
  have h2 := sum_blk_extend hq (1 : Equiv.Perm (Fin l)) u u
  rw [extend_one] at h2
  rw [h2, map_one, Matrix.one_apply_eq] at h1
  have hd : (dimW l q : ℝ) ≠ 0 := by exact_mod_cast (dimW_pos hq).ne'
  have hl : ((l : ℝ) + 1) ≠ 0 := by positivity
  rw [mul_one, div_self (mul_ne_zero hd hl)] at h1
  refine Eq.trans (Finset.sum_congr rfl fun p _ => ?_) h1
  congr 2
  funext a b
  rw [map_one, Matrix.one_apply]

theorem wt_pos {p q : List Nat} (hp : IsPartition (l + 1) p) (hq : IsPartition l q) : 0 < wt l p q := by
  unfold wt
  have h1 : (0 : ℝ) < dimW l q := by exact_mod_cast dimW_pos hq
  have h2 : (0 : ℝ) < dimW (l + 1) p := by exact_mod_cast dimW_pos hp
  positivity

/-- the diagonal entries are averages -/
theorem avg_le (hm : m ≤ l) {H : (p : List Nat) → IsPartition (l + 1) p → Wd (l + 1) p → Wd (l + 1) p → ℝ}
    (hH : ∀ p (hp : IsPartition (l + 1) p), m ≤ row p 0 → ∀ u : Wd (l + 1) p, goodW m u.1 = true → H p hp u u ≤ 1)
    {q : List Nat} (hq : IsPartition l q) (hrow : m ≤ row q 0) (u : Wd l q) (hu : goodW m u.1 = true) :
    (∑ p : Pt (l + 1), wt l p.1 q * blk p.2 hq (H p.1 p.2) u u ≤ 1) ∧
      ∀ (p : List Nat) (hp : IsPartition (l + 1) p) (r : Nat) (hb : AddsBoxAt q p r), H p hp (emb hp hq hb u) (emb hp hq hb u) < 1 →
        ∑ p : Pt (l + 1), wt l p.1 q * blk p.2 hq (H p.1 p.2) u u < 1 := by
  have hle : ∀ p : Pt (l + 1), wt l p.1 q * blk p.2 hq (H p.1 p.2) u u ≤ wt l p.1 q * blk p.2 hq (fun a b => if a = b then 1 else 0) u u := by
    intro p
    refine mul_le_mul_of_nonneg_left ?_ (wt_pos p.2 hq).le
    by_cases hb : AddsBox q p.1
    · obtain ⟨r, hb⟩ := hb
      rw [blk_eq p.2 hq hb, blk_eq p.2 hq hb, if_pos rfl]
      refine hH p.1 p.2 ?_ _ (by rw [good_emb p.2 hq hb hm]; exact hu)
      have := hb 0
      split_ifs at this <;> omega
    · rw [blk_none p.2 hq hb, blk_none p.2 hq hb]
  refine ⟨?_, fun p hp r hb hlt => ?_⟩
  · rw [← sum_wt_one hq u]
    exact Finset.sum_le_sum fun p _ => hle p
  · rw [← sum_wt_one hq u]
    refine Finset.sum_lt_sum (fun p _ => hle p) ⟨⟨p, hp⟩, Finset.mem_univ _, ?_⟩
    refine mul_lt_mul_of_pos_left ?_ (wt_pos hp hq)
    rw [blk_eq hp hq hb, blk_eq hp hq hb, if_pos rfl]
    exact hlt

/-! ## A function that is not zero at one place -/

/-- identity matrices in slice `c0`, zero elsewhere -/
noncomputable def idF (l c0 : Nat) (p : List Nat) (_ : IsPartition l p) (c : Nat) (u w : Wd l p) : ℝ :=
  if c = c0 then (if u = w then 1 else 0) else 0

theorem idF_block (c0 : Nat) (p : List Nat) (hp : IsPartition (l + 1) p) : BlockDiag m hp (idF l c0) (idF (l + 1) c0 p hp) := by
  refine ⟨fun q hq r hb s u w _ => ?_, fun q hq r hb q' hq' r' hb' s u w hr _ => ?_⟩
  · unfold idF
    simp only [(emb_injective hp hq hb).eq_iff]
  · unfold idF
    rw [if_neg (c := emb hp hq hb u = emb hp hq' hb' w)]
    · simp
    · intro e
      exact hr (List.cons.inj (congrArg Subtype.val e)).1

theorem idF_norm (c0 : Nat) (p : List Nat) (hp : IsPartition l p) (c : Nat) (w : Wd l p) :
    ∑ u, idF l c0 p hp c u w * idF l c0 p hp c u w = if c = c0 then 1 else 0 := by
  unfold idF
  split
  · simp
  · simp

theorem entry_zero {ι : Type} [Fintype ι] {f : ι → ℝ} (h : ∑ u, f u * f u ≤ 0) (u : ι) : f u = 0 := by
  have h1 := Finset.single_le_sum (f := fun u => f u * f u) (fun _ _ => mul_self_nonneg _) (Finset.mem_univ u)
  have h2 : f u * f u ≤ 0 := h1.trans h
  exact mul_self_eq_zero.1 (le_antisymm h2 (mul_self_nonneg _))

theorem entry_le_one {ι : Type} [Fintype ι] {f : ι → ℝ} (h : ∑ u, f u * f u ≤ 1) (u : ι) : f u ≤ 1 := by
  have h1 := Finset.single_le_sum (f := fun u => f u * f u) (fun _ _ => mul_self_nonneg _) (Finset.mem_univ u)
  have h2 : f u * f u ≤ 1 := h1.trans h
  nlinarith

theorem entry_lt_one {ι : Type} [Fintype ι] {f : ι → ℝ} (h : ∑ u, f u * f u < 1) (u : ι) : f u < 1 := by
  have h1 := Finset.single_le_sum (f := fun u => f u * f u) (fun _ _ => mul_self_nonneg _) (Finset.mem_univ u)
  have h2 : f u * f u < 1 := lt_of_le_of_lt h1 h
  nlinarith

theorem slice_lt {c t newN : Nat} (hc : c < newN) (ht : t < l + 1) : c * (l + 1) + t < newN * (l + 1) := by
  calc c * (l + 1) + t < c * (l + 1) + (l + 1) := by omega
    _ = (c + 1) * (l + 1) := by ring
    _ ≤ newN * (l + 1) := Nat.mul_le_mul_right _ hc

/-- below the last level nothing is lost -/
theorem up_id {newN c1 : Nat} (hm : m ≤ l) (hl : 0 < l) {L : LevelT} (hL : LevelOk m (l + 1) L) (hB : BlocksOk m l L)
    {v v' : List MPart} (hv : VecOk m l (newN * (l + 1)) (idF l (c1 * (l + 1))) v) (h : L.uptransform viewAct v = some v') :
    VecOk m (l + 1) newN (idF (l + 1) c1) v' := by
  obtain ⟨-, F, h1, h2⟩ := up_some hm hl hL hB hv (fun p hp => idF_block (c1 * (l + 1)) p hp) h
  refine ⟨h1.len, fun i p hp hi => ?_⟩
  obtain ⟨P, a1, a2⟩ := h1.part i p hp hi
  refine ⟨P, a1, a2.N_eq, a2.d_eq, a2.m_eq, fun u w hw c hc => ?_⟩
  rw [a2.data u w hw c hc]
  obtain ⟨q, Q, b1, b2, b3, b4⟩ := h2 p hp ((mem_PL (by omega) _).1 (List.mem_of_getElem? hi)).2
  have tw := TwistOk.up b1 b2 b3 b4
  have hz : ∀ t < l + 1, c * (l + 1) + t ≠ c1 * (l + 1) → F p hp (c * (l + 1) + t) u w = 0 := by
    intro t ht hne
    have := tw.norm _ (slice_lt hc ht) w hw
    rw [idF_norm, if_neg hne] at this
    exact entry_zero (f := fun u => F p hp (c * (l + 1) + t) u w) this u
  rw [Finset.sum_eq_single 0]
  · by_cases e : c = c1
    · rw [tw.fix _ (slice_lt hc (by omega)) (by simp) u w hw, e]
      unfold idF
      rw [if_pos (by omega), if_pos rfl]
    · rw [hz 0 (by omega)]
      · unfold idF; rw [if_neg e]
      · intro h0
        rw [Nat.add_zero] at h0
        exact e (Nat.eq_of_mul_eq_mul_right (by omega) h0)
  · intro t ht ht0
    have ht := Finset.mem_range.1 ht
    refine hz t ht fun h0 => ht0 ?_
    have : (c * (l + 1) + t) % (l + 1) = c1 * (l + 1) % (l + 1) := by rw [h0]
    rw [Nat.add_comm, Nat.add_mul_mod_self_right, Nat.mul_mod_left, Nat.mod_eq_of_lt ht] at this
    exact this
  · intro h0
    exact absurd (Finset.mem_range.2 (by omega)) h0

/-- the last level -/
theorem up_last {c1 : Nat} (hm : m ≤ l) (hl : 0 < l) (hc1 : c1 < l + 1) {L : LevelT} (hL : LevelOk m (l + 1) L) (hB : BlocksOk m l L)
    {v v' : List MPart} (hv : VecOk m l (1 * (l + 1)) (idF l c1) v) (h : L.uptransform viewAct v = some v') :
    IrrOk m (l + 1) v' ∧ ∃ T : (p : List Nat) → IsPartition (l + 1) p → Wd (l + 1) p → Wd (l + 1) p → ℝ,
      VecOk m (l + 1) 1 (fun p hp _ u w => T p hp u w) v' ∧
      ∀ p (hp : IsPartition (l + 1) p), m ≤ row p 0 →
        (∀ w : Wd (l + 1) p, goodW m w.1 = true → ∑ u, T p hp u w * T p hp u w ≤ 1) ∧
        ∃ q Q, Repr' hp q.irrep ∧ twistUp viewAct (l + 1) 1 q = some Q ∧ Holds' m (1 * (l + 1)) (idF (l + 1) c1 p hp) q ∧
          ∀ w : Wd (l + 1) p, goodW m w.1 = true → colNorm q.irrep.d Q.data (c1, colIx m (l + 1) p w.1) = ∑ u, T p hp u w * T p hp u w := by
  obtain ⟨h0, F, h1, h2⟩ := up_some hm hl hL hB hv (fun p hp => idF_block c1 p hp) h
  refine ⟨h0, fun p hp u w => F p hp c1 u w, ⟨h1.len, fun i p hp hi => ?_⟩, fun p hp hrow => ?_⟩
  · obtain ⟨P, a1, a2⟩ := h1.part i p hp hi
    refine ⟨P, a1, a2.N_eq, a2.d_eq, a2.m_eq, fun u w hw c hc => ?_⟩
    rw [a2.data u w hw c hc]
    obtain ⟨q, Q, b1, b2, b3, b4⟩ := h2 p hp ((mem_PL (by omega) _).1 (List.mem_of_getElem? hi)).2
    have tw := TwistOk.up b1 b2 b3 b4
    obtain rfl : c = 0 := by omega
    rw [Finset.sum_eq_single c1]
    · simp
    · intro t ht hne
      have ht := Finset.mem_range.1 ht
      have := tw.norm (0 * (l + 1) + t) (slice_lt hc ht) w hw
      rw [idF_norm, if_neg (by omega)] at this
      exact entry_zero (f := fun u => F p hp (0 * (l + 1) + t) u w) this u
    · intro h0
      exact absurd (Finset.mem_range.2 hc1) h0
  · obtain ⟨q, Q, b1, b2, b3, b4⟩ := h2 p hp hrow
    have tw := TwistOk.up b1 b2 b3 b4
    refine ⟨fun w hw => ?_, q, Q, b1, b2, b3, fun w hw => b4.colNorm b1 (by omega) w hw⟩
    have := tw.norm c1 (by omega) w hw
    rw [idF_norm, if_pos rfl] at this
    exact this

end

end Snob
