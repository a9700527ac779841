import Verif.Proofs.FFTForm
import Verif.Proofs.Induce

/-! # One step of the inverse transform -/

namespace Snob

open IP Snob.Perm
open scoped Nat

/-- the parts of a vector belong to the irreps of the level -/
def IrrOk (m l : Nat) (v : List MPart) : Prop :=
  ∀ (i : Nat) (q : List Nat) (M : MPart), (PL m l)[i]? = some q → v[i]? = some M → mkIrrep q = some M.irrep

theorem irrep_d {n : Nat} (hn : 0 < n) {p : List Nat} (hp : IsPartition n p) {R : IrrepObj} (h : mkIrrep p = some R) :
    R.d = dimW n p := by
  obtain ⟨R', hR, -, hrep⟩ := exists_repr hn hp
  obtain rfl : R' = R := Option.some.inj (hR.symm.trans h)
  exact hrep.d_eq

/-- the weight of the block over `q` of a part of shape `p` -/
noncomputable def wt (l : Nat) (p q : List Nat) : ℝ := (dimW (l + 1) p : ℝ) / (dimW l q * (l + 1))

theorem unblockLoop_eq {m l N : Nat} (hm : m ≤ l) (hl : 0 < l) {p : List Nat} (hp : IsPartition (l + 1) p)
    {H : Nat → Wd (l + 1) p → Wd (l + 1) p → ℝ} {P : MPart} (hP : Holds' m N H P) (hPi : mkIrrep p = some P.irrep)
    (S1 S2 : List (List Nat)) (hS : subsM m p = S1 ++ S2)
    {G : (q : List Nat) → IsPartition l q → Nat → Wd l q → Wd l q → ℝ} {R : List MPart} (hv : VecOk m l N G R) (hi : IrrOk m l R) :
    ∃ R', unblockLoop l P (blocksW m l (rowOff l S1) (colOff m l S1) S2) R = some R' ∧ IrrOk m l R' ∧
      VecOk m l N (fun q hq s u w => G q hq s u w + if q ∈ S2 then wt l p q * blk hp hq (H s) u w else 0) R' := by
  induction S2 generalizing S1 R G with
  | nil =>
    refine ⟨R, rfl, hi, ?_⟩
    simpa using hv
  | cons q S2 ih =>
    have hqm : q ∈ subsM m p := by rw [hS]; simp
    obtain ⟨⟨hq, r, hb⟩, hqr⟩ := (mem_subsM hp q).1 hqm
    have hnd := subsM_nodup m p
    rw [hS] at hnd
    have hqS2 : q ∉ S2 := (List.nodup_cons.1 (List.nodup_append.1 hnd).2.1).1
    have hqPL : q ∈ PL m l := (mem_PL hl q).2 ⟨hq, hqr⟩
    obtain ⟨M, hM, hMh⟩ := hv.at hq hqPL
    have hidx : (PL m l)[(PL m l).idxOf q]? = some q := by
      rw [List.getElem?_eq_getElem (List.idxOf_lt_length_of_mem hqPL), List.getElem_idxOf]
    have hMi := hi _ q M hidx hM
    have hd1 := irrep_d (by omega) hp hPi
    have hd2 := irrep_d hl hq hMi
    have hoff1 : rowOff l (S1 ++ [q]) = rowOff l S1 + dimW l q := by simp [rowOff]
    have hoff2 : colOff m l (S1 ++ [q]) = colOff m l S1 + (colW m l q).length := by simp [colOff]
    -- bounds
    have hb1 : rowOff l S1 + dimW l q ≤ dimW (l + 1) p := by
      obtain ⟨u, hu⟩ := exists_rowIx (n := l) (p := q) (i := dimW l q - 1) hq (by have := dimW_pos hq; omega)
      have h1 := rowIx_emb hp hq hb u hS
      have h2 := rowIx_lt (emb hp hq hb u)
      have := dimW_pos hq
      omega
    have hb2 : colOff m l S1 + (colW m l q).length ≤ (colW m (l + 1) p).length := by
      rw [colW_succ hm hp, hS, List.length_flatMap]
      simp only [List.length_map, List.map_append, List.map_cons, List.sum_append, List.sum_cons, colOff]
      omega
    have hcond : M.N = P.N ∧ rowOff l S1 + M.d ≤ P.d ∧ colOff m l S1 + M.m ≤ P.m := by
      rw [hMh.N_eq, hP.N_eq, hMh.d_eq, hMh.m_eq, hP.d_eq, hP.m_eq]
      exact ⟨rfl, hb1, hb2⟩
    let M' : MPart := { M with data := (fun i k => M.data i k +
      wt l p q * P.data (i + rowOff l S1) (k.1, k.2 + colOff m l S1)) }
    have hstep : P.addBlockTo (rowOff l S1) (colOff m l S1) M ((P.irrep.d : ℝ) / (M.irrep.d * (l + 1))) = some M' := by
      unfold MPart.addBlockTo
      rw [if_pos hcond, hd1, hd2]
      rfl
    have hM'h : Holds' m N (fun s u w => G q hq s u w + wt l p q * blk hp hq (H s) u w) M' := by
      refine ⟨hMh.N_eq, hMh.d_eq, hMh.m_eq, fun u w hw s hs => ?_⟩
      show M.data _ _ + _ = _
      rw [hMh.data u w hw s hs, blk_eq hp hq hb]
      congr 2
      simp only
      rw [Nat.add_comm (rowIx l q u.1), ← rowIx_emb hp hq hb u hS, Nat.add_comm (colIx m l q w.1), ← colIx_emb hm hp hq hb w hw hS]
      exact hP.data _ _ (by rw [good_emb hp hq hb hm]; exact hw) s hs
    have hlt : (PL m l).idxOf q < R.length := (List.getElem?_eq_some_iff.1 hM).1
    have hv' : VecOk m l N (fun q' hq' s u w => G q' hq' s u w + if q' = q then wt l p q' * blk hp hq' (H s) u w else 0)
        (R.set ((PL m l).idxOf q) M') := by
      refine ⟨by rw [List.length_set]; exact hv.len, fun i q' hq' hi' => ?_⟩
      obtain ⟨P0, a1, a2⟩ := hv.part i q' hq' hi'
      by_cases e : q' = q
      · subst e
        have : i = (PL m l).idxOf q' := by
          have h1 := (List.getElem?_eq_some_iff.1 hi')
          obtain ⟨hlt, h1⟩ := h1
          rw [← List.Nodup.idxOf_getElem (PL_nodup m l) i hlt, h1]
        subst this
        refine ⟨M', by rw [List.getElem?_set_self hlt], ?_⟩
        simpa using hM'h
      · have : i ≠ (PL m l).idxOf q := by
          rintro rfl
          exact e (Option.some.inj (hi'.symm.trans hidx))
        refine ⟨P0, by rw [List.getElem?_set_ne this.symm]; exact a1, ?_⟩
        simpa [e] using a2
    have hi2 : IrrOk m l (R.set ((PL m l).idxOf q) M') := by
      intro i q' X h1 h2
      by_cases e : (PL m l).idxOf q = i
      · subst e
        rw [List.getElem?_set_self hlt] at h2
        obtain rfl := Option.some.inj h2
        exact hi _ q' M h1 hM
      · rw [List.getElem?_set_ne e] at h2
        exact hi i q' X h1 h2
    obtain ⟨R', k1, k2, k3⟩ := ih (S1 ++ [q]) (by rw [hS]; simp) hv' hi2
    refine ⟨R', ?_, k2, k3.len, fun i q' hq' hi' => ?_⟩
    · rw [blocksW, unblockLoop, hM]
      simp only [Option.bind_eq_bind, Option.bind_some]
      rw [hstep]
      simp only [Option.bind_some]
      rw [← hoff1, ← hoff2]
      exact k1
    · obtain ⟨P0, a1, a2⟩ := k3.part i q' hq' hi'
      refine ⟨P0, a1, a2.N_eq, a2.d_eq, a2.m_eq, fun u w hw s hs => ?_⟩
      rw [a2.data u w hw s hs]
      by_cases e : q' = q
      · subst e
        simp [hqS2]
      · simp [e]

open Classical in
/-- the contribution of a part of shape `p` -/
noncomputable def contrib (m l : Nat) (H : (p : List Nat) → IsPartition (l + 1) p → Nat → Wd (l + 1) p → Wd (l + 1) p → ℝ)
    (q : List Nat) (hq : IsPartition l q) (s : Nat) (u w : Wd l q) (p : List Nat) : ℝ :=
  if hp : IsPartition (l + 1) p then
    if q ∈ subsM m p then wt l p q * blk hp hq (H p hp s) u w else 0
  else 0

theorem unpartLoop_eq {m l N : Nat} (hm : m ≤ l) (hl : 0 < l)
    {H : (p : List Nat) → IsPartition (l + 1) p → Nat → Wd (l + 1) p → Wd (l + 1) p → ℝ}
    (ps : List PartT) (VV : List MPart) (hlen : VV.length = ps.length)
    (hps : ∀ p ∈ ps, p.blocks = blocksW m l 0 0 (subsM m p.irrep.lambda) ∧ IsPartition (l + 1) p.irrep.lambda)
    (hVV : ∀ (i : Nat) (p : PartT) (hp : IsPartition (l + 1) p.irrep.lambda) (P : MPart), ps[i]? = some p → VV[i]? = some P →
      Holds' m N (H _ hp) P ∧ mkIrrep p.irrep.lambda = some P.irrep)
    {G : (q : List Nat) → IsPartition l q → Nat → Wd l q → Wd l q → ℝ} {R : List MPart} (hv : VecOk m l N G R) (hi : IrrOk m l R) :
    ∃ R', unpartLoop l ps VV R = some R' ∧ IrrOk m l R' ∧
      VecOk m l N (fun q hq s u w => G q hq s u w + ((ps.map fun p => p.irrep.lambda).map (contrib m l H q hq s u w)).sum) R' := by
  induction ps generalizing VV R G with
  | nil =>
    refine ⟨R, by rw [unpartLoop], hi, ?_⟩
    simpa using hv
  | cons p ps ih =>
    rcases VV with _ | ⟨P, VV⟩
    · simp at hlen
    obtain ⟨hbl, hp⟩ := hps p (by simp)
    obtain ⟨hP, hPi⟩ := hVV 0 p hp P rfl rfl
    obtain ⟨R1, a1, a2, a3⟩ := unblockLoop_eq hm hl hp hP hPi [] (subsM m p.irrep.lambda) rfl hv hi
    obtain ⟨R', b1, b2, b3⟩ := ih VV (by simpa using hlen) (fun p' h' => hps p' (by simp [h']))
      (fun i p' hp' P' h1 h2 => hVV (i + 1) p' hp' P' (by simpa using h1) (by simpa using h2)) a3 a2
    refine ⟨R', ?_, b2, b3.len, fun i q hq hi' => ?_⟩
    · rw [unpartLoop, hbl]
      rw [show rowOff l [] = 0 from rfl, show colOff m l [] = 0 from rfl] at a1
      rw [a1]
      exact b1
    · obtain ⟨P0, c1, c2⟩ := b3.part i q hq hi'
      refine ⟨P0, c1, c2.N_eq, c2.d_eq, c2.m_eq, fun u w hw s hs => ?_⟩
      rw [c2.data u w hw s hs]
      simp only [List.map_cons, List.sum_cons]
      rw [contrib, dif_pos hp, add_assoc]

theorem twistDown_eq {ap : ViewAct} {m l N : Nat} (hap : ActOk ap m (l + 1)) {p : List Nat} {hp : IsPartition (l + 1) p}
    {R : IrrepObj} (h : Repr' hp R) (hpm : m ≤ row p 0) {G : Nat → Wd (l + 1) p → Wd (l + 1) p → ℝ} {P : MPart}
    (hP : Holds' m (N * (l + 1)) G P) (hR : P.irrep = R) :
    ∃ P', twistDown ap l N P = some P' ∧ P'.irrep = R ∧
      Holds' m (N * (l + 1)) (fun s u w => ∑ v, rho hp (slicePerm l (s % (l + 1)))⁻¹ u v * G s v w) P' := by
  subst hR
  obtain ⟨A', h1, h2⟩ := twist_loop h (newN := N) (N' := l + 1) (M := P.m) (by omega) (fun j => (slicePerm l j)⁻¹)
    (fun j A => cycleWith ap P.irrep (sliceCols N (l + 1) P.m j.toNat) ((l : Int) + 1) ((l : Int) + 1 - j) A)
    (by
      intro j A hj
      have := cycleWith_down h (hap p hp P.irrep h hpm (sliceCols N (l + 1) P.m j) (sliceCols_nodup (by omega)))
        ⟨l - j, by omega⟩ (Fin.last l) (Fin.le_last _) A
      simp only [Int.toNat_natCast]
      rw [← slicePerm] at this
      rw [← this]
      congr 1
      simp only
      omega) P.data
  refine ⟨{ P with data := A' }, ?_, rfl, hP.N_eq, hP.d_eq, hP.m_eq, fun u w hw s hs => ?_⟩
  · unfold twistDown
    rw [Nat.cast_add, Nat.cast_one] at h1
    rw [h1]; rfl
  · simp only
    rw [h2 u s _ hs (by rw [hP.m_eq]; exact colIx_lt w hw)]
    refine Finset.sum_congr rfl fun v _ => ?_
    rw [hP.data v w hw s hs]

theorem sum_PL {m n : Nat} (hn : 0 < n) (F : List Nat → ℝ) :
    ((PL m n).map F).sum = ∑ p : Pt n, if m ≤ row p.1 0 then F p.1 else 0 := by
  classical
  rw [← List.sum_toFinset F (PL_nodup m n), ← Finset.sum_filter]
  symm
  refine Finset.sum_bij (fun q _ => q.1) (fun q hq => ?_) (fun a _ b _ h => Subtype.ext h) (fun q hq => ?_) (fun _ _ => rfl)
  · rw [List.mem_toFinset, mem_PL hn]; exact ⟨q.2, (Finset.mem_filter.1 hq).2⟩
  · rw [List.mem_toFinset, mem_PL hn] at hq
    exact ⟨⟨q, hq.1⟩, Finset.mem_filter.2 ⟨Finset.mem_univ _, hq.2⟩, rfl⟩

/-- the entries after one level of the inverse transform -/
noncomputable def downG (l : Nat) (G' : (p : List Nat) → IsPartition (l + 1) p → Nat → Wd (l + 1) p → Wd (l + 1) p → ℝ)
    (q : List Nat) (hq : IsPartition l q) (s : Nat) (u w : Wd l q) : ℝ :=
  ∑ p : Pt (l + 1), wt l p.1 q * blk p.2 hq (fun a b => ∑ x, rho p.2 (slicePerm l (s % (l + 1)))⁻¹ a x *
    G' p.1 p.2 (s / (l + 1)) x b) u w

theorem down_step {ap : ViewAct} {m l N : Nat} (hm : m ≤ l) (hl : 0 < l) (hap : ActOk ap m (l + 1)) {L L' : LevelT}
    (hL : LevelOk m l L) (hL' : LevelOk m (l + 1) L') (hB : BlocksOk m l L')
    {G' : (p : List Nat) → IsPartition (l + 1) p → Nat → Wd (l + 1) p → Wd (l + 1) p → ℝ} {V : List MPart}
    (hV : VecOk m (l + 1) N G' V) (hi : IrrOk m (l + 1) V) :
    ∃ v, L.downtransform ap L' V = some v ∧ IrrOk m l v ∧ VecOk m l (N * (l + 1)) (downG l G') v := by
  have hN := vecN_eq (by omega) (by omega) hV
  -- the twist
  obtain ⟨VV, hw1, hw2, hw3⟩ := mapM_exists (fun q : MPart => twistDown ap l N (q.broadcast (l + 1))) V
    (fun i _ P' => ∀ (p : List Nat) (hp : IsPartition (l + 1) p), (PL m (l + 1))[i]? = some p →
      mkIrrep p = some P'.irrep ∧ Holds' m (N * (l + 1))
        (fun s u w => ∑ x, rho hp (slicePerm l (s % (l + 1)))⁻¹ u x * G' p hp (s / (l + 1)) x w) P') (by
    intro i P hiP
    have hi' : i < (PL m (l + 1)).length := by
      rw [← hV.len]
      exact (List.getElem?_eq_some_iff.1 hiP).1
    have hip : (PL m (l + 1))[i]? = some (PL m (l + 1))[i] := List.getElem?_eq_getElem hi'
    obtain ⟨hp, hrow⟩ := (mem_PL (by omega) _).1 (List.getElem_mem hi')
    obtain ⟨P1, a1, a2⟩ := hV.part i _ hp hip
    obtain rfl : P1 = P := Option.some.inj (a1.symm.trans hiP)
    have hmk := hi i _ P1 hip a1
    obtain ⟨R, hR, hlam, hrep⟩ := exists_repr (by omega) hp
    have hRe : P1.irrep = R := Option.some.inj (hmk.symm.trans hR)
    have hbr : Holds' m (N * (l + 1)) (fun s u w => G' _ hp (s / (l + 1)) u w) (P1.broadcast (l + 1)) := by
      refine ⟨by rw [MPart.broadcast, a2.N_eq], a2.d_eq, a2.m_eq, fun u w hw s hs => ?_⟩
      exact a2.data u w hw (s / (l + 1)) (Nat.div_lt_of_lt_mul (by rw [Nat.mul_comm]; exact hs))
    obtain ⟨P2, b1, b2, b3⟩ := twistDown_eq hap hrep hrow hbr hRe
    refine ⟨P2, b1, fun p hp' hip' => ?_⟩
    obtain rfl := Option.some.inj (hip.symm.trans hip')
    exact ⟨by rw [b2]; exact hR, b3⟩)
  have hlen : L'.parts.length = (PL m (l + 1)).length := by rw [← hL'.keys, List.length_map]
  have hlen0 : L.parts.length = (PL m l).length := by rw [← hL.keys, List.length_map]
  have hR0 : VecOk m l (N * (l + 1)) (fun _ _ _ _ _ => 0) (L.parts.map fun p => MPart.zero (N * (l + 1)) p.irrep p.m) := by
    refine ⟨by rw [List.length_map, hlen0], fun i q hq hi' => ?_⟩
    rw [← hL.keys, List.getElem?_map] at hi'
    obtain ⟨p, hp, rfl⟩ := Option.map_eq_some_iff.1 hi'
    obtain ⟨-, hmk, hd, hcol⟩ := hL.part i p hp
    exact ⟨_, by rw [List.getElem?_map, hp]; rfl, rfl, irrep_d hl hq hmk, hcol, fun u w hw s hs => rfl⟩
  have hI0 : IrrOk m l (L.parts.map fun p => MPart.zero (N * (l + 1)) p.irrep p.m) := by
    intro i q M h1 h2
    rw [← hL.keys, List.getElem?_map] at h1
    obtain ⟨p, hp, rfl⟩ := Option.map_eq_some_iff.1 h1
    rw [List.getElem?_map, hp] at h2
    obtain rfl := Option.some.inj h2
    exact (hL.part i p hp).2.1
  obtain ⟨v, k1, k2, k3⟩ := unpartLoop_eq hm hl (H := fun p hp s u w => ∑ x, rho hp (slicePerm l (s % (l + 1)))⁻¹ u x *
      G' p hp (s / (l + 1)) x w) L'.parts VV (by rw [hw2, hV.len, hlen])
    (fun p hp => ⟨hB p hp, (hL'.mem (by omega) hp).1⟩)
    (fun i p hp P h1 h2 => by
      have hk : (PL m (l + 1))[i]? = some p.irrep.lambda := by
        rw [← hL'.keys, List.getElem?_map, h1]; rfl
      obtain ⟨P1, a1, a2⟩ := hV.part i _ hp hk
      obtain ⟨y, hy, h3⟩ := hw3 i P1 a1
      obtain rfl : y = P := Option.some.inj (hy.symm.trans h2)
      exact ⟨(h3 _ hp hk).2, (h3 _ hp hk).1⟩) hR0 hI0
  refine ⟨v, ?_, k2, k3.len, fun i q hq hi' => ?_⟩
  · unfold LevelT.downtransform
    rw [hN, hL.n_eq]
    simp only [Option.bind_eq_bind, Option.bind_some]
    rw [hw1]
    exact k1
  · obtain ⟨P0, c1, c2⟩ := k3.part i q hq hi'
    refine ⟨P0, c1, c2.N_eq, c2.d_eq, c2.m_eq, fun u w hw s hs => ?_⟩
    rw [c2.data u w hw s hs, hL'.keys, sum_PL (by omega), zero_add]
    unfold downG
    refine Finset.sum_congr rfl fun p _ => ?_
    have hqm : m ≤ row q 0 := ((mem_PL hl q).1 (List.mem_of_getElem? hi')).2
    rw [contrib, dif_pos p.2]
    by_cases hb : AddsBox q p.1
    · have hrow : m ≤ row p.1 0 := by
        obtain ⟨r, hb⟩ := hb
        have := hb 0
        split_ifs at this <;> omega
      rw [if_pos hrow, if_pos ((mem_subsM p.2 q).2 ⟨⟨hq, hb⟩, hqm⟩)]
    · rw [blk_none p.2 hq hb]
      simp
end Snob
