import Verif.Proofs.LetterProg
import Verif.Spec.VecInner

/-! # Inner products of vectors, restriction and induction (C139) -/

namespace Snob

open SnVec Weights Props

/-- the inner product of two lists of entries -/
noncomputable def cd (c c' : List ℝ) : ℝ := (List.zipWith (· * ·) c c').sum

/-- the inner product of two lists of columns -/
noncomputable def cdot (A B : List (List ℝ)) : ℝ := (List.zipWith cd A B).sum

theorem zip_flat_sum {ι α : Type} (f : α → α → ℝ) (K : List ι) (g g' : ι → List α) (h : ∀ x ∈ K, (g x).length = (g' x).length) :
    (List.zipWith f (K.flatMap g) (K.flatMap g')).sum = (K.map fun x => (List.zipWith f (g x) (g' x)).sum).sum := by
  induction K with
  | nil => simp
  | cons x K ih =>
    rw [List.flatMap_cons, List.flatMap_cons, List.zipWith_append (h x (by simp)), List.sum_append, ih fun y hy => h y (by simp [hy]), List.map_cons,
      List.sum_cons]

theorem cdot_range (m : Nat) (a b : Nat → List ℝ) : cdot ((List.range m).map a) ((List.range m).map b) = ∑ j ∈ Finset.range m, cd (a j) (b j) := by
  unfold cdot
  rw [List.zipWith_map, List.zipWith_self, list_range_sum]

theorem cd_range (d : Nat) (a b : Nat → ℝ) : cd ((List.range d).map a) ((List.range d).map b) = ∑ i ∈ Finset.range d, a i * b i := by
  unfold cd
  rw [List.zipWith_map, List.zipWith_self, list_range_sum]

theorem cdot_cols {P Q : VPart} (hd : P.d = Q.d) (hm : P.m = Q.m) :
    cdot P.cols Q.cols = ∑ i ∈ Finset.range P.d, ∑ j ∈ Finset.range P.m, P.data i j * Q.data i j := by
  unfold VPart.cols
  rw [← hd, ← hm, cdot_range, Finset.sum_comm]
  exact Finset.sum_congr rfl fun j _ => cd_range _ _ _

theorem slices_cd {S : List (List Nat)} (hS : S.Nodup) {c c' : List ℝ} (h : c.length = (S.map dimOf).sum) (h' : c'.length = (S.map dimOf).sum) :
    (S.map fun mu => cd (slice S mu c) (slice S mu c')).sum = cd c c' := by
  conv_rhs => rw [← slices_join hS c h, ← slices_join hS c' h']
  unfold cd
  rw [zip_flat_sum]
  intro mu _
  unfold slice
  rw [List.length_take, List.length_take, List.length_drop, List.length_drop, h, h']

theorem slices_cdot {S : List (List Nat)} (hS : S.Nodup) {P Q : VPart} (hd : P.d = Q.d) (hm : P.m = Q.m) (h : P.d = (S.map dimOf).sum) :
    (S.map fun mu => cdot (P.cols.map (slice S mu)) (Q.cols.map (slice S mu))).sum = cdot P.cols Q.cols := by
  unfold VPart.cols
  simp only [List.map_map, ← hm]
  simp only [cdot_range]
  rw [← List.sum_toFinset _ hS, Finset.sum_comm]
  refine Finset.sum_congr rfl fun j _ => ?_
  rw [List.sum_toFinset _ hS]
  exact slices_cd hS (by simp [h]) (by simp [← hd, h])

section
variable {n : Nat}

theorem dot_cols {v w : SnVec} (hv : Ok n v) (hw : Ok n w) (st : SameType v w) :
    dot v w = ((vkeys v).map fun x => cdot (colsL x v) (colsL x w)).sum := by
  have hk := sameType_keys st
  rw [dot_eq hv hw hk]
  congr 1
  refine List.map_congr_left fun x hx => ?_
  have hx' : x ∈ vkeys w := hk ▸ hx
  rw [← partAt_cols hv hx, ← partAt_cols hw hx', cdot_cols (by rw [partAt_d hv hx, partAt_d hw hx']) (sameType_m hv hw st hx), partAt_d hv hx]

/-- inner products depend on what is seen of the vectors only -/
theorem dot_congr {v w v' w' : SnVec} (hv : Ok n v) (hw : Ok n w) (hv' : Ok n v') (hw' : Ok n w') (st : SameType v w) (h1 : obs v = obs v')
    (h2 : obs w = obs w') : dot v w = dot v' w' := by
  have s1 : SameType v v' := same_of_obs (by rw [h1])
  have s2 : SameType w w' := same_of_obs (by rw [h2])
  rw [dot_cols hv hw st, dot_cols hv' hw' (Eq.trans (Eq.symm s1) (Eq.trans st s2)), sameType_keys s1]
  simp only [colsL_obs, h1, h2]

theorem resCols_keys {v : SnVec} (hv : Ok n v) (mu : List Nat) :
    resCols mu v = (vkeys v).flatMap fun x => if mu ∈ subs x then (partAt v x).cols.map (slice (subs x) mu) else [] := by
  unfold resCols vkeys
  rw [List.flatMap_map]
  exact List.flatMap_congr fun P hP => by rw [partAt_of_mem hv.nodup hP]

theorem dot_down (hn : 1 ≤ n) {v v' w w' : SnVec} {ws ws' : List SnVec} (hv : Ok (n + 1) v) (hv' : Ok (n + 1) v') (st : SameType v v')
    (h1 : v.mapM SnVec.downB = some ws) (h2 : SnVec.cat ws = some w) (h1' : v'.mapM SnVec.downB = some ws') (h2' : SnVec.cat ws' = some w') :
    dot w w' = dot v v' := by
  obtain ⟨ws0, w0, a1, a2, a3, a4, a5, a6⟩ := restrict_ok hn hv
  obtain rfl := Option.some.inj (h1.symm.trans a1)
  obtain rfl := Option.some.inj (h2.symm.trans a2)
  obtain ⟨ws0, w0, b1, b2, b3, b4, b5, b6⟩ := restrict_ok hn hv'
  obtain rfl := Option.some.inj (h1'.symm.trans b1)
  obtain rfl := Option.some.inj (h2'.symm.trans b2)
  have sw : SameType w w' := same_of_types (Option.some.inj (a6.symm.trans ((congrArg SnType.down (types_of_same st)).trans b6)))
  have hk := sameType_keys st
  rw [dot_cols a3 b3 sw, dot_eq hv hv' hk]
  have step : ∀ mu, cdot (colsL mu w) (colsL mu w') = ((vkeys v).map fun x => if mu ∈ subs x then
      cdot ((partAt v x).cols.map (slice (subs x) mu)) ((partAt v' x).cols.map (slice (subs x) mu)) else 0).sum := by
    intro mu
    rw [a4, b4, resCols_keys hv, resCols_keys hv', ← hk]
    unfold cdot
    rw [zip_flat_sum]
    · congr 1
      refine List.map_congr_left fun x _ => ?_
      split_ifs <;> simp
    · intro x hx
      split_ifs
      · simp [VPart.cols, sameType_m hv hv' st hx]
      · rfl
  simp only [step]
  rw [← List.sum_toFinset _ (show (vkeys w).Nodup from a3.nodup), ← List.sum_toFinset _ (show (vkeys v).Nodup from hv.nodup)]
  simp only [← List.sum_toFinset _ (show (vkeys v).Nodup from hv.nodup)]
  rw [Finset.sum_comm]
  refine Finset.sum_congr rfl fun x hx => ?_
  rw [List.mem_toFinset] at hx
  have hx' : x ∈ vkeys v' := hk ▸ hx
  have hp := vkeys_part hv hx
  have d1 := partAt_d hv hx
  have d2 := partAt_d hv' hx'
  have key := cdot_cols (d1.trans d2.symm) (sameType_m hv hv' st hx)
  rw [d1] at key
  rw [← key, ← slices_cdot (subs_nodup x) (d1.trans d2.symm) (sameType_m hv hv' st hx) (d1.trans (dimOf_subs hn hp)), ← Finset.sum_filter,
    ← List.sum_toFinset _ (subs_nodup x)]
  refine Finset.sum_congr ?_ fun _ _ => rfl
  ext mu
  rw [Finset.mem_filter, List.mem_toFinset, List.mem_toFinset]
  refine ⟨fun h => h.2, fun h => ⟨?_, h⟩⟩
  obtain ⟨P, hP, rfl⟩ := List.mem_map.1 hx
  exact (a5 mu).2 ⟨P, hP, h⟩

/-! ## Combinations are seen by inner products -/

theorem comb_of {s : ℝ} {u v w : SnVec} (hu : Ok n u) (hv : Ok n v) (hw : Ok n w) (s1 : SameType u v) (s2 : SameType u w)
    (h : ∀ x ∈ vkeys u, ∀ i < dimOf x, ∀ j < (partAt u x).m, (partAt u x).data i j = s * (partAt v x).data i j + (partAt w x).data i j) :
    IsComb s u v w := by
  refine ⟨s1, s2, fun k P Q R hP hQ hR => ?_⟩
  have mP := List.mem_of_getElem? hP
  have gt : ∀ {z : SnVec} {A : VPart}, Ok n z → vkeys u = vkeys z → z[k]? = some A → partAt z P.irrep.lambda = A := by
    intro z A hz hk hA
    have e : (vkeys u)[k]? = (vkeys z)[k]? := by rw [hk]
    unfold vkeys at e
    rw [List.getElem?_map, List.getElem?_map, hP, hA] at e
    rw [show P.irrep.lambda = A.irrep.lambda from Option.some.inj e]
    exact partAt_of_mem hz.nodup (List.mem_of_getElem? hA)
  have := h P.irrep.lambda (List.mem_map_of_mem mP)
  rw [gt hu rfl hP, gt hv (sameType_keys s1) hQ, gt hw (sameType_keys s2) hR, ← part_d hu mP] at this
  exact this

theorem dot_comb {s : ℝ} {u v w x : SnVec} (hu : Ok n u) (hv : Ok n v) (hw : Ok n w) (hx : Ok n x) (h : IsComb s u v w) (st : SameType u x) :
    dot u x = s * dot v x + dot w x := by
  have k1 := sameType_keys h.1
  have k2 := sameType_keys h.2.1
  have k3 := sameType_keys st
  rw [dot_eq hu hx k3, dot_eq hv hx (k1 ▸ k3), dot_eq hw hx (k2 ▸ k3), ← k1, ← k2, ← List.sum_map_mul_left, ← List.sum_map_add]
  congr 1
  refine List.map_congr_left fun z hz => ?_
  rw [← sameType_m hu hv h.1 hz, ← sameType_m hu hw h.2.1 hz, Finset.mul_sum, ← Finset.sum_add_distrib]
  refine Finset.sum_congr rfl fun i hi => ?_
  rw [Finset.mul_sum, ← Finset.sum_add_distrib]
  refine Finset.sum_congr rfl fun j hj => ?_
  rw [comb_at hu hv hw h hz i (Finset.mem_range.1 hi) j (Finset.mem_range.1 hj)]
  ring

/-- every entry is an inner product -/
theorem exists_unit (hn : 1 ≤ n) {u : SnVec} (hu : Ok n u) {z : List Nat} (hz : z ∈ vkeys u) {i j : Nat} (hi : i < dimOf z) (hj : j < (partAt u z).m) :
    ∃ e, Ok n e ∧ SameType u e ∧ ∀ v, Ok n v → SameType u v → dot v e = (partAt v z).data i j := by
  obtain ⟨a1, a2, a3⟩ := partAt_mkV hn (fun x hx => vkeys_part hu hx) (vkeys_sorted hu) (fun x => (partAt u x).m)
    fun x k l => if x = z ∧ k = i ∧ l = j then 1 else 0
  refine ⟨_, a1, sameType_of hu a1 a2.symm fun x hx => by rw [a3 x hx]; rfl, fun v hv st => ?_⟩
  have hk := sameType_keys st
  rw [dot_eq hv a1 (by rw [a2, hk]), ← List.sum_toFinset _ (show (vkeys v).Nodup from hv.nodup), Finset.sum_eq_single z, Finset.sum_eq_single i,
    Finset.sum_eq_single j]
  · rw [a3 z hz]
    simp [mkP]
  · intro l _ hl
    rw [a3 z hz]
    simp [mkP, hl]
  · intro h
    rw [Finset.mem_range, ← sameType_m hu hv st hz] at h
    exact absurd hj h
  · intro k _ hk
    rw [a3 z hz]
    simp [mkP, hk]
  · intro h
    rw [Finset.mem_range] at h
    exact absurd hi h
  · intro x hx hxz
    rw [List.mem_toFinset, ← hk] at hx
    rw [a3 x hx]
    simp [mkP, hxz]
  · intro h
    rw [List.mem_toFinset, ← hk] at h
    exact absurd hz h

theorem comb_of_dot (hn : 1 ≤ n) {s : ℝ} {u v w : SnVec} (hu : Ok n u) (hv : Ok n v) (hw : Ok n w) (s1 : SameType u v) (s2 : SameType u w)
    (h : ∀ x, Ok n x → SameType u x → dot u x = s * dot v x + dot w x) : IsComb s u v w := by
  refine comb_of hu hv hw s1 s2 fun z hz i hi j hj => ?_
  obtain ⟨e, e1, e2, e3⟩ := exists_unit hn hu hz hi hj
  have := h e e1 e2
  rwa [e3 u hu rfl, e3 v hv s1, e3 w hw s2] at this

end

end Snob
