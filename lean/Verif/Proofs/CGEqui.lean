import Verif.Proofs.CGNorm

/-! # Products of vectors and the action of the group -/

namespace Snob

open Matrix IP SnVec

/-- the entry of a column -/
theorem cols_get (P : VPart) {i j : Nat} (hi : i < P.d) (hj : j < P.m) : (P.cols.getD j []).getD i 0 = P.data i j := by
  unfold VPart.cols
  simp [List.getD_eq_getElem?_getD, hi, hj]

theorem obs_data {n : Nat} {v w : SnVec} (hv : Ok n v) (hw : Ok n w) (hk : vkeys v = vkeys w) :
    obs v = obs w ↔ ∀ p ∈ vkeys v, (partAt v p).m = (partAt w p).m ∧
      ∀ i < dimOf p, ∀ j < (partAt v p).m, (partAt v p).data i j = (partAt w p).data i j := by
  have e : ∀ {v : SnVec}, Ok n v → obs v = (vkeys v).map fun p => (p, (partAt v p).cols) := by
    intro v hv
    rw [obs_eq_colsL hv]
    exact List.map_congr_left fun p hp => by rw [partAt_cols hv hp]
  have hd : ∀ {v : SnVec}, Ok n v → ∀ p ∈ vkeys v, (partAt v p).d = dimOf p := by
    intro v hv p hp
    obtain ⟨-, -, -, -, h1, h2⟩ := index_partAt hv hp
    rw [part_d hv h1, h2]
  rw [e hv, e hw, ← hk, List.map_inj_left]
  refine forall_congr' fun p => forall_congr' fun hp => ?_
  have d1 := hd hv p hp
  have d2 := hd hw p (hk ▸ hp)
  constructor
  · intro h
    have h := (Prod.mk.inj h).2
    have hm : (partAt v p).m = (partAt w p).m := by
      have := congrArg List.length h
      simpa [VPart.cols] using this
    refine ⟨hm, fun i hi j hj => ?_⟩
    rw [← cols_get _ (by rw [d1]; exact hi) hj, h, cols_get _ (by rw [d2]; exact hi) (by rw [← hm]; exact hj)]
  · rintro ⟨hm, h⟩
    rw [Prod.mk.injEq]
    refine ⟨rfl, ?_⟩
    unfold VPart.cols
    rw [d1, d2, ← hm]
    refine List.map_congr_left fun j hj => List.map_congr_left fun i hi => ?_
    exact h i (List.mem_range.1 hi) j (List.mem_range.1 hj)

/-- the entries of the image -/
theorem apply_data {n : Nat} (hn : 1 ≤ n) (σ : Equiv.Perm (Fin n)) {v : SnVec} (hv : Ok n v) :
    ∃ w, v.apply (enc σ) = some w ∧ Ok n w ∧ vkeys w = vkeys v ∧ ∀ p ∈ vkeys v, (partAt w p).m = (partAt v p).m ∧
      ∀ i < dimOf p, ∀ j < (partAt v p).m,
        (partAt w p).data i j = ∑ k ∈ Finset.range (dimOf p), evalN p (enc σ) i k * (partAt v p).data k j := by
  obtain ⟨w, h1, h2, -, h4, -, h6⟩ := vecApply_ok hn σ v hv
  refine ⟨w, h1, h2, h4, fun p hp => ?_⟩
  have hd : ∀ {v : SnVec}, Ok n v → p ∈ vkeys v → (partAt v p).d = dimOf p := by
    intro v hv hp
    obtain ⟨-, -, -, -, h1, h2⟩ := index_partAt hv hp
    rw [part_d hv h1, h2]
  have hp' : p ∈ vkeys w := by rw [show vkeys w = vkeys v from h4]; exact hp
  have h7 := h6 p
  rw [← partAt_cols hv hp, ← partAt_cols h2 hp'] at h7
  have hm : (partAt w p).m = (partAt v p).m := by
    have := congrArg List.length h7
    simpa [VPart.cols] using this
  refine ⟨hm, fun i hi j hj => ?_⟩
  have hc : (partAt w p).cols.getD j [] = mulCol (dimOf p) (evalN p (enc σ)) ((partAt v p).cols.getD j []) := by
    have hj' : j < (partAt v p).cols.length := by simpa [VPart.cols] using hj
    rw [h7, List.getD_eq_getElem?_getD, List.getD_eq_getElem?_getD, List.getElem?_map, List.getElem?_eq_getElem hj']
    rfl
  rw [← cols_get _ (by rw [hd h2 hp']; exact hi) (by rw [hm]; exact hj), hc]
  unfold mulCol
  rw [List.getD_eq_getElem?_getD, List.getElem?_map, List.getElem?_range hi]
  simp only [Option.map_some, Option.getD_some]
  rw [list_sum_range, Finset.sum_range]
  exact Finset.sum_congr rfl fun k _ => by rw [cols_get _ (by rw [hd hv hp]; exact k.2) hj]

/-- what the coefficients have to satisfy -/
def EquiPhi (n : Nat) (Φ : Coef) : Prop := ∀ a b p, IsPartition n a → IsPartition n b → IsPartition n p → ∀ c < kronN n a b p, ∀ r < dimOf p,
  ∀ (σ : Equiv.Perm (Fin n)) (x : XI a b), ∑ y, pm n a b σ y x * Φ a b p r c (fstIx y) (sndIx y) =
    ∑ s ∈ Finset.range (dimOf p), evalN p (enc σ) r s * Φ a b p s c (fstIx x) (sndIx x)

theorem prodVal_act {n : Nat} {Φ : Coef} {a b p : List Nat} {c r : Nat} (σ : Equiv.Perm (Fin n)) (f g f' g' : Nat → ℝ)
    (hf : ∀ i < dimOf a, f' i = ∑ k ∈ Finset.range (dimOf a), evalN a (enc σ) i k * f k)
    (hg : ∀ i < dimOf b, g' i = ∑ k ∈ Finset.range (dimOf b), evalN b (enc σ) i k * g k) :
    prodVal Φ a b p r c f' g' = ∑ x : XI a b, (∑ y, pm n a b σ y x * Φ a b p r c (fstIx y) (sndIx y)) *
      (f (fstIx (a := (irrOf a).d) (b := (irrOf b).d) x) * g (sndIx (a := (irrOf a).d) (b := (irrOf b).d) x)) := by
  unfold prodVal
  simp only [Finset.sum_mul]
  rw [Finset.sum_comm]
  refine Finset.sum_congr rfl fun y _ => ?_
  rw [hf _ (fstIx (a := (irrOf a).d) (b := (irrOf b).d) y).2, hg _ (sndIx (a := (irrOf a).d) (b := (irrOf b).d) y).2, Finset.sum_mul_sum,
    ← sum_XI (a := a) (b := b) (fun i j => evalN a (enc σ) (fstIx (a := (irrOf a).d) (b := (irrOf b).d) y) i * f i *
      (evalN b (enc σ) (sndIx (a := (irrOf a).d) (b := (irrOf b).d) y) j * g j)), Finset.mul_sum]
  refine Finset.sum_congr rfl fun x _ => ?_
  unfold pm
  ring

section
variable {n : Nat} {Φ : Coef} {acc : SnVec → SnType → VPart → VPart → Option (SnVec × SnType)}

theorem equi_of (hn : 1 ≤ n) (hacc : AccSpec n Φ acc) (hΦ : EquiPhi n Φ) {x y : SnVec} (hx : Ok n x) (hy : Ok n y) (mx : ∀ P ∈ x, P.m = 1)
    (my : ∀ P ∈ y, P.m = 1) (σ : Equiv.Perm (Fin n)) :
    ∃ x' y' R R' S, x.apply (enc σ) = some x' ∧ y.apply (enc σ) = some y' ∧ cgVecWith acc x y = some R ∧ R.apply (enc σ) = some R' ∧
      cgVecWith acc x' y' = some S ∧ obs S = obs R' := by
  obtain ⟨x', x1, x2, x3, x4⟩ := apply_data hn σ hx
  obtain ⟨y', y1, y2, y3, y4⟩ := apply_data hn σ hy
  have mx' : ∀ P ∈ x', P.m = 1 := fun P hP => by
    have hk : P.irrep.lambda ∈ vkeys x' := List.mem_map.2 ⟨P, hP, rfl⟩
    rw [← partAt_of_mem x2.nodup hP, (x4 _ (x3 ▸ hk)).1, partAt_m hx mx (x3 ▸ hk)]
  have my' : ∀ P ∈ y', P.m = 1 := fun P hP => by
    have hk : P.irrep.lambda ∈ vkeys y' := List.mem_map.2 ⟨P, hP, rfl⟩
    rw [← partAt_of_mem y2.nodup hP, (y4 _ (y3 ▸ hk)).1, partAt_m hy my (y3 ▸ hk)]
  obtain ⟨R, r1, r2, r3, r4, r5⟩ := vec_ok' hn hacc hx hy mx my
  obtain ⟨S, s1, s2, s3, s4, s5⟩ := vec_ok' hn hacc x2 y2 mx' my'
  obtain ⟨R', t1, t2, t3, t4⟩ := apply_data hn σ r2
  rw [x3, y3] at s3 s4 s5
  have hk : vkeys S = vkeys R := by
    refine ((List.perm_ext_iff_of_nodup s2.nodup r2.nodup).2 fun p => ?_).eq_of_pairwise (fun _ _ _ _ h1 h2 => absurd h2 (lexGreater_asymm h1)) s2.sorted r2.sorted
    exact (s3 p).trans (r3 p).symm
  refine ⟨x', y', R, R', S, x1, y1, r1, t1, s1, (obs_data s2 t2 (by rw [t3, hk])).2 fun p hp => ?_⟩
  have hpR : p ∈ vkeys R := hk ▸ hp
  refine ⟨by rw [s4 p hp, (t4 p hpR).1, r4 p hpR], fun i hi c hc => ?_⟩
  rw [s4 p hp] at hc
  rw [s5 p hp i hi c hc, (t4 p hpR).2 i hi c (by rw [r4 p hpR]; exact hc),
    Finset.sum_congr rfl fun k hk => by rw [r5 p hpR k (Finset.mem_range.1 hk) c hc]]
  have hl := loc_mem hc
  generalize loc n (prs (vkeys x) (vkeys y)) p c = l at hl ⊢
  obtain ⟨⟨a, b⟩, d⟩ := l
  obtain ⟨ha, hb⟩ := mem_prs.1 hl.1
  dsimp only at *
  rw [prodVal_act σ ((partAt x a).data · 0) ((partAt y b).data · 0)]
  · simp only [hΦ a b p (vkeys_part hx ha) (vkeys_part hy hb) (vkeys_part s2 hp) d hl.2 i hi σ]
    unfold prodVal
    simp only [Finset.sum_mul, Finset.mul_sum]
    rw [Finset.sum_comm]
    exact Finset.sum_congr rfl fun s _ => Finset.sum_congr rfl fun z _ => by ring
  · exact fun k hk => (x4 a ha).2 k hk 0 (by rw [partAt_m hx mx ha]; omega)
  · exact fun k hk => (y4 b hb).2 k hk 0 (by rw [partAt_m hy my hb]; omega)

/-- the part of a vector with one part -/
theorem partAt_single (hn : 1 ≤ n) {a : List Nat} (ha : IsPartition n a) (m : Nat) (f : Nat → Nat → ℝ) :
    Ok n [mkP a m f] ∧ vkeys [mkP a m f] = [a] ∧ partAt [mkP a m f] a = mkP a m f := by
  have h1 : Ok n [mkP a m f] := ok_map hn (L := [a]) (by simpa using ha) (List.pairwise_singleton _ _) (fun _ => m) fun _ => f
  have h2 : (mkP a m f).irrep.lambda = a := (irrOf_spec hn ha).2.1
  refine ⟨h1, by simp [vkeys, h2], ?_⟩
  have := partAt_of_mem h1.nodup (P := mkP a m f) (by simp)
  rwa [h2] at this

theorem loc_pair {a b p : List Nat} {c : Nat} (hc : c < kronN n a b p) : loc n [(a, b)] p c = ((a, b), c) := by
  unfold loc
  rw [if_pos hc]

/-- the converse: it is enough to look at products of two parts -/
theorem equi_phi (hn : 1 ≤ n) (hacc : AccSpec n Φ acc)
    (h : ∀ (P Q : VPart) (σ : Equiv.Perm (Fin n)), Ok n [P] → Ok n [Q] → P.m = 1 → Q.m = 1 → ∀ x' y' R R' S, SnVec.apply [P] (enc σ) = some x' →
      SnVec.apply [Q] (enc σ) = some y' → cgVecWith acc [P] [Q] = some R → R.apply (enc σ) = some R' → cgVecWith acc x' y' = some S → obs S = obs R') :
    EquiPhi n Φ := by
  intro a b p ha hb hp c hc r hr σ z
  obtain ⟨hx, kx, px⟩ := partAt_single hn ha 1 fun i _ => if i = (fstIx (a := (irrOf a).d) (b := (irrOf b).d) z : Nat) then (1 : ℝ) else 0
  obtain ⟨hy, ky, py⟩ := partAt_single hn hb 1 fun i _ => if i = (sndIx (a := (irrOf a).d) (b := (irrOf b).d) z : Nat) then (1 : ℝ) else 0
  have h := h _ _ σ hx hy rfl rfl
  set x : SnVec := [mkP a 1 fun i _ => if i = (fstIx (a := (irrOf a).d) (b := (irrOf b).d) z : Nat) then (1 : ℝ) else 0]
  set y : SnVec := [mkP b 1 fun i _ => if i = (sndIx (a := (irrOf a).d) (b := (irrOf b).d) z : Nat) then (1 : ℝ) else 0]
  have mx : ∀ P ∈ x, P.m = 1 := by intro P hP; rw [List.mem_singleton.1 hP]; rfl
  have my : ∀ P ∈ y, P.m = 1 := by intro P hP; rw [List.mem_singleton.1 hP]; rfl
  obtain ⟨x', x1, x2, x3, x4⟩ := apply_data hn σ hx
  obtain ⟨y', y1, y2, y3, y4⟩ := apply_data hn σ hy
  have mx' : ∀ P ∈ x', P.m = 1 := fun P hP => by
    have hk : P.irrep.lambda ∈ vkeys x' := List.mem_map.2 ⟨P, hP, rfl⟩
    rw [← partAt_of_mem x2.nodup hP, (x4 _ (x3 ▸ hk)).1, partAt_m hx mx (x3 ▸ hk)]
  have my' : ∀ P ∈ y', P.m = 1 := fun P hP => by
    have hk : P.irrep.lambda ∈ vkeys y' := List.mem_map.2 ⟨P, hP, rfl⟩
    rw [← partAt_of_mem y2.nodup hP, (y4 _ (y3 ▸ hk)).1, partAt_m hy my (y3 ▸ hk)]
  obtain ⟨R, r1, r2, r3, r4, r5⟩ := vec_ok' hn hacc hx hy mx my
  obtain ⟨S, s1, s2, s3, s4, s5⟩ := vec_ok' hn hacc x2 y2 mx' my'
  obtain ⟨R', t1, t2, t3, t4⟩ := apply_data hn σ r2
  rw [x3, y3] at s3 s4 s5
  have hpr : prs (vkeys x) (vkeys y) = [(a, b)] := by rw [kx, ky]; rfl
  rw [hpr] at s3 s4 s5 r3 r4 r5
  have ht : tot n [(a, b)] p = kronN n a b p := by simp [tot]
  have hk : vkeys S = vkeys R := by
    refine ((List.perm_ext_iff_of_nodup s2.nodup r2.nodup).2 fun p => ?_).eq_of_pairwise (fun _ _ _ _ h1 h2 => absurd h2 (lexGreater_asymm h1)) s2.sorted r2.sorted
    exact (s3 p).trans (r3 p).symm
  have hpS : p ∈ vkeys S := (s3 p).2 ⟨hp, by rw [ht]; omega⟩
  have hpR : p ∈ vkeys R := hk ▸ hpS
  have h1 := ((obs_data s2 t2 (by rw [t3, hk])).1 (h x' y' R R' S x1 y1 r1 t1 s1) p hpS).2 r hr c (by rw [s4 p hpS, ht]; exact hc)
  rw [s5 p hpS r hr c (by rw [ht]; exact hc), (t4 p hpR).2 r hr c (by rw [r4 p hpR, ht]; exact hc),
    Finset.sum_congr rfl fun k hk => by rw [r5 p hpR k (Finset.mem_range.1 hk) c (by rw [ht]; exact hc)]] at h1
  rw [loc_pair hc] at h1
  dsimp only at h1
  rw [prodVal_act σ ((partAt x a).data · 0) ((partAt y b).data · 0) _ _ (fun k hk => (x4 a (by rw [kx]; simp)).2 k hk 0 (by rw [px]; exact Nat.one_pos))
    (fun k hk => (y4 b (by rw [ky]; simp)).2 k hk 0 (by rw [py]; exact Nat.one_pos))] at h1
  have e : ∀ w : XI a b, (partAt x a).data (fstIx (a := (irrOf a).d) (b := (irrOf b).d) w) 0 * (partAt y b).data (sndIx (a := (irrOf a).d) (b := (irrOf b).d) w) 0 =
      if w = z then 1 else 0 := by
    intro w
    rw [px, py]
    simp only [mkP]
    by_cases hw : w = z
    · subst hw; simp
    · rw [if_neg hw]
      by_cases h1 : (fstIx (a := (irrOf a).d) (b := (irrOf b).d) w : Nat) = fstIx (a := (irrOf a).d) (b := (irrOf b).d) z
      · rw [if_neg (c := (sndIx (a := (irrOf a).d) (b := (irrOf b).d) w : Nat) = _), mul_zero]
        intro h2
        exact hw ((fuseEquiv (irrOf a).d (irrOf b).d).injective (Prod.ext (Fin.ext h1) (Fin.ext h2)))
      · rw [if_neg h1, zero_mul]
  unfold prodVal at h1
  simp only [e, mul_ite, mul_one, mul_zero, Finset.sum_ite_eq', Finset.mem_univ, if_true] at h1
  exact h1

end

end Snob
