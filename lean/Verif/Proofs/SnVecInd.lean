import Verif.Proofs.SnVecRes
import Verif.Props.SnType

/-! Vectors: restriction undoes induction (C49). -/

namespace Snob

open SnVec (Ok obs typeOf mulCol)

theorem slice_join {S : List (List Nat)} (hnd : S.Nodup) (F : List Nat → List ℝ) (hF : ∀ nu ∈ S, (F nu).length = dimOf nu)
    {mu : List Nat} (hmu : mu ∈ S) : slice S mu (S.flatMap F) = F mu := by
  obtain ⟨S1, S2, e⟩ := List.append_of_mem hmu
  have h1 : mu ∉ S1 := by
    rw [e] at hnd
    exact fun h => (List.nodup_append.1 hnd).2.2 mu h mu (by simp) rfl
  unfold slice
  have hl : (S1.flatMap F).length = (S1.map dimOf).sum := by
    rw [List.length_flatMap]
    congr 1
    exact List.map_congr_left fun nu hnu => hF nu (by rw [e]; simp [hnu])
  rw [e, offOf_split h1, List.flatMap_append, ← hl, List.drop_left, List.flatMap_cons, ← hF mu hmu, List.take_left]

theorem join_length {S : List (List Nat)} (F : List Nat → List ℝ) (hF : ∀ nu ∈ S, (F nu).length = dimOf nu) :
    (S.flatMap F).length = (S.map dimOf).sum := by
  rw [List.length_flatMap]
  congr 1
  exact List.map_congr_left fun nu hnu => hF nu hnu

theorem getD_lt {α : Type} (l : List α) (d : α) {i : Nat} (h : i < l.length) : l.getD i d = l[i] := by
  rw [List.getD_eq_getElem?_getD, List.getElem?_eq_getElem h]; rfl

theorem take_blocks (C : List (List ℝ)) (M : List Nat → Nat) {L : List (List Nat)} (hnd : L.Nodup) (mu : List Nat)
    (hC : C.length = usedBy M L mu) (L1 L2 : List (List Nat)) (e : L = L1 ++ L2) :
    (L2.flatMap fun x => if mu ∈ subs x then (List.range (M x)).map fun j => C.getD (colOffs M L x mu + j) [] else []) =
      C.drop (usedBy M L1 mu) := by
  induction L2 generalizing L1 with
  | nil =>
    rw [List.append_nil] at e
    rw [List.flatMap_nil, List.drop_of_length_le (by rw [hC, e])]
  | cons x L2 ih =>
    have h1 : x ∉ L1 := by
      rw [e] at hnd
      exact fun h => (List.nodup_append.1 hnd).2.2 x h x (by simp) rfl
    have hoff : colOffs M L x mu = usedBy M L1 mu := by
      unfold colOffs; rw [e, takeWhile_split h1]
    rw [List.flatMap_cons, ih (L1 ++ [x]) (by simpa using e), usedBy_append, hoff]
    have hx : usedBy M [x] mu = if mu ∈ subs x then M x else 0 := by simp [usedBy]
    rw [hx]
    by_cases h : mu ∈ subs x
    · rw [if_pos h, if_pos h]
      have hle : usedBy M L1 mu + M x ≤ C.length := by
        rw [hC, e, usedBy_append]
        have : usedBy M (x :: L2) mu = M x + usedBy M L2 mu := by
          unfold usedBy; rw [List.map_cons, List.sum_cons, if_pos h]
        omega
      rw [← List.drop_drop]
      conv_rhs => rw [← List.take_append_drop (M x) (C.drop (usedBy M L1 mu))]
      congr 1
      apply List.ext_getElem
      · simp; omega
      · intro j h2 h3
        simp only [List.length_map, List.length_range] at h2
        simp only [List.getElem_map, List.getElem_range, List.getElem_take, List.getElem_drop]
        exact getD_lt _ _ _
    · rw [if_neg h, if_neg h]; simp

theorem usedBy_typeSum {n : Nat} {tau : SnType} (ht : TypeOk n tau) (hm : ∀ x ∈ parts tau, 0 ≤ mult tau x) (mu : List Nat) :
    (usedBy (fun x => (mult tau x).toNat) (parts tau) mu : Int) = typeSum (fun p => if mu ∈ subs p then 1 else 0) tau := by
  unfold typeSum usedBy
  conv_rhs => rw [ht.eq_map]
  rw [List.map_map, Nat.cast_list_sum, List.map_map]
  congr 1
  refine List.map_congr_left fun x hx => ?_
  have := hm x hx
  simp only [Function.comp]
  split_ifs <;> simp [this]

section
variable {n : Nat} (hn : 1 ≤ n) {v : SnVec} (hv : Ok n v) {tau : SnType} (ht : TypeOk (n + 1) tau)
  (hm : ∀ x ∈ parts tau, 0 ≤ mult tau x) (hd : SnType.down tau = some (typeOf (obs v)))

include ht hd in
theorem up_keys : ∀ y, y ∈ (v.map fun P => P.irrep.lambda) ↔ ∃ p ∈ parts tau, y ∈ subs p := by
  obtain ⟨D, a1, a2, a3, -⟩ := down_ok ht
  rw [hd] at a1
  obtain rfl := Option.some.inj a1
  intro y
  rw [← parts_typeOf, a3]

include hv ht hm hd in
theorem up_used (mu : List Nat) (hmu : mu ∈ v.map fun P => P.irrep.lambda) :
    usedBy (fun x => (mult tau x).toNat) (parts tau) mu = (partAt v mu).m := by
  obtain ⟨D, a1, a2, a3, a4, -⟩ := down_ok ht
  rw [hd] at a1
  obtain rfl := Option.some.inj a1
  obtain ⟨P, hP, rfl⟩ := List.mem_map.1 hmu
  have h1 := usedBy_typeSum ht hm P.irrep.lambda
  rw [← a4, mult_typeOf hv hP] at h1
  rw [partAt_of_mem hv.nodup hP]
  exact_mod_cast h1

/-- column `j` of the part of `x` -/
noncomputable def upCol (v : SnVec) (tau : SnType) (x : List Nat) (j : Nat) : List ℝ :=
  (subs x).flatMap fun mu => (partAt v mu).cols.getD (colOffs (fun x => (mult tau x).toNat) (parts tau) x mu + j) []

include hn hv ht hm hd in
theorem upType_ok : ∃ R, SnVec.up tau v = some R ∧ Ok (n + 1) R ∧
    obs R = (parts tau).map fun x => (x, (List.range (mult tau x).toNat).map (upCol v tau x)) :=
  up_ok hn hv ht hm (fun x hx mu hmu => (up_keys ht hd mu).2 ⟨x, hx, hmu⟩)
    fun x hx mu hmu => (up_used hv ht hm hd mu ((up_keys ht hd mu).2 ⟨x, hx, hmu⟩)).le

theorem colOffs_le (M : List Nat → Nat) {L : List (List Nat)} (hnd : L.Nodup) {x mu : List Nat} (hx : x ∈ L) (hmu : mu ∈ subs x) :
    colOffs M L x mu + M x ≤ usedBy M L mu := by
  obtain ⟨L1, L2, e⟩ := List.append_of_mem hx
  have h1 : x ∉ L1 := by
    rw [e] at hnd
    exact fun h => (List.nodup_append.1 hnd).2.2 x h x (by simp) rfl
  unfold colOffs
  rw [e, takeWhile_split h1, usedBy_append]
  have : usedBy M (x :: L2) mu = M x + usedBy M L2 mu := by
    unfold usedBy; rw [List.map_cons, List.sum_cons, if_pos hmu]
  omega

include hv ht hm hd in
theorem upCol_piece {x : List Nat} (hx : x ∈ parts tau) {j : Nat} (hj : j < (mult tau x).toNat) :
    ∀ mu ∈ subs x, ((partAt v mu).cols.getD (colOffs (fun x => (mult tau x).toNat) (parts tau) x mu + j) []).length = dimOf mu := by
  intro mu hmu
  have hk := (up_keys ht hd mu).2 ⟨x, hx, hmu⟩
  have h1 := up_used hv ht hm hd mu hk
  have h2 := colOffs_le (fun x => (mult tau x).toNat) ht.nodup hx hmu
  have hlt : colOffs (fun x => (mult tau x).toNat) (parts tau) x mu + j < (partAt v mu).cols.length := by
    rw [cols_length]; omega
  rw [getD_lt _ _ hlt, cols_mem_length (List.getElem_mem hlt)]
  obtain ⟨k, -, -, -, a4, a5⟩ := index_partAt hv hk
  have := part_d hv a4
  rw [a5] at this
  exact this

include hv ht hm hd in
theorem res_upCols {R : SnVec}
    (hR : obs R = (parts tau).map fun x => (x, (List.range (mult tau x).toNat).map (upCol v tau x))) (mu : List Nat) :
    resCols mu R = colsL mu v := by
  have h1 : resCols mu R = (obs R).flatMap fun e => if mu ∈ subs e.1 then e.2.map (slice (subs e.1) mu) else [] := by
    unfold resCols obs; rw [List.flatMap_map]
  rw [h1, hR, List.flatMap_map]
  by_cases hk : mu ∈ v.map fun P => P.irrep.lambda
  · rw [← partAt_cols hv hk]
    have h2 := take_blocks (partAt v mu).cols (fun x => (mult tau x).toNat) ht.nodup mu
      (by rw [cols_length, up_used hv ht hm hd mu hk]) [] (parts tau) rfl
    have h3 : usedBy (fun x => (mult tau x).toNat) [] mu = 0 := rfl
    rw [h3, List.drop_zero] at h2
    rw [← h2]
    refine List.flatMap_congr fun x hx => ?_
    simp only
    by_cases h : mu ∈ subs x
    · rw [if_pos h, if_pos h, List.map_map]
      refine List.map_congr_left fun j hj => ?_
      simp only [Function.comp, upCol]
      exact slice_join (subs_nodup x) _ (upCol_piece hv ht hm hd hx (List.mem_range.1 hj)) h
    · rw [if_neg h, if_neg h]
  · have h2 : colsL mu v = [] := by
      unfold colsL
      rw [List.flatMap_eq_nil_iff]
      intro P hP
      rw [if_neg]
      rintro rfl
      exact hk (List.mem_map.2 ⟨P, hP, rfl⟩)
    rw [h2, List.flatMap_eq_nil_iff]
    intro x hx
    simp only
    rw [if_neg]
    exact fun h => hk ((up_keys ht hd mu).2 ⟨x, hx, h⟩)

end

theorem obs_eq_colsL {n : Nat} {v : SnVec} (hv : Ok n v) :
    obs v = (v.map fun P => P.irrep.lambda).map fun x => (x, colsL x v) := by
  unfold obs
  rw [List.map_map]
  refine List.map_congr_left fun P hP => ?_
  simp only [Function.comp]
  rw [← partAt_cols hv (List.mem_map.2 ⟨P, hP, rfl⟩), partAt_of_mem hv.nodup hP]

/-- the restriction of a vector -/
theorem restrict_ok {n : Nat} (hn : 1 ≤ n) {v : SnVec} (hv : Ok (n + 1) v) :
    ∃ ws w, v.mapM SnVec.downB = some ws ∧ SnVec.cat ws = some w ∧ Ok n w ∧ (∀ mu, colsL mu w = resCols mu v) ∧
      (∀ mu, mu ∈ (w.map fun P => P.irrep.lambda) ↔ ∃ P ∈ v, mu ∈ subs P.irrep.lambda) ∧
      SnType.down (typeOf (obs v)) = some (typeOf (obs w)) := by
  obtain ⟨q, hq1, hq2⟩ := downs_ok hn hv
  obtain ⟨t, w, a1, a2, a3, a4, a5, a6, a7⟩ := cat_ok hn (v.map q) (by
    intro u hu
    obtain ⟨P, hP, rfl⟩ := List.mem_map.1 hu
    exact (hq2 P hP).2.1)
  have hcols : ∀ mu, colsL mu (v.map q).flatten = resCols mu v := by
    intro mu
    rw [colsL_flatten, List.flatMap_map]
    exact List.flatMap_congr fun P hP => colsL_down (hq2 P hP).2.2.2.1
  have hkeys : (w.map fun P => P.irrep.lambda) = parts t := by
    have : (w.map fun P => P.irrep.lambda) = (obs w).map Prod.fst := by unfold obs; rw [List.map_map]; rfl
    rw [this, a7, List.map_map]
    conv_rhs => rw [← List.map_id (parts t)]
    rfl
  have hmem : ∀ mu, mu ∈ parts t ↔ ∃ P ∈ v, mu ∈ subs P.irrep.lambda := by
    intro mu
    rw [a3, List.map_flatten, List.mem_flatten, List.map_map]
    constructor
    · rintro ⟨l, hl, h⟩
      obtain ⟨P, hP, rfl⟩ := List.mem_map.1 hl
      refine ⟨P, hP, ?_⟩
      simp only [Function.comp] at h
      rw [(hq2 P hP).2.2.1] at h
      exact h
    · rintro ⟨P, hP, h⟩
      refine ⟨_, List.mem_map.2 ⟨P, hP, rfl⟩, ?_⟩
      simp only [Function.comp]
      rw [(hq2 P hP).2.2.1]
      exact h
  refine ⟨v.map q, w, hq1, a5, a6, ?_, fun mu => by rw [hkeys, hmem], ?_⟩
  · intro mu
    by_cases hk : mu ∈ w.map fun P => P.irrep.lambda
    · rw [← hcols]
      have h1 := obs_eq_colsL a6
      rw [a7, hkeys] at h1
      have h2 := List.map_inj_left.1 h1 mu (by rw [← hkeys]; exact hk)
      exact (Prod.ext_iff.1 h2).2.symm
    · have h2 : colsL mu w = [] := by
        unfold colsL
        rw [List.flatMap_eq_nil_iff]
        intro P hP
        rw [if_neg]
        rintro rfl
        exact hk (List.mem_map.2 ⟨P, hP, rfl⟩)
      rw [h2]
      symm
      unfold resCols
      rw [List.flatMap_eq_nil_iff]
      intro P hP
      rw [if_neg]
      intro h
      exact hk (by rw [hkeys]; exact (hmem mu).2 ⟨P, hP, h⟩)
  · have h1 : typeOf (obs w) = t := by
      rw [a7]
      conv_rhs => rw [a2.eq_map]
      unfold typeOf
      rw [List.map_map]
      refine List.map_congr_left fun x _ => ?_
      simp only [Function.comp]
      rw [a4]
    rw [h1, ← a1]
    unfold SnType.down SnVec.catType
    rw [typeOf_obs]
    generalize ([] : SnType) = t0
    clear a1 a2 a3 a4 a5 a6 a7 hcols hkeys hmem h1 hq1
    induction v generalizing t0 with
    | nil => rfl
    | cons P v ih =>
      have hv' : Ok (n + 1) v := ⟨fun Q hQ => hv.part Q (by simp [hQ]), (List.pairwise_cons.1 hv.sorted).2⟩
      rw [List.map_cons, List.map_cons, List.foldlM_cons, SnType.downLoop]
      have hx := (hv.part P (by simp)).1
      obtain ⟨-, -, b1, -, b2⟩ := hq2 P (by simp)
      rw [parents_eq hx (by omega), addAllSubs_loop _ P.m (q P) b1 b2]
      simp only [Option.bind_eq_bind, Option.bind_some]
      exact congrArg _ (funext fun R => ih hv' (fun Q hQ => hq2 Q (by simp [hQ])) R)

theorem mult_typeOf' {n : Nat} {v : SnVec} (hv : Ok n v) (x : List Nat) : mult (typeOf (obs v)) x = (colsL x v).length := by
  by_cases h : x ∈ v.map fun P => P.irrep.lambda
  · rw [← partAt_cols hv h, cols_length]
    obtain ⟨P, hP, rfl⟩ := List.mem_map.1 h
    rw [mult_typeOf hv hP, partAt_of_mem hv.nodup hP]
  · have h2 : colsL x v = [] := by
      unfold colsL
      rw [List.flatMap_eq_nil_iff]
      intro P hP
      rw [if_neg]
      rintro rfl
      exact h (List.mem_map.2 ⟨P, hP, rfl⟩)
    rw [h2]
    have h3 : (typeOf (obs v)).lookup x = none := by
      rw [List.lookup_eq_none_iff]
      intro e he
      have : e.1 ∈ parts (typeOf (obs v)) := List.mem_map.2 ⟨e, he, rfl⟩
      rw [parts_typeOf] at this
      have hne : x ≠ e.1 := by rintro rfl; exact h this
      simpa using hne
    unfold mult
    rw [h3]; rfl

theorem obs_ext {n : Nat} {v w : SnVec} (hv : Ok n v) (hw : Ok n w)
    (hk : ∀ x, x ∈ (v.map fun P => P.irrep.lambda) ↔ x ∈ w.map fun P => P.irrep.lambda)
    (hc : ∀ x, colsL x v = colsL x w) : obs v = obs w := by
  have h1 := (typeOf_ok hv).ext (typeOf_ok hw) (by intro x; rw [parts_typeOf, parts_typeOf]; exact hk x) (by
    intro x; rw [mult_typeOf' hv, mult_typeOf' hw, hc])
  rw [obs_eq_colsL hv, obs_eq_colsL hw, ← parts_typeOf, ← parts_typeOf, h1]
  exact List.map_congr_left fun x _ => by rw [hc]

end Snob
