import Verif.Proofs.SnVecUp

/-! Vectors: induction (C49). -/

namespace Snob

/-- the part of `mu` -/
noncomputable def partAt (v : SnVec) (mu : List Nat) : VPart :=
  (v.find? fun P => decide (P.irrep.lambda = mu)).getD (mkP [] 0 fun _ _ => 0)

theorem SnVec.Ok.nodup {n : Nat} {v : SnVec} (hv : SnVec.Ok n v) : (v.map fun P => P.irrep.lambda).Nodup := by
  refine hv.sorted.imp ?_
  rintro a b ⟨i, -, h⟩ rfl
  omega

theorem partAt_of_mem {v : SnVec} (hnd : (v.map fun P => P.irrep.lambda).Nodup) {P : VPart} (hP : P ∈ v) :
    partAt v P.irrep.lambda = P := by
  induction v with
  | nil => simp at hP
  | cons Q v ih =>
    rw [List.map_cons, List.nodup_cons] at hnd
    unfold partAt
    rcases List.mem_cons.1 hP with rfl | h
    · simp
    · rw [List.find?_cons_of_neg]
      · exact ih hnd.2 h
      · have : Q.irrep.lambda ≠ P.irrep.lambda := fun e => hnd.1 (e ▸ List.mem_map.2 ⟨P, h, rfl⟩)
        simpa using this

theorem index_partAt {n : Nat} {v : SnVec} (hv : SnVec.Ok n v) {mu : List Nat} (hm : mu ∈ v.map fun P => P.irrep.lambda) :
    ∃ k, SnVec.index v mu = some k ∧ v[k]? = some (partAt v mu) ∧ (v.map fun P => P.irrep.lambda)[k]? = some mu ∧
      partAt v mu ∈ v ∧ (partAt v mu).irrep.lambda = mu := by
  have hmu : IsPartition n mu := by
    obtain ⟨P, hP, rfl⟩ := List.mem_map.1 hm
    exact (hv.part P hP).1
  obtain ⟨k, P, h1, h2, h3⟩ := vecIndex_ok (fun P hP => (hv.part P hP).1) hmu hm
  have hP := List.mem_of_getElem? h2
  have := partAt_of_mem hv.nodup hP
  rw [h3] at this
  refine ⟨k, h1, by rw [h2, this], by rw [List.getElem?_map, h2, Option.map_some, h3], by rw [this]; exact hP, by rw [this]; exact h3⟩

/-- the rows of the blocks -/
noncomputable def rowsOf (S : List (List Nat)) : List (List Nat × Nat) := S.flatMap fun mu => (List.range (dimOf mu)).map fun a => (mu, a)

theorem rowsOf_length (S : List (List Nat)) : (rowsOf S).length = (S.map dimOf).sum := by
  unfold rowsOf; rw [List.length_flatMap]; simp

theorem rowsOf_snoc (S : List (List Nat)) (mu : List Nat) :
    rowsOf (S ++ [mu]) = rowsOf S ++ (List.range (dimOf mu)).map fun a => (mu, a) := by
  unfold rowsOf; rw [List.flatMap_append]; simp

/-- entries of a part put together from blocks -/
noncomputable def upD (v : SnVec) (m : Nat) (O : List Nat → Nat) (S : List (List Nat)) (i j : Nat) : ℝ :=
  if j < m then ((rowsOf S)[i]?.map fun e => (partAt v e.1).data e.2 (O e.1 + j)).getD 0 else 0

theorem upD_snoc (v : SnVec) (m : Nat) (O : List Nat → Nat) (S : List (List Nat)) (mu : List Nat) (i j : Nat) :
    upD v m O (S ++ [mu]) i j = upD v m O S i j +
      if ((S.map dimOf).sum ≤ i ∧ i < (S.map dimOf).sum + dimOf mu) ∧ 0 ≤ j ∧ j < 0 + m then
        (partAt v mu).data (i - (S.map dimOf).sum + 0) (j - 0 + O mu) else 0 := by
  unfold upD
  rw [rowsOf_snoc, ← rowsOf_length]
  by_cases hj : j < m
  · rw [if_pos hj, if_pos hj]
    rcases Nat.lt_or_ge i (rowsOf S).length with h | h
    · rw [if_neg (by omega), add_zero, List.getElem?_append_left h]
    · rw [List.getElem?_append_right h, List.getElem?_eq_none h]
      rcases Nat.lt_or_ge i ((rowsOf S).length + dimOf mu) with h' | h'
      · rw [if_pos ⟨⟨h, h'⟩, by omega, by omega⟩, List.getElem?_map, List.getElem?_range (by omega)]
        simp [Nat.add_comm]
      · rw [if_neg (by omega), List.getElem?_eq_none (by simp; omega)]
        simp
  · rw [if_neg hj, if_neg hj, if_neg (by omega), add_zero]

theorem upInner_ok {n : Nat} {v : SnVec} (hv : SnVec.Ok n v) {x : List Nat} (m : Nat) (O : List Nat → Nat)
    {S : List (List Nat)} (hS : ∀ mu ∈ S, mu ∈ v.map fun P => P.irrep.lambda) (hd : (S.map dimOf).sum ≤ dimOf x)
    (hO : ∀ mu ∈ S, O mu + m ≤ (partAt v mu).m) (S1 S2 : List (List Nat)) (hnd : (S1 ++ S2).Nodup) (e : S = S1 ++ S2) :
    SnVec.upInner v m S2 (mkP x m (upD v m O S1)) (S1.map dimOf).sum
        ((v.map fun P => P.irrep.lambda).map fun mu => O mu + if mu ∈ S1 then m else 0) =
      some (mkP x m (upD v m O S), (v.map fun P => P.irrep.lambda).map fun mu => O mu + if mu ∈ S then m else 0) := by
  induction S2 generalizing S1 with
  | nil => rw [List.append_nil] at e; rw [← e]; rfl
  | cons mu S2 ih =>
    have h1 : mu ∉ S1 := fun h => (List.nodup_append.1 hnd).2.2 mu h mu (by simp) rfl
    have hmu : mu ∈ S := by rw [e]; simp
    have hle : (S1.map dimOf).sum + dimOf mu ≤ dimOf x := by
      refine le_trans ?_ hd
      rw [e, List.map_append, List.sum_append, List.map_cons, List.sum_cons]; omega
    obtain ⟨k, a1, a2, a3, a4, a5⟩ := index_partAt hv (hS mu hmu)
    have hPd : (partAt v mu).d = dimOf mu := by
      have := lookup_irr hv a4
      rw [a5] at this
      conv_lhs => rw [this]
      rfl
    have ho : ((v.map fun P => P.irrep.lambda).map fun mu => O mu + if mu ∈ S1 then m else 0)[k]? = some (O mu) := by
      rw [List.getElem?_map, a3, Option.map_some, if_neg h1, add_zero]
    have hP : (mkP x m (upD v m O S1)).addToBlockBlock (S1.map dimOf).sum 0 (partAt v mu) 0 (O mu) (dimOf mu) m =
        some (mkP x m (upD v m O (S1 ++ [mu]))) := by
      unfold VPart.addToBlockBlock
      have hO' := hO mu hmu
      rw [VPart.incLoop_eq _ _ _ _ _ _ (fun i j => (partAt v mu).data (i + 0) (j + O mu)) (fun i hi j hj => by
        rw [VPart.get_eq]
        · omega
        · omega) hle (Or.inr (Or.inr (by show 0 + m ≤ m; omega)))]
      rw [Option.some.injEq]
      refine VPart.ext rfl rfl rfl fun i j => ?_
      simp only [mkP]
      rw [upD_snoc]
    unfold SnVec.upInner
    rw [a1]
    simp only [Option.bind_eq_bind, Option.bind_some]
    rw [a2]
    simp only [Option.bind_some]
    rw [ho]
    simp only [Option.bind_some]
    rw [hPd, hP]
    simp only [Option.bind_some]
    rw [set_map hv.nodup a3]
    have := ih (S1 ++ [mu]) (by simpa using hnd) (by simpa using e)
    rw [← this]
    congr 1
    · simp
    · refine List.map_congr_left fun z _ => ?_
      by_cases hz : z = mu
      · subst hz; simp
      · simp [hz]

/-- number of columns taken from the part of `mu` for the partitions of a list -/
def usedBy (M : List Nat → Nat) (l : List (List Nat)) (mu : List Nat) : Nat :=
  (l.map fun y => if mu ∈ subs y then M y else 0).sum

/-- offset in the part of `mu` of the columns of `x` -/
def colOffs (M : List Nat → Nat) (L : List (List Nat)) (x mu : List Nat) : Nat :=
  usedBy M (L.takeWhile fun z => decide (z ≠ x)) mu

theorem usedBy_append (M : List Nat → Nat) (l l' : List (List Nat)) (mu : List Nat) :
    usedBy M (l ++ l') mu = usedBy M l mu + usedBy M l' mu := by
  unfold usedBy; rw [List.map_append, List.sum_append]

theorem upLoop_ok {n : Nat} (hn : 1 ≤ n) {v : SnVec} (hv : SnVec.Ok n v) {L : List (List Nat)} (M : List Nat → Nat) (N : List Nat → Int)
    (hL : ∀ x ∈ L, IsPartition (n + 1) x) (hnd : L.Nodup)
    (hS : ∀ x ∈ L, ∀ mu ∈ subs x, mu ∈ v.map fun P => P.irrep.lambda)
    (hO : ∀ x ∈ L, ∀ mu ∈ subs x, usedBy M L mu ≤ (partAt v mu).m) (L1 L2 : List (List Nat)) (e : L = L1 ++ L2) :
    SnVec.upLoop v (L2.map fun x => (x, N x))
        (L.map fun x => mkP x (M x) (if x ∈ L1 then upD v (M x) (colOffs M L x) (subs x) else fun _ _ => 0))
        ((v.map fun P => P.irrep.lambda).map fun mu => usedBy M L1 mu) =
      some (L.map fun x => mkP x (M x) (upD v (M x) (colOffs M L x) (subs x))) := by
  induction L2 generalizing L1 with
  | nil =>
    rw [List.append_nil] at e
    rw [← e]
    simp only [List.map_nil, SnVec.upLoop, Option.some.injEq]
    exact List.map_congr_left fun x hx => by rw [if_pos hx]
  | cons x L2 ih =>
    have hx : x ∈ L := by rw [e]; simp
    have h1 : x ∉ L1 := by
      rw [e] at hnd
      exact fun h => (List.nodup_append.1 hnd).2.2 x h x (by simp) rfl
    obtain ⟨k, a1, a2⟩ := index_map (by omega) hL M (fun x => if x ∈ L1 then upD v (M x) (colOffs M L x) (subs x) else fun _ _ => 0) hx
    have hoff : colOffs M L x = usedBy M L1 := by
      funext mu
      unfold colOffs
      rw [e, takeWhile_split h1]
    have hzero : (fun _ _ => (0 : ℝ)) = upD v (M x) (usedBy M L1) [] := by
      funext i j; simp [upD, rowsOf]
    have hin := upInner_ok hv (x := x) (M x) (usedBy M L1) (S := subs x) (hS x hx) (dimOf_subs hn (hL x hx)).ge
      (fun mu hmu => by
        refine le_trans ?_ (hO x hx mu hmu)
        rw [e, usedBy_append]
        have : M x ≤ usedBy M (x :: L2) mu := by
          unfold usedBy; rw [List.map_cons, List.sum_cons, if_pos hmu]; omega
        omega) [] (subs x) (subs_nodup x) rfl
    simp only [List.map_nil, List.sum_nil, List.not_mem_nil, if_false, add_zero] at hin
    rw [List.map_cons]
    unfold SnVec.upLoop
    rw [a1]
    simp only [Option.bind_eq_bind, Option.bind_some, List.getElem?_map, a2, Option.map_some, if_neg h1]
    rw [parents_eq (hL x hx) (by omega)]
    simp only [Option.bind_some]
    rw [← hzero] at hin
    have hm : (mkP x (M x) fun _ _ => 0).m = M x := rfl
    rw [hm, hin]
    simp only [Option.bind_some]
    rw [set_map hnd a2, ← ih (L1 ++ [x]) (by simpa using e)]
    congr 1
    · refine List.map_congr_left fun z _ => ?_
      by_cases hz : z = x
      · subst hz; simp [hoff]
      · simp [hz]
    · refine List.map_congr_left fun z _ => ?_
      rw [usedBy_append]
      simp [usedBy]

theorem upD_cols {n : Nat} (hn : 1 ≤ n) {v : SnVec} (hv : SnVec.Ok n v) {x : List Nat} (hx : IsPartition (n + 1) x) (m : Nat)
    (O : List Nat → Nat) (hS : ∀ mu ∈ subs x, mu ∈ v.map fun P => P.irrep.lambda)
    (hO : ∀ mu ∈ subs x, O mu + m ≤ (partAt v mu).m) :
    (mkP x m (upD v m O (subs x))).cols =
      (List.range m).map fun j => (subs x).flatMap fun mu => (partAt v mu).cols.getD (O mu + j) [] := by
  rw [cols_mkP]
  refine List.map_congr_left fun j hj => ?_
  have hj' := List.mem_range.1 hj
  have hd : (irrOf x).d = (rowsOf (subs x)).length := by rw [rowsOf_length]; exact dimOf_subs hn hx
  have h1 : (List.range (irrOf x).d).map (fun i => upD v m O (subs x) i j) =
      (rowsOf (subs x)).map fun e => (partAt v e.1).data e.2 (O e.1 + j) := by
    apply List.ext_getElem (by simp [hd])
    intro i h1 h2
    simp only [List.getElem_map, List.getElem_range]
    simp only [List.length_map] at h2
    unfold upD
    rw [if_pos hj', List.getElem?_eq_getElem h2]
    rfl
  rw [h1]
  unfold rowsOf
  rw [List.map_flatMap]
  refine List.flatMap_congr fun mu hmu => ?_
  obtain ⟨k, a1, a2, a3, a4, a5⟩ := index_partAt hv (hS mu hmu)
  have hPd : (partAt v mu).d = dimOf mu := by
    have := lookup_irr hv a4
    rw [a5] at this
    conv_lhs => rw [this]
    rfl
  have := hO mu hmu
  unfold VPart.cols
  rw [List.getD_eq_getElem?_getD, List.getElem?_map, List.getElem?_range (by omega), hPd, List.map_map]
  rfl

/-- `up` on a vector over `S_n` that has enough columns -/
theorem up_ok {n : Nat} (hn : 1 ≤ n) {v : SnVec} (hv : SnVec.Ok n v) {tau : SnType} (ht : TypeOk (n + 1) tau)
    (hm : ∀ x ∈ parts tau, 0 ≤ mult tau x)
    (hS : ∀ x ∈ parts tau, ∀ mu ∈ subs x, mu ∈ v.map fun P => P.irrep.lambda)
    (hO : ∀ x ∈ parts tau, ∀ mu ∈ subs x, usedBy (fun x => (mult tau x).toNat) (parts tau) mu ≤ (partAt v mu).m) :
    ∃ R, SnVec.up tau v = some R ∧ SnVec.Ok (n + 1) R ∧
      SnVec.obs R = (parts tau).map fun x => (x, (List.range (mult tau x).toNat).map fun j =>
        (subs x).flatMap fun mu => (partAt v mu).cols.getD (colOffs (fun x => (mult tau x).toNat) (parts tau) x mu + j) []) := by
  have hz := vecZero_eq (by omega) ht hm
  have hl := upLoop_ok hn hv (fun x => (mult tau x).toNat) (mult tau) ht.all ht.nodup hS hO [] (parts tau) rfl
  rw [← ht.eq_map] at hl
  refine ⟨(parts tau).map fun x => mkP x (mult tau x).toNat
    (upD v (mult tau x).toNat (colOffs (fun x => (mult tau x).toNat) (parts tau) x) (subs x)), ?_,
    ok_map (by omega) ht.all ht.sorted _ _, ?_⟩
  · unfold SnVec.up
    rw [hz]
    simp only [Option.bind_eq_bind, Option.bind_some]
    have hr : List.replicate v.length 0 = (v.map fun P => P.irrep.lambda).map fun mu => usedBy (fun x => (mult tau x).toNat) [] mu := by
      rw [List.map_map]; symm; rw [List.eq_replicate_iff]; simp [usedBy]
    simp only [List.not_mem_nil, if_false] at hl
    rw [hr]
    exact hl
  · unfold SnVec.obs
    rw [List.map_map]
    refine List.map_congr_left fun x hx => ?_
    simp only [Function.comp]
    refine Prod.ext (irrOf_spec (by omega) (ht.all x hx)).2.1 ?_
    simp only
    rw [upD_cols hn hv (ht.all x hx) _ _ (hS x hx)]
    intro mu hmu
    refine le_trans ?_ (hO x hx mu hmu)
    obtain ⟨L1, L2, e⟩ := List.append_of_mem hx
    have h1 : x ∉ L1 := by
      have := ht.nodup
      rw [e] at this
      exact fun h => (List.nodup_append.1 this).2.2 x h x (by simp) rfl
    unfold colOffs
    rw [e, takeWhile_split h1, usedBy_append]
    have : (mult tau x).toNat ≤ usedBy (fun x => (mult tau x).toNat) (x :: L2) mu := by
      unfold usedBy; rw [List.map_cons, List.sum_cons, if_pos hmu]; exact Nat.le_add_right _ _
    omega

end Snob
