import Verif.Proofs.SnVec

/-! Vectors: the group action, restriction and induction (C49). -/

namespace Snob

/-- the dimension of the irrep of a partition -/
noncomputable def dimOf (x : List Nat) : Nat := (irrOf x).d

/-- the matrix of an element in the irrep of a partition -/
noncomputable def evalN (x : List Nat) (a : Arr) : Nat → Nat → ℝ := ((irrOf x).eval a).getD fun _ _ => 0

theorem keys_map {n : Nat} (hn : 1 ≤ n) {L : List (List Nat)} (hL : ∀ x ∈ L, IsPartition n x) (M : List Nat → Nat)
    (D : List Nat → Nat → Nat → ℝ) : (L.map fun x => mkP x (M x) (D x)).map (fun P => P.irrep.lambda) = L := by
  rw [List.map_map]
  conv_rhs => rw [← List.map_id L]
  exact List.map_congr_left fun x hx => (irrOf_spec hn (hL x hx)).2.1

theorem ok_map {n : Nat} (hn : 1 ≤ n) {L : List (List Nat)} (hL : ∀ x ∈ L, IsPartition n x) (hs : L.Pairwise LexGreater)
    (M : List Nat → Nat) (D : List Nat → Nat → Nat → ℝ) : SnVec.Ok n (L.map fun x => mkP x (M x) (D x)) := by
  constructor
  · intro P hP
    obtain ⟨x, hx, rfl⟩ := List.mem_map.1 hP
    obtain ⟨b1, b2, b3, b4⟩ := irrOf_spec hn (hL x hx)
    simp only [mkP]
    rw [b2]
    exact ⟨hL x hx, b1, trivial⟩
  · rw [keys_map hn hL]; exact hs

/-! ### the group action -/

theorem evalN_spec {n : Nat} (hn : 1 ≤ n) {x : List Nat} (hx : IsPartition n x) (σ : Equiv.Perm (Fin n)) :
    (irrOf x).eval (enc σ) = some (evalN x (enc σ)) ∧
      ∀ i j : Fin (irrOf x).d, evalN x (enc σ) i j = ((irrOf_spec hn hx).2.2.2).rep σ i j := by
  obtain ⟨A, hA, hA'⟩ := ((irrOf_spec hn hx).2.2.2).eval_eq σ
  have : evalN x (enc σ) = A := by unfold evalN; rw [hA]; rfl
  rw [this]
  exact ⟨hA, hA'⟩

theorem list_sum_range (d : Nat) (f : Nat → ℝ) : ((List.range d).map f).sum = ∑ k : Fin d, f k := by
  rw [Fin.sum_univ_eq_sum_range f d]
  induction d with
  | zero => simp
  | succ d ih => rw [List.range_succ, List.map_append, List.sum_append, ih, Finset.sum_range_succ]; simp

theorem applyPart_eq {n : Nat} (hn : 1 ≤ n) {x : List Nat} (hx : IsPartition n x) (m : Nat) (f : Nat → Nat → ℝ)
    (σ : Equiv.Perm (Fin n)) :
    ∃ g, (mkP x m f).apply (enc σ) = some (mkP x m g) ∧
      (∀ i < dimOf x, ∀ j < m, g i j = ((List.range (dimOf x)).map fun k => evalN x (enc σ) i k * f k j).sum) ∧
      (mkP x m g).cols = (mkP x m f).cols.map (SnVec.mulCol (dimOf x) (evalN x (enc σ))) := by
  have hr := (irrOf_spec hn hx).2.2.2
  have key : ∀ i < dimOf x, ∀ j < m, act (hr.rep σ) (List.range m) f i j =
      ((List.range (dimOf x)).map fun k => evalN x (enc σ) i k * f k j).sum := by
    intro i hi j hj
    rw [list_sum_range]
    unfold act
    rw [dif_pos ⟨hi, List.mem_range.2 hj⟩]
    exact Finset.sum_congr rfl fun k _ => by rw [← (evalN_spec hn hx σ).2]
  refine ⟨act (hr.rep σ) (List.range m) f, ?_, key, ?_⟩
  · unfold VPart.apply
    simp only [mkP]
    rw [hr.applySigma_eq _ List.nodup_range]
    rfl
  · rw [cols_mkP, cols_mkP, List.map_map]
    refine List.map_congr_left fun j hj => ?_
    simp only [Function.comp, SnVec.mulCol]
    refine List.map_congr_left fun i hi => ?_
    rw [key i (List.mem_range.1 hi) j (List.mem_range.1 hj)]
    congr 1
    refine List.map_congr_left fun k hk => ?_
    congr 1
    have hk' : k < (irrOf x).d := List.mem_range.1 hk
    rw [List.getD_eq_getElem?_getD, List.getElem?_map, List.getElem?_range hk']
    rfl

/-- the action on what is seen of a vector -/
noncomputable def actObs (a : Arr) (o : List (List Nat × List (List ℝ))) : List (List Nat × List (List ℝ)) :=
  o.map fun e => (e.1, e.2.map (SnVec.mulCol (dimOf e.1) (evalN e.1 a)))

theorem vecApply_ok {n : Nat} (hn : 1 ≤ n) (σ : Equiv.Perm (Fin n)) (v : SnVec) (hv : SnVec.Ok n v) :
    ∃ w, v.apply (enc σ) = some w ∧ SnVec.Ok n w ∧ SnVec.obs w = actObs (enc σ) (SnVec.obs v) ∧
      w.map (fun P => P.irrep.lambda) = v.map (fun P => P.irrep.lambda) ∧ w.map (·.m) = v.map (·.m) ∧
      ∀ x, colsL x w = (colsL x v).map (SnVec.mulCol (dimOf x) (evalN x (enc σ))) := by
  have : ∀ P : VPart, ∃ Q : VPart, P ∈ v → P.apply (enc σ) = some Q ∧ Q.irrep = P.irrep ∧ Q.m = P.m ∧ Q.d = P.d ∧
      Q.cols = P.cols.map (SnVec.mulCol (dimOf P.irrep.lambda) (evalN P.irrep.lambda (enc σ))) := by
    intro P
    by_cases hP : P ∈ v
    · obtain ⟨g, h1, -, h2⟩ := applyPart_eq hn (hv.part P hP).1 P.m P.data σ
      rw [← lookup_irr hv hP] at h1 h2
      refine ⟨_, fun _ => ⟨h1, ?_, rfl, ?_, h2⟩⟩
      · conv_rhs => rw [lookup_irr hv hP]
        rfl
      · conv_rhs => rw [lookup_irr hv hP]
        rfl
    · exact ⟨P, fun h => absurd h hP⟩
  choose q hq using this
  have hkeys : (v.map q).map (fun P => P.irrep.lambda) = v.map fun P => P.irrep.lambda := by
    rw [List.map_map]
    exact List.map_congr_left fun P hP => by simp only [Function.comp]; rw [(hq P hP).2.1]
  refine ⟨v.map q, mapM_map _ _ _ fun P hP => (hq P hP).1, ⟨?_, by rw [hkeys]; exact hv.sorted⟩, ?_, hkeys, ?_, ?_⟩
  · intro Q hQ
    obtain ⟨P, hP, rfl⟩ := List.mem_map.1 hQ
    obtain ⟨-, h1, h2, h3, -⟩ := hq P hP
    rw [h1, h3]
    exact hv.part P hP
  · unfold SnVec.obs actObs
    rw [List.map_map, List.map_map]
    refine List.map_congr_left fun P hP => ?_
    simp only [Function.comp]
    rw [(hq P hP).2.1, (hq P hP).2.2.2.2]
  · rw [List.map_map]
    exact List.map_congr_left fun P hP => (hq P hP).2.2.1
  · intro x
    unfold colsL
    rw [List.flatMap_map, List.map_flatMap]
    refine List.flatMap_congr fun P hP => ?_
    obtain ⟨-, h1, -, -, h2⟩ := hq P hP
    rw [h1, h2]
    split_ifs with h
    · rw [h]
    · rfl

/-! ### rows in blocks -/

/-- offset of the block of `mu` in the blocks of the list -/
noncomputable def offOf (S : List (List Nat)) (mu : List Nat) : Nat := ((S.takeWhile (fun z => decide (z ≠ mu))).map dimOf).sum

theorem takeWhile_split {α : Type} [DecidableEq α] {S1 S2 : List α} {mu : α} (h : mu ∉ S1) :
    (S1 ++ mu :: S2).takeWhile (fun z => decide (z ≠ mu)) = S1 := by
  induction S1 with
  | nil => simp
  | cons a S1 ih =>
    simp only [List.mem_cons, not_or] at h
    rw [List.cons_append, List.takeWhile_cons, if_pos (by simpa using Ne.symm h.1), ih h.2]

theorem offOf_split {S1 S2 : List (List Nat)} {mu : List Nat} (h : mu ∉ S1) :
    offOf (S1 ++ mu :: S2) mu = (S1.map dimOf).sum := by
  unfold offOf; rw [takeWhile_split h]

/-- the piece of a column in the block of `mu` -/
noncomputable def slice (S : List (List Nat)) (mu : List Nat) (c : List ℝ) : List ℝ := (c.drop (offOf S mu)).take (dimOf mu)

theorem slices_join' {S : List (List Nat)} (c : List ℝ) (S1 S2 : List (List Nat)) (hnd : (S1 ++ S2).Nodup)
    (hS : S = S1 ++ S2) (hc : c.length = (S.map dimOf).sum) :
    S2.flatMap (fun mu => slice S mu c) = c.drop (S1.map dimOf).sum := by
  induction S2 generalizing S1 with
  | nil =>
    rw [List.append_nil] at hS
    rw [List.flatMap_nil, List.drop_of_length_le (by rw [hc, hS])]
  | cons mu S2 ih =>
    have h1 : mu ∉ S1 := fun h => (List.nodup_append.1 hnd).2.2 mu h mu (by simp) rfl
    rw [List.flatMap_cons, ih (S1 ++ [mu]) (by simpa using hnd) (by simpa using hS)]
    unfold slice
    rw [hS, offOf_split h1, List.map_append, List.sum_append, ← List.drop_drop]
    simp

theorem slices_join {S : List (List Nat)} (hnd : S.Nodup) (c : List ℝ) (hc : c.length = (S.map dimOf).sum) :
    S.flatMap (fun mu => slice S mu c) = c := by
  have := slices_join' (S := S) c [] S hnd rfl hc
  simpa using this

theorem dimOf_eq {n : Nat} (hn : 1 ≤ n) {x : List Nat} (hx : IsPartition n x) : dimOf x = dimW n x := (irrOf_spec hn hx).2.2.1

theorem sub_part {n : Nat} {x : List Nat} (hx : IsPartition (n + 1) x) : ∀ mu ∈ subs x, IsPartition n mu :=
  fun mu h => ((mem_subs hx mu).1 h).1

theorem dimOf_subs {n : Nat} (hn : 1 ≤ n) {x : List Nat} (hx : IsPartition (n + 1) x) :
    dimOf x = ((subs x).map dimOf).sum := by
  rw [dimOf_eq (by omega) hx]
  have : (subs x).map dimOf = (subs x).map (dimW n) :=
    List.map_congr_left fun mu h => dimOf_eq hn (sub_part hx mu h)
  rw [this]
  unfold dimW
  rw [words, List.length_flatMap]
  simp

/-! ### `downB` -/

/-- the part of `mu` in the restriction -/
noncomputable def downD (S : List (List Nat)) (m : Nat) (f : Nat → Nat → ℝ) (mu : List Nat) (a j : Nat) : ℝ :=
  if a < dimOf mu ∧ j < m then f (a + offOf S mu) j else 0

theorem downLoop_ok {n : Nat} (hn : 1 ≤ n) {x : List Nat} (m : Nat) (f : Nat → Nat → ℝ) {S : List (List Nat)}
    (hS : ∀ mu ∈ S, IsPartition n mu) (hd : (S.map dimOf).sum ≤ dimOf x) (S1 S2 : List (List Nat))
    (hnd : (S1 ++ S2).Nodup) (e : S = S1 ++ S2) :
    SnVec.downLoop (mkP x m f) S2 (S1.map fun mu => mkP mu m (downD S m f mu)) (S1.map dimOf).sum =
      some (S.map fun mu => mkP mu m (downD S m f mu)) := by
  induction S2 generalizing S1 with
  | nil => rw [List.append_nil] at e; rw [← e]; rfl
  | cons mu S2 ih =>
    have h1 : mu ∉ S1 := fun h => (List.nodup_append.1 hnd).2.2 mu h mu (by simp) rfl
    have hoff : offOf S mu = (S1.map dimOf).sum := by rw [e, offOf_split h1]
    have hle : (S1.map dimOf).sum + dimOf mu ≤ dimOf x := by
      refine le_trans ?_ hd
      rw [e, List.map_append, List.sum_append, List.map_cons, List.sum_cons]; omega
    unfold SnVec.downLoop
    have hz := zero_eq hn (hS mu (by rw [e]; simp)) m
    have hm : ((mkP x m f).m : Int) = (m : Int) := rfl
    rw [hm, hz]
    simp only [Option.bind_eq_bind, Option.bind_some]
    have hP : (mkP x m f).addBlockTo (S1.map dimOf).sum 0 (mkP mu m fun _ _ => 0) = some (mkP mu m (downD S m f mu)) := by
      unfold VPart.addBlockTo
      rw [VPart.incLoop_eq _ _ _ _ _ _ (fun i j => f (i + (S1.map dimOf).sum) j) (fun i hi j hj => by
        rw [VPart.get_eq (P := mkP x m f)]
        · rfl
        · show i + (S1.map dimOf).sum < dimOf x
          have : i < dimOf mu := hi
          omega
        · exact hj) (by show 0 + dimOf mu ≤ dimOf mu; omega) (Or.inr (Or.inr (by show 0 + m ≤ m; omega)))]
      rw [Option.some.injEq]
      refine VPart.ext rfl rfl rfl fun i j => ?_
      simp only [mkP, downD, hoff, zero_add, Nat.sub_zero, Nat.zero_le, true_and]
      rfl
    rw [hP]
    simp only [Option.bind_some]
    have := ih (S1 ++ [mu]) (by simpa using hnd) (by simpa using e)
    simp only [List.map_append, List.map_cons, List.map_nil, List.sum_append, List.sum_cons, List.sum_nil, add_zero] at this
    exact this

theorem downB_eq {n : Nat} (hn : 1 ≤ n) {x : List Nat} (hx : IsPartition (n + 1) x) (m : Nat) (f : Nat → Nat → ℝ) :
    SnVec.downB (mkP x m f) = some ((subs x).map fun mu => mkP mu m (downD (subs x) m f mu)) := by
  unfold SnVec.downB
  have hl : (mkP x m f).irrep.lambda = x := (irrOf_spec (by omega) hx).2.1
  rw [hl, parents_eq hx (by omega)]
  exact downLoop_ok hn m f (sub_part hx) (dimOf_subs hn hx).ge [] (subs x) (subs_nodup x) rfl

theorem off_lt {S1 S2 : List (List Nat)} {mu : List Nat} {S : List (List Nat)} (h : mu ∉ S1) (e : S = S1 ++ mu :: S2)
    {D : Nat} (hd : (S.map dimOf).sum = D) : offOf S mu + dimOf mu ≤ D := by
  subst hd
  rw [e, offOf_split h, List.map_append, List.sum_append, List.map_cons, List.sum_cons]; omega

theorem off_le {S : List (List Nat)} (hnd : S.Nodup) {mu : List Nat} (h : mu ∈ S) : offOf S mu + dimOf mu ≤ (S.map dimOf).sum := by
  obtain ⟨S1, S2, e⟩ := List.append_of_mem h
  refine off_lt (S1 := S1) (S2 := S2) ?_ e rfl
  rw [e] at hnd
  exact fun h => (List.nodup_append.1 hnd).2.2 mu h mu (by simp) rfl

theorem downD_cols {S : List (List Nat)} {mu : List Nat} {x : List Nat} (h : offOf S mu + dimOf mu ≤ dimOf x) (m : Nat)
    (f : Nat → Nat → ℝ) : (mkP mu m (downD S m f mu)).cols = (mkP x m f).cols.map (slice S mu) := by
  rw [cols_mkP, cols_mkP, List.map_map]
  refine List.map_congr_left fun j hj => ?_
  simp only [Function.comp, slice]
  apply List.ext_getElem
  · simp; exact (Nat.min_eq_left (by unfold dimOf at *; omega)).symm
  · intro i h1 h2
    simp only [List.length_map, List.length_range] at h1
    simp only [List.getElem_map, List.getElem_range, List.getElem_take, List.getElem_drop]
    unfold downD
    rw [if_pos ⟨h1, List.mem_range.1 hj⟩, Nat.add_comm]

theorem downB_ok {n : Nat} (hn : 1 ≤ n) (P : VPart) (hP : SnVec.Ok (n + 1) [P]) :
    ∃ R, SnVec.downB P = some R ∧ SnVec.Ok n R ∧ R.map (fun Q => Q.irrep.lambda) = subs P.irrep.lambda ∧
      SnVec.obs R = (subs P.irrep.lambda).map (fun mu => (mu, P.cols.map (slice (subs P.irrep.lambda) mu))) ∧
      (∀ Q ∈ R, Q.m = P.m) := by
  have hx := (hP.part P (by simp)).1
  have e := lookup_irr hP (P := P) (by simp)
  have h := downB_eq hn hx P.m P.data
  rw [← e] at h
  refine ⟨_, h, ok_map hn (sub_part hx) (subs_pairwise _) _ _, keys_map hn (sub_part hx) _ _, ?_, ?_⟩
  · unfold SnVec.obs
    rw [List.map_map]
    refine List.map_congr_left fun mu hmu => ?_
    simp only [Function.comp]
    refine Prod.ext (irrOf_spec hn (sub_part hx mu hmu)).2.1 ?_
    simp only
    rw [downD_cols (x := P.irrep.lambda) (by rw [dimOf_subs hn hx]; exact off_le (subs_nodup _) hmu), ← e]
  · intro Q hQ
    obtain ⟨mu, -, rfl⟩ := List.mem_map.1 hQ
    rfl

end Snob
