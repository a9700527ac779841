import Verif.Proofs.CGNorm
import Verif.Proofs.CGSolver
import Verif.Proofs.CGCols
import Verif.Props.SnVec

/-! # Properties C69-C71: Clebsch-Gordan products of vectors -/

namespace Snob.Props

open Snob SnVec IP

theorem sameType_keys {v w : SnVec} (h : SameType v w) : vkeys v = vkeys w := by
  have := congrArg (List.map Prod.fst) h
  rwa [List.map_map, List.map_map] at this

theorem sameType_m {n : Nat} {v w : SnVec} (hv : Ok n v) (hw : Ok n w) (h : SameType v w) {x : List Nat} (hx : x ∈ vkeys v) :
    (partAt v x).m = (partAt w x).m := by
  have e : ∀ {u : SnVec}, Ok n u → (u.map fun P => (P.irrep.lambda, P.m)) = (vkeys u).map fun x => (x, (partAt u x).m) := by
    intro u hu
    rw [List.map_map]
    exact List.map_congr_left fun P hP => by simp only [Function.comp]; rw [partAt_of_mem hu.nodup hP]
  have hk := sameType_keys h
  unfold SameType at h
  rw [e hv, e hw, ← hk] at h
  have := (List.map_inj_left.1 h) x hx
  exact (Prod.mk.inj this).2

theorem sameType_of {n : Nat} {v w : SnVec} (hv : Ok n v) (hw : Ok n w) (h : vkeys v = vkeys w) (hm : ∀ x ∈ vkeys v, (partAt v x).m = (partAt w x).m) :
    SameType v w := by
  have e : ∀ {u : SnVec}, Ok n u → (u.map fun P => (P.irrep.lambda, P.m)) = (vkeys u).map fun x => (x, (partAt u x).m) := by
    intro u hu
    rw [List.map_map]
    exact List.map_congr_left fun P hP => by simp only [Function.comp]; rw [partAt_of_mem hu.nodup hP]
  unfold SameType
  rw [e hv, e hw, ← h]
  exact List.map_congr_left fun x hx => by rw [hm x hx]

theorem one_col {v w : SnVec} (h : SameType v w) (hm : ∀ P ∈ v, P.m = 1) : ∀ P ∈ w, P.m = 1 := by
  intro P hP
  have : (P.irrep.lambda, P.m) ∈ v.map fun P => (P.irrep.lambda, P.m) := by rw [h]; exact List.mem_map.2 ⟨P, hP, rfl⟩
  obtain ⟨Q, hQ, e⟩ := List.mem_map.1 this
  rw [← (Prod.mk.inj e).2]; exact hm Q hQ

theorem keys_eq {n : Nat} {v w : SnVec} (hv : Ok n v) (hw : Ok n w) (h : ∀ x, x ∈ vkeys v ↔ x ∈ vkeys w) : vkeys v = vkeys w :=
  ((List.perm_ext_iff_of_nodup hv.nodup hw.nodup).2 h).eq_of_pairwise (fun _ _ _ _ h1 h2 => absurd h2 (lexGreater_asymm h1)) hv.sorted hw.sorted

section
variable {eig : Eig} (he : EigOk eig) {n : Nat} (hn : 1 ≤ n) (hN : n ≤ 1234567)
include he hn hN

/-- **C69.** `CGproduct` of vectors with one column for each part is defined, is of the type `CGproduct` gives for the types,
and keeps inner products: that of two products is the product of those of the factors. -/
theorem C69_inner_products {x y x' y' : SnVec} (hx : Ok n x) (hy : Ok n y) (hx' : Ok n x') (hy' : Ok n y')
    (mx : ∀ P ∈ x, P.m = 1) (my : ∀ P ∈ y, P.m = 1) (sx : SameType x x') (sy : SameType y y') :
    ∃ R R', cgVec eig x y = some R ∧ cgVec eig x' y' = some R' ∧ Ok n R ∧ Ok n R' ∧ SameType R R' ∧
      getType R = (getType x).bind (fun t => (getType y).bind fun u => cgTypes t u) ∧
      dot R R' = dot x x' * dot y y' := by
  have kx := sameType_keys sx
  have ky := sameType_keys sy
  obtain ⟨R, e1, h1, h2, h3, h4⟩ := vec_ok' hn (accAny_ok he hn hN) hx hy mx my
  obtain ⟨R', e1', h1', h2', h3', h4'⟩ := vec_ok' hn (accAny_ok he hn hN) hx' hy' (one_col sx mx) (one_col sy my)
  rw [← kx, ← ky] at h2' h3' h4'
  have hk : vkeys R = vkeys R' := keys_eq h1 h1' fun p => by rw [h2 p, h2' p]
  refine ⟨R, R', e1, e1', h1, h1', sameType_of h1 h1' hk fun p hp => ?_, ?_, ?_⟩
  · rw [h3 p hp, h3' p (hk ▸ hp)]
  · rw [getType_eq hx, getType_eq hy, getType_eq h1]
    simp only [Option.bind_some]
    obtain ⟨s', T, e2, -, hT, hp, hmu⟩ := CGState.ok_empty.productTypes hn (typeOf_ok hx) (typeOf_ok hy)
    unfold cgTypes
    rw [e2]
    have e : ∀ {v : SnVec}, (∀ P ∈ v, P.m = 1) → typeOf (obs v) = (vkeys v).map fun p => (p, (1 : Int)) := by
      intro v hm
      rw [typeOf_obs, List.map_map]
      exact List.map_congr_left fun P hP => by simp [hm P hP]
    have hmt : ∀ r, IsPartition n r → mult T r = tot n (prs (vkeys x) (vkeys y)) r := by
      intro r hr
      rw [hmu r hr, typeSum_one _ (e mx), tot_prs]
      congr 1
      exact List.map_congr_left fun p _ => typeSum_one _ (e my) _
    have hpp : ∀ r, r ∈ parts T ↔ r ∈ vkeys R := by
      intro r
      rw [hp r, h2 r, parts_typeOf, parts_typeOf]
      refine and_congr_right fun _ => ?_
      unfold tot
      rw [List.sum_pos_iff_exists_pos_nat]
      constructor
      · rintro ⟨p, h1, q, h2, h3⟩
        exact ⟨_, List.mem_map.2 ⟨(p, q), mem_prs.2 ⟨h1, h2⟩, rfl⟩, h3⟩
      · rintro ⟨k, hk, h3⟩
        obtain ⟨e, he, rfl⟩ := List.mem_map.1 hk
        exact ⟨_, (mem_prs.1 he).1, _, (mem_prs.1 he).2, h3⟩
    have : typeOf (obs R) = T := by
      refine (typeOf_ok h1).ext hT (fun r => by rw [parts_typeOf, hpp]) fun r => ?_
      by_cases hr : r ∈ vkeys R
      · rw [hmt r (vkeys_part h1 hr)]
        obtain ⟨-, -, -, -, hm, hl⟩ := index_partAt h1 hr
        have := mult_typeOf h1 hm
        rw [hl] at this
        rw [this, h3 r hr]
      · rw [mult_of_not_mem (by rw [parts_typeOf]; exact hr), mult_of_not_mem (by rw [hpp]; exact hr)]
    rw [this]; rfl
  · exact vec_dot hn (inv_cgPhi he hn) hx hy hx' hy' mx my kx ky h1 h1' h2 hk h3 h4 (by rw [hk]; exact h4')

/-- **C69.** In particular the squared length of the product is the product of the squared lengths. -/
theorem C69_length {x y : SnVec} (hx : Ok n x) (hy : Ok n y) (mx : ∀ P ∈ x, P.m = 1) (my : ∀ P ∈ y, P.m = 1) :
    ∃ R, cgVec eig x y = some R ∧ dot R R = dot x x * dot y y := by
  obtain ⟨R, R', e1, e2, -, -, -, -, h⟩ := C69_inner_products he hn hN hx hy hx hy mx my rfl rfl
  rw [e1] at e2
  exact ⟨R, e1, by rw [← Option.some.inj e2] at h; exact h⟩

/-- **C69.** The same for `CGproduct` of two parts, which is that of vectors with one part. -/
theorem C69_parts {P Q : VPart} (hP : Ok n [P]) (hQ : Ok n [Q]) (mP : P.m = 1) (mQ : Q.m = 1) :
    cgParts eig P Q = cgVec eig [P] [Q] ∧ ∃ R, cgParts eig P Q = some R ∧ dot R R = dot [P] [P] * dot [Q] [Q] := by
  have key : cgParts eig P Q = cgVec eig [P] [Q] := by
    obtain ⟨s', tau, e1, ht, -⟩ := CGState.ok_empty.product hn (hP.part P (by simp)).1 (hQ.part Q (by simp)).1
    obtain ⟨s2, T, e2, -, hT, hp, hmu⟩ := CGState.ok_empty.productTypes hn (typeOf_ok hP) (typeOf_ok hQ)
    have tP : typeOf (obs [P]) = [P.irrep.lambda].map fun p => (p, (1 : Int)) := by rw [typeOf_obs]; simp [mP]
    have tQ : typeOf (obs [Q]) = [Q.irrep.lambda].map fun p => (p, (1 : Int)) := by rw [typeOf_obs]; simp [mQ]
    have hmt : ∀ r, IsPartition n r → mult T r = mult tau r := by
      intro r hr
      rw [hmu r hr, typeSum_one _ tP, ht.mult r hr]
      simp only [List.map_cons, List.map_nil, List.sum_cons, List.sum_nil, add_zero]
      rw [typeSum_one _ tQ]
      simp
    have hpp : ∀ r, r ∈ parts T ↔ r ∈ parts tau := by
      intro r
      rw [hp r, ht.mem r, parts_typeOf, parts_typeOf]
      simp
    have : T = tau := by
      refine hT.ext ht.ok hpp fun r => ?_
      by_cases hr : r ∈ parts T
      · exact hmt r (hT.all r hr)
      · rw [mult_of_not_mem hr, mult_of_not_mem fun h => hr ((hpp r).2 h)]
    unfold cgParts cgVec cgVecWith cgTau cgTypes
    rw [getType_eq hP, getType_eq hQ]
    simp only [Option.bind_eq_bind, Option.bind_some, e1, e2, Option.map_some, this, List.foldlM_cons, List.foldlM_nil, Option.pure_def,
      Option.bind_assoc]
  refine ⟨key, ?_⟩
  rw [key]
  exact C69_length he hn hN hP hQ (by simpa using mP) (by simpa using mQ)

end

section comb
variable {n : Nat}

theorem comb_at {s : ℝ} {u v w : SnVec} (hu : Ok n u) (hv : Ok n v) (hw : Ok n w) (h : IsComb s u v w) {x : List Nat} (hx : x ∈ vkeys u) :
    ∀ i < dimOf x, ∀ j < (partAt u x).m, (partAt u x).data i j = s * (partAt v x).data i j + (partAt w x).data i j := by
  obtain ⟨s1, s2, h⟩ := h
  have k1 := sameType_keys s1
  have k2 := sameType_keys s2
  obtain ⟨k, a1, a2, a3, a4, a5⟩ := index_partAt hu hx
  have gt : ∀ {z : SnVec}, Ok n z → vkeys u = vkeys z → z[k]? = some (partAt z x) := by
    intro z hz e
    have a3' : (vkeys z)[k]? = some x := by rw [← e]; exact a3
    rw [List.getElem?_map] at a3'
    obtain ⟨P, hP, e2⟩ := Option.map_eq_some_iff.1 a3'
    rw [hP, ← e2, partAt_of_mem hz.nodup (List.mem_of_getElem? hP)]
  intro i hi j hj
  refine h k _ _ _ a2 (gt hv k1) (gt hw k2) i ?_ j hj
  rw [part_d hu a4, a5]; exact hi

theorem comb_of {s : ℝ} {u v w : SnVec} (hu : Ok n u) (hv : Ok n v) (hw : Ok n w) (s1 : SameType u v) (s2 : SameType u w)
    (h : ∀ x ∈ vkeys u, ∀ i < dimOf x, ∀ j < (partAt u x).m, (partAt u x).data i j = s * (partAt v x).data i j + (partAt w x).data i j) :
    IsComb s u v w := by
  refine ⟨s1, s2, fun k P Q R hP hQ hR i hi j hj => ?_⟩
  have mP := List.mem_of_getElem? hP
  have key : ∀ {z : SnVec} {Z : VPart}, Ok n z → vkeys u = vkeys z → z[k]? = some Z → partAt z P.irrep.lambda = Z := by
    intro z Z hz e hZ
    have : Z.irrep.lambda = P.irrep.lambda := by
      have h1 : (vkeys u)[k]? = some P.irrep.lambda := by rw [List.getElem?_map, hP]; rfl
      have h2 : (vkeys z)[k]? = some Z.irrep.lambda := by rw [List.getElem?_map, hZ]; rfl
      rw [← e, h1] at h2
      exact (Option.some.inj h2).symm
    rw [← this, partAt_of_mem hz.nodup (List.mem_of_getElem? hZ)]
  have := h P.irrep.lambda (List.mem_map.2 ⟨P, mP, rfl⟩) i (by rw [← part_d hu mP]; exact hi) j (by rw [key hu rfl hP]; exact hj)
  rwa [key hu rfl hP, key hv (sameType_keys s1) hQ, key hw (sameType_keys s2) hR] at this

end comb

section
variable {eig : Eig} (he : EigOk eig) {n : Nat} (hn : 1 ≤ n) (hN : n ≤ 1234567)
include he hn hN

theorem C70_aux {x1 x2 x3 y1 y2 y3 : SnVec} (s : ℝ) (hx1 : Ok n x1) (hx2 : Ok n x2) (hx3 : Ok n x3) (hy1 : Ok n y1) (hy2 : Ok n y2) (hy3 : Ok n y3)
    (mx : ∀ P ∈ x1, P.m = 1) (my : ∀ P ∈ y1, P.m = 1) (sx2 : SameType x1 x2) (sx3 : SameType x1 x3) (sy2 : SameType y1 y2) (sy3 : SameType y1 y3)
    (h : ∀ p ∈ vkeys x1, ∀ q ∈ vkeys y1, ∀ i < dimOf p, ∀ j < dimOf q, (partAt x1 p).data i 0 * (partAt y1 q).data j 0 =
      s * ((partAt x2 p).data i 0 * (partAt y2 q).data j 0) + (partAt x3 p).data i 0 * (partAt y3 q).data j 0) :
    ∃ R1 R2 R3, cgVec eig x1 y1 = some R1 ∧ cgVec eig x2 y2 = some R2 ∧ cgVec eig x3 y3 = some R3 ∧ IsComb s R1 R2 R3 := by
  obtain ⟨R1, e1, a1, a2, a3, a4⟩ := vec_ok' hn (accAny_ok he hn hN) hx1 hy1 mx my
  obtain ⟨R2, e2, b1, b2, b3, b4⟩ := vec_ok' hn (accAny_ok he hn hN) hx2 hy2 (one_col sx2 mx) (one_col sy2 my)
  obtain ⟨R3, e3, c1, c2, c3, c4⟩ := vec_ok' hn (accAny_ok he hn hN) hx3 hy3 (one_col sx3 mx) (one_col sy3 my)
  rw [← sameType_keys sx2, ← sameType_keys sy2] at b2 b3 b4
  rw [← sameType_keys sx3, ← sameType_keys sy3] at c2 c3 c4
  have k2 : vkeys R1 = vkeys R2 := keys_eq a1 b1 fun p => by rw [a2 p, b2 p]
  have k3 : vkeys R1 = vkeys R3 := keys_eq a1 c1 fun p => by rw [a2 p, c2 p]
  refine ⟨R1, R2, R3, e1, e2, e3, comb_of a1 b1 c1 (sameType_of a1 b1 k2 fun p hp => by rw [a3 p hp, b3 p (k2 ▸ hp)])
    (sameType_of a1 c1 k3 fun p hp => by rw [a3 p hp, c3 p (k3 ▸ hp)]) fun p hp r hr c hc => ?_⟩
  rw [a3 p hp] at hc
  rw [a4 p hp r hr c hc, b4 p (k2 ▸ hp) r hr c hc, c4 p (k3 ▸ hp) r hr c hc]
  have hl := loc_mem hc
  generalize loc n (prs (vkeys x1) (vkeys y1)) p c = l at hl ⊢
  obtain ⟨e, d⟩ := l
  have hm := mem_prs.1 hl.1
  unfold prodVal
  dsimp only
  rw [Finset.mul_sum, ← Finset.sum_add_distrib]
  refine Finset.sum_congr rfl fun z _ => ?_
  rw [h e.1 hm.1 e.2 hm.2 _ (fstIx (a := (irrOf e.1).d) (b := (irrOf e.2).d) z).2 _ (sndIx (a := (irrOf e.1).d) (b := (irrOf e.2).d) z).2]
  ring

/-- **C70.** `CGproduct` is linear in the first vector … -/
theorem C70_linear_left {x1 x2 x3 y : SnVec} (s : ℝ) (hx1 : Ok n x1) (hx2 : Ok n x2) (hx3 : Ok n x3) (hy : Ok n y)
    (mx : ∀ P ∈ x1, P.m = 1) (my : ∀ P ∈ y, P.m = 1) (h : IsComb s x1 x2 x3) :
    ∃ R1 R2 R3, cgVec eig x1 y = some R1 ∧ cgVec eig x2 y = some R2 ∧ cgVec eig x3 y = some R3 ∧ IsComb s R1 R2 R3 := by
  refine C70_aux he hn hN s hx1 hx2 hx3 hy hy hy mx my h.1 h.2.1 rfl rfl fun p hp q hq i hi j hj => ?_
  rw [comb_at hx1 hx2 hx3 h hp i hi 0 (by rw [partAt_m hx1 mx hp]; omega)]
  ring

/-- **C70.** … and in the second. -/
theorem C70_linear_right {x y1 y2 y3 : SnVec} (s : ℝ) (hx : Ok n x) (hy1 : Ok n y1) (hy2 : Ok n y2) (hy3 : Ok n y3)
    (mx : ∀ P ∈ x, P.m = 1) (my : ∀ P ∈ y1, P.m = 1) (h : IsComb s y1 y2 y3) :
    ∃ R1 R2 R3, cgVec eig x y1 = some R1 ∧ cgVec eig x y2 = some R2 ∧ cgVec eig x y3 = some R3 ∧ IsComb s R1 R2 R3 := by
  refine C70_aux he hn hN s hx hx hx hy1 hy2 hy3 mx my rfl rfl h.1 h.2.1 fun p hp q hq i hi j hj => ?_
  rw [comb_at hy1 hy2 hy3 h hq j hj 0 (by rw [partAt_m hy1 my hq]; omega)]
  ring

end

theorem cgVec_nil {eig : Eig} {n : Nat} (hn : 1 ≤ n) {x y : SnVec} (hx : Ok n x) (hy : Ok n y) (h : x = [] ∨ y = []) : cgVec eig x y = some [] := by
  obtain ⟨s', T, e, -, hT, hp, -⟩ := CGState.ok_empty.productTypes hn (typeOf_ok hx) (typeOf_ok hy)
  have hT0 : T = [] := by
    have : parts T = [] := by
      refine List.eq_nil_iff_forall_not_mem.2 fun r hr => ?_
      obtain ⟨-, p, h1, q, h2, -⟩ := (hp r).1 hr
      rw [parts_typeOf] at h1 h2
      rcases h with rfl | rfl <;> simp at h1 h2
    exact List.map_eq_nil_iff.1 this
  unfold cgVec cgVecWith cgTypes
  rw [getType_eq hx, getType_eq hy]
  simp only [Option.bind_eq_bind, Option.bind_some, e, Option.map_some, hT0]
  have h2 : SnVec.zero [] = some [] := rfl
  rw [h2, Option.bind_some]
  rcases h with rfl | rfl
  · rfl
  · have : ∀ (l : SnVec) (s : SnVec × SnType), l.foldlM (fun s P => ([] : SnVec).foldlM (fun s Q => cgAccAny eig s.1 s.2 P Q) s) s = some s := by
      intro l
      induction l with
      | nil => intro s; rfl
      | cons a l ih => intro s; exact ih s
    rw [this]; rfl

/-- **C71.** For `n` at least two the product of two vectors is defined only if no part of one with more (or less) than one
column meets a part of the other: the sizes of the blocks that are added do not fit. -/
theorem C71_defined_iff {eig : Eig} (he : EigOk eig) {n : Nat} (hn : 2 ≤ n) (hN : n ≤ 1234567) {x y : SnVec} (hx : Ok n x) (hy : Ok n y) :
    (cgVec eig x y).isSome ↔ ∀ P ∈ x, ∀ Q ∈ y, P.m = 1 ∧ Q.m = 1 := by
  constructor
  · intro h P hP Q hQ
    by_contra hm
    refine absurd h ?_
    suffices cgVec eig x y = none by rw [this]; simp
    unfold cgVec cgVecWith
    simp only [Option.bind_eq_bind]
    rw [Option.bind_eq_none_iff]; intro tx _
    rw [Option.bind_eq_none_iff]; intro ty _
    rw [Option.bind_eq_none_iff]; intro t _
    rw [Option.bind_eq_none_iff]; intro R _
    rw [foldlM_none hP]
    · rfl
    intro s
    refine foldlM_none hQ (fun s => ?_) s
    have pP := (hx.part P hP).1
    unfold cgAccAny
    rw [getn_eq, pP.sum, lookup_irr hx hP, lookup_irr hy hQ]
    refine acc_none he hn pP (hy.part Q hQ).1 ?_ _ _ _ _
    exact fun h => hm ⟨Nat.eq_one_of_mul_eq_one_right h, Nat.eq_one_of_mul_eq_one_left h⟩
  · intro h
    by_cases h1 : x = []
    · rw [cgVec_nil (by omega) hx hy (Or.inl h1)]; rfl
    by_cases h2 : y = []
    · rw [cgVec_nil (by omega) hx hy (Or.inr h2)]; rfl
    obtain ⟨P, hP⟩ := List.exists_mem_of_ne_nil _ h1
    obtain ⟨Q, hQ⟩ := List.exists_mem_of_ne_nil _ h2
    obtain ⟨R, e, -⟩ := C69_length he (by omega) hN hx hy (fun P hP => (h P hP Q hQ).1) (fun Q hQ => (h P hP Q hQ).2)
    rw [e]; rfl

/-- **C71.** The same for two parts. -/
theorem C71_parts {eig : Eig} (he : EigOk eig) {n : Nat} (hn : 2 ≤ n) {P Q : VPart} (hP : Ok n [P]) (hQ : Ok n [Q]) (hm : P.m * Q.m ≠ 1) :
    cgParts eig P Q = none := by
  unfold cgParts
  simp only [Option.bind_eq_bind]
  rw [Option.bind_eq_none_iff]; intro t _
  rw [Option.bind_eq_none_iff]; intro R _
  have pP := (hP.part P (by simp)).1
  unfold cgAccAny
  rw [getn_eq, pP.sum, lookup_irr hP (P := P) (by simp), lookup_irr hQ (P := Q) (by simp)]
  rw [acc_none he hn pP (hQ.part Q (by simp)).1 hm]
  rfl

/-- **C71.** So the product of vectors with several columns is not defined, whatever the solver and the sizes … -/
theorem C71_columns_undefined {eig : Eig} (he : EigOk eig) {n : Nat} (hn : 2 ≤ n) (hN : n ≤ 1234567) (a b : List Nat) (ha : IsPartition n a)
    (hb : IsPartition n b) (I J : Nat) (hIJ : I * J ≠ 1) :
    ∃ x y, Ok n x ∧ Ok n y ∧ getType x = some [(a, (I : Int))] ∧ getType y = some [(b, (J : Int))] ∧ cgVec eig x y = none := by
  have key : ∀ {c : List Nat} (hc : IsPartition n c) (m : Nat), Ok n [mkP c m fun _ _ => 1] ∧ getType [mkP c m fun _ _ => 1] = some [(c, (m : Int))] := by
    intro c hc m
    have h1 : Ok n [mkP c m fun _ _ => 1] :=
      ok_map (by omega) (L := [c]) (by simpa using hc) (List.pairwise_singleton _ _) (fun _ => m) fun _ _ _ => 1
    refine ⟨h1, ?_⟩
    rw [getType_eq h1, typeOf_obs]
    simp only [List.map_cons, List.map_nil]
    rw [show (mkP c m fun _ _ => 1).irrep.lambda = c from (irrOf_spec (by omega) hc).2.1]
    rfl
  refine ⟨_, _, (key ha I).1, (key hb J).1, (key ha I).2, (key hb J).2, ?_⟩
  have := mt (C71_defined_iff he hn hN (key ha I).1 (key hb J).1).1 (fun h => hIJ (by
    have := h _ (List.mem_singleton.2 rfl) _ (List.mem_singleton.2 rfl)
    have h1 : I = 1 := this.1
    have h2 : J = 1 := this.2
    rw [h1, h2]))
  simpa using this

/-- **C71.** … except over `S_1`, where column `i` times column `j` is column `i J + j`. -/
theorem C71_columns_partial {eig : Eig} {P Q : VPart} (hP : Ok 1 [P]) (hQ : Ok 1 [Q]) (h0 : 0 < P.m * Q.m) :
    ∃ R, cgVec eig [P] [Q] = some [R] ∧ Ok 1 [R] ∧ R.m = P.m * Q.m ∧ ∀ i < P.m, ∀ j < Q.m, R.data 0 (i * Q.m + j) = P.data 0 i * Q.data 0 j := by
  have lP : P.irrep.lambda = [1] := isPartition_one (hP.part P (by simp)).1
  have lQ : Q.irrep.lambda = [1] := isPartition_one (hQ.part Q (by simp)).1
  have dP : P.d = 1 := by rw [part_d hP (by simp), lP, dimOf_one]
  have dQ : Q.d = 1 := by rw [part_d hQ (by simp), lQ, dimOf_one]
  obtain ⟨s', T, e, -, hT, hp, hmu⟩ := CGState.ok_empty.productTypes (le_refl 1) (typeOf_ok hP) (typeOf_ok hQ)
  have tP : typeOf (obs [P]) = [([1], (P.m : Int))] := by rw [typeOf_obs]; simp [lP]
  have tQ : typeOf (obs [Q]) = [([1], (Q.m : Int))] := by rw [typeOf_obs]; simp [lQ]
  have m1 : mult T [1] = P.m * Q.m := by
    rw [hmu [1] part_one, tP, tQ]
    simp [typeSum, kronN_one]
  have p1 : parts T = [[1]] := by
    have hnd := hT.nodup
    have hs : parts T ⊆ [[1]] := fun x hx => by rw [isPartition_one (hT.all x hx)]; simp
    have h1 : [1] ∈ parts T := by
      by_contra h
      rw [mult_of_not_mem h] at m1
      have : ((P.m * Q.m : Nat) : Int) = 0 := by push_cast; exact m1.symm
      omega
    have hlen := (List.subperm_of_subset hnd hs).length_le
    match parts T, hlen, h1 with
    | [], _, h => simp at h
    | [x], _, h => rw [List.mem_singleton] at h; rw [h]
    | _ :: _ :: _, h, _ => simp at h
  obtain ⟨Z, hZ⟩ : ∃ Z, Z = mkP [1] (P.m * Q.m) fun _ _ => 0 := ⟨_, rfl⟩
  have z1 : SnVec.zero T = some [Z] := by
    rw [vecZero_eq (le_refl 1) hT (by intro x hx; rw [p1, List.mem_singleton] at hx; rw [hx, m1]; positivity), p1, List.map_cons, List.map_nil, m1, hZ]
    congr 3
  have hzd : Z.d = 1 := by rw [hZ]; exact dimOf_one
  -- the loops
  have inner : ∀ (i : Nat), i < P.m → ∀ k ≤ Q.m, ∀ W : VPart, W.d = 1 → W.m = P.m * Q.m → W.irrep = Z.irrep → ∃ W' : VPart,
      (List.range k).foldlM (fun (W : VPart) j => (P.get 0 i).bind fun u => (Q.get 0 j).bind fun v => W.inc 0 (i * Q.m + j) (u * v)) W = some W' ∧
      W'.d = 1 ∧ W'.m = P.m * Q.m ∧ W'.irrep = Z.irrep ∧ (∀ j < k, W'.data 0 (i * Q.m + j) = W.data 0 (i * Q.m + j) + P.data 0 i * Q.data 0 j) ∧
      ∀ c, (∀ j < k, c ≠ i * Q.m + j) → W'.data 0 c = W.data 0 c := by
    intro i hi k
    induction k with
    | zero => intro _ W w1 w2 w3; exact ⟨W, rfl, w1, w2, w3, by simp, by simp⟩
    | succ k ih =>
      intro hk W w1 w2 w3
      obtain ⟨W', a1, a2, a3, a4, a5, a6⟩ := ih (by omega) W w1 w2 w3
      rw [List.range_succ, List.foldlM_append, a1]
      have hlt : i * Q.m + k < P.m * Q.m := by
        calc i * Q.m + k < i * Q.m + Q.m := by omega
          _ = (i + 1) * Q.m := by ring
          _ ≤ P.m * Q.m := Nat.mul_le_mul_right _ hi
      refine ⟨{ W' with data := fun i' j' => if i' = 0 ∧ j' = i * Q.m + k then W'.data i' j' + P.data 0 i * Q.data 0 k else W'.data i' j' }, ?_, a2, a3, a4, ?_, ?_⟩
      · simp only [Option.bind_eq_bind, Option.bind_some, List.foldlM_cons, List.foldlM_nil]
        rw [VPart.get_eq P (by omega) hi, VPart.get_eq Q (by omega) (by omega)]
        simp only [Option.bind_some]
        unfold VPart.inc
        rw [if_pos ⟨by omega, by omega⟩]
        rfl
      · intro j hj
        dsimp only
        rcases Nat.lt_succ_iff_lt_or_eq.1 hj with h | rfl
        · rw [if_neg (by omega), a5 j h]
        · rw [if_pos ⟨rfl, rfl⟩, a6 _ (by intro j' hj'; omega)]
      · intro c hc
        dsimp only
        rw [if_neg (by have := hc k (by omega); tauto), a6 c fun j hj => hc j (by omega)]
  have outer : ∀ k ≤ P.m, ∃ W : VPart,
      (List.range k).foldlM (fun (W : VPart) i => (List.range Q.m).foldlM (fun (W : VPart) j => (P.get 0 i).bind fun u => (Q.get 0 j).bind fun v =>
        W.inc 0 (i * Q.m + j) (u * v)) W) Z = some W ∧
      W.d = 1 ∧ W.m = P.m * Q.m ∧ W.irrep = Z.irrep ∧ (∀ i < k, ∀ j < Q.m, W.data 0 (i * Q.m + j) = P.data 0 i * Q.data 0 j) ∧
      ∀ c, k * Q.m ≤ c → W.data 0 c = 0 := by
    intro k
    induction k with
    | zero => intro _; exact ⟨Z, rfl, hzd, by rw [hZ]; rfl, rfl, by simp, by rw [hZ]; intro _ _; rfl⟩
    | succ k ih =>
      intro hk
      obtain ⟨W, a1, a2, a3, a4, a5, a6⟩ := ih (by omega)
      obtain ⟨W', b1, b2, b3, b4, b5, b6⟩ := inner k (by omega) Q.m le_rfl W a2 a3 a4
      rw [List.range_succ, List.foldlM_append, a1]
      refine ⟨W', ?_, b2, b3, b4, ?_, ?_⟩
      · simp only [Option.bind_eq_bind, Option.bind_some, List.foldlM_cons, List.foldlM_nil]
        rw [b1]; rfl
      · intro i hi j hj
        rcases Nat.lt_succ_iff_lt_or_eq.1 hi with h | rfl
        · rw [b6, a5 i h j hj]
          intro j' _
          have : i * Q.m + Q.m ≤ k * Q.m := by
            calc i * Q.m + Q.m = (i + 1) * Q.m := by ring
              _ ≤ k * Q.m := Nat.mul_le_mul_right _ h
          omega
        · rw [b5 j hj, a6 _ (by omega), zero_add]
      · intro c hc
        have : (k + 1) * Q.m = k * Q.m + Q.m := by ring
        rw [b6 c (by intro j hj; omega), a6 c (by omega)]
  obtain ⟨W, a1, a2, a3, a4, a5, -⟩ := outer P.m le_rfl
  obtain ⟨offs', o1, -⟩ := SnType.add_ok ((P.m : Int) * Q.m) (typeOk_nil 1) part_one
  have lZ : Z.irrep = irrOf [1] := by rw [hZ]; rfl
  have lW : W.irrep.lambda = [1] := by rw [a4, lZ]; exact (irrOf_spec (le_refl 1) part_one).2.1
  refine ⟨W, ?_, ⟨?_, List.pairwise_singleton _ _⟩, a3, a5⟩
  · unfold cgVec cgVecWith cgTypes
    rw [getType_eq hP, getType_eq hQ]
    simp only [Option.bind_eq_bind, Option.bind_some, e, Option.map_some, z1, List.foldlM_cons, List.foldlM_nil]
    have : cgAccAny eig [Z] [] P Q = some ([W], offs') := by
      unfold cgAccAny
      rw [lP]
      show (if IP.getn Q.irrep.lambda = 1 then _ else _) = _
      rw [lQ, if_pos (by rfl)]
      simp only [Option.bind_eq_bind]
      refine Option.bind_eq_some_iff.2 ⟨Z, rfl, ?_⟩
      refine Option.bind_eq_some_iff.2 ⟨W, a1, ?_⟩
      exact Option.bind_eq_some_iff.2 ⟨offs', o1, rfl⟩
    simp only [this]
    rfl
  · intro R hR
    rw [List.mem_singleton] at hR
    subst hR
    rw [lW, a2, a4, lZ]
    exact ⟨part_one, (irrOf_spec (le_refl 1) part_one).1, dimOf_one.symm⟩

/-- a vector of `(2,1)` with one column -/
noncomputable def exVec (s t : ℝ) : SnVec := [mkP [2, 1] 1 fun i _ => if i = 0 then s else t]

theorem exVec_ok (s t : ℝ) : Ok 3 (exVec s t) :=
  ok_map (L := [[2, 1]]) (by norm_num) (by simpa using part21) (by simp) (fun _ => 1) fun _ i _ => if i = 0 then s else t

theorem exVec_dot (s t s' t' : ℝ) : dot (exVec s t) (exVec s' t') = s * s' + t * t' := by
  unfold exVec dot
  simp only [List.zipWith_cons_cons, List.zipWith_nil_left, List.sum_cons, List.sum_nil, add_zero]
  rw [show (mkP [2, 1] 1 fun i _ => if i = 0 then s else t).d = 2 from dimOf_ex.1]
  simp [mkP, Finset.sum_range_succ]

/-- the product of (1,2) and (3,4) has squared length 125, with any solver; there is one -/
example : ∃ R, cgVec eigS (exVec 1 2) (exVec 3 4) = some R ∧ dot R R = 125 := by
  obtain ⟨R, h1, h2⟩ := C69_length eigS_ok (n := 3) (by norm_num) (by norm_num) (exVec_ok 1 2) (exVec_ok 3 4) (by simp [exVec, mkP]) (by simp [exVec, mkP])
  exact ⟨R, h1, by rw [h2, exVec_dot, exVec_dot]; norm_num⟩

/-- products of orthogonal vectors are orthogonal -/
example : ∃ R R', cgVec eigS (exVec 1 2) (exVec 3 4) = some R ∧ cgVec eigS (exVec 2 (-1)) (exVec 3 5) = some R' ∧ dot R R' = 0 := by
  obtain ⟨R, R', h1, h2, -, -, -, -, h3⟩ := C69_inner_products eigS_ok (n := 3) (by norm_num) (by norm_num) (exVec_ok 1 2) (exVec_ok 3 4)
    (exVec_ok 2 (-1)) (exVec_ok 3 5) (by simp [exVec, mkP]) (by simp [exVec, mkP]) rfl rfl
  exact ⟨R, R', h1, h2, by rw [h3, exVec_dot]; norm_num⟩

example : ∃ R1 R2 R3, cgVec eigS (exVec 5 8) (exVec 3 4) = some R1 ∧ cgVec eigS (exVec 2 3) (exVec 3 4) = some R2 ∧
    cgVec eigS (exVec 1 2) (exVec 3 4) = some R3 ∧ IsComb 2 R1 R2 R3 :=
  C70_linear_left eigS_ok (n := 3) (by norm_num) (by norm_num) 2 (exVec_ok 5 8) (exVec_ok 2 3) (exVec_ok 1 2) (exVec_ok 3 4)
    (by simp [exVec, mkP]) (by simp [exVec, mkP]) ⟨rfl, rfl, by
      intro k P Q R hP hQ hR i _ j _
      match k with
      | 0 =>
        rw [← Option.some.inj (show some _ = some P from hP), ← Option.some.inj (show some _ = some Q from hQ),
          ← Option.some.inj (show some _ = some R from hR)]
        simp only [mkP]
        split_ifs <;> norm_num
      | k + 1 => exact absurd hP (by simp [exVec])⟩

example : cgVec eigS [exPart] (exVec 3 4) = none := by
  have := mt (C71_defined_iff eigS_ok (n := 3) (by norm_num) (by norm_num) exPart_ok (exVec_ok 3 4)).1 (fun h =>
    absurd (show 2 = 1 from (h _ (List.mem_singleton.2 rfl) _ (List.mem_singleton.2 rfl)).1) (by norm_num))
  simpa using this

/-- over `S_1`, columns 2, 3 times columns 5, 7 -/
example : ∃ R, cgVec eigS [mkP [1] 2 fun _ j => 2 + j] [mkP [1] 2 fun _ j => 5 + 2 * j] = some [R] ∧ R.m = 4 ∧ R.data 0 1 = 14 ∧ R.data 0 2 = 15 := by
  obtain ⟨R, h1, -, h2, h3⟩ := C71_columns_partial (eig := eigS) (P := mkP [1] 2 fun _ j => 2 + j) (Q := mkP [1] 2 fun _ j => 5 + 2 * j)
    (ok_map (L := [[1]]) (by norm_num) (by simpa using part_one) (by simp) (fun _ => 2) fun _ _ j => 2 + j)
    (ok_map (L := [[1]]) (by norm_num) (by simpa using part_one) (by simp) (fun _ => 2) fun _ _ j => 5 + 2 * j) (by simp [mkP])
  refine ⟨R, h1, by rw [h2]; rfl, ?_, ?_⟩
  · have := h3 0 (by simp [mkP]) 1 (by simp [mkP])
    simp only [mkP] at this
    norm_num at this
    exact this
  · have := h3 1 (by simp [mkP]) 0 (by simp [mkP])
    simp only [mkP] at this
    norm_num at this
    exact this

end Snob.Props
