import Verif.Proofs.SnVecUp2

/-! Vectors: induction undoes restriction; both commute with the group (C49, C50). -/

namespace Snob

open SnVec (Ok obs typeOf mulCol)

/-! ### types -/

theorem typeOf_obs (v : SnVec) : typeOf (obs v) = v.map fun P => (P.irrep.lambda, (P.m : Int)) := by
  unfold typeOf obs
  rw [List.map_map]
  refine List.map_congr_left fun P _ => ?_
  simp [VPart.cols]

theorem typeOf_ok {n : Nat} {v : SnVec} (hv : Ok n v) : TypeOk n (typeOf (obs v)) := by
  rw [typeOf_obs]
  have : parts (v.map fun P => (P.irrep.lambda, (P.m : Int))) = v.map fun P => P.irrep.lambda := by
    unfold parts; rw [List.map_map]; rfl
  constructor
  · rw [this]
    intro x hx
    obtain ⟨P, hP, rfl⟩ := List.mem_map.1 hx
    exact (hv.part P hP).1
  · rw [this]; exact hv.sorted

theorem parts_typeOf (v : SnVec) : parts (typeOf (obs v)) = v.map fun P => P.irrep.lambda := by
  rw [typeOf_obs]; unfold parts; rw [List.map_map]; rfl

theorem mult_typeOf {n : Nat} {v : SnVec} (hv : Ok n v) {P : VPart} (hP : P ∈ v) :
    mult (typeOf (obs v)) P.irrep.lambda = P.m := by
  have := lookup_of_mem (typeOf_ok hv).nodup (e := (P.irrep.lambda, (P.m : Int))) (by
    rw [typeOf_obs]; exact List.mem_map.2 ⟨P, hP, rfl⟩)
  exact this

theorem getType_loop (v : SnVec) (t : SnType) :
    v.foldlM (fun R P => SnType.set R P.irrep.lambda P.m) t =
      SnType.ofList (v.map fun P => (P.irrep.lambda, (P.m : Int))) t := by
  induction v generalizing t with
  | nil => rfl
  | cons P v ih =>
    rw [List.foldlM_cons, List.map_cons, SnType.ofList]
    simp only [ih]

theorem getType_eq {n : Nat} {v : SnVec} (hv : Ok n v) : SnVec.getType v = some (typeOf (obs v)) := by
  unfold SnVec.getType
  rw [getType_loop, ← typeOf_obs]
  exact SnType.ofList_self (typeOf_ok hv)

theorem addType_loop (v : SnVec) (t : SnType) :
    v.foldlM (fun tau P => SnType.add tau P.irrep.lambda P.m) t = SnType.addType t (typeOf (obs v)) 1 := by
  rw [typeOf_obs]
  induction v generalizing t with
  | nil => rfl
  | cons P v ih =>
    rw [List.foldlM_cons, List.map_cons, SnType.addType]
    simp only [ih, one_mul]

theorem catType_eq (vs : List SnVec) : SnVec.catType vs = SnType.cat (vs.map fun v => typeOf (obs v)) [] := by
  unfold SnVec.catType
  generalize ([] : SnType) = t
  induction vs generalizing t with
  | nil => rfl
  | cons v vs ih =>
    rw [List.foldlM_cons, List.map_cons, SnType.cat, addType_loop]
    simp only [ih]

theorem addAllSubs_loop (l : List (List Nat)) (m : Nat) (R : SnVec) (hk : R.map (fun Q => Q.irrep.lambda) = l)
    (hm : ∀ Q ∈ R, Q.m = m) (t : SnType) :
    R.foldlM (fun tau P => SnType.add tau P.irrep.lambda P.m) t = SnType.addAllSubs t l m := by
  subst hk
  induction R generalizing t with
  | nil => rfl
  | cons P v ih =>
    rw [List.foldlM_cons, List.map_cons, SnType.addAllSubs, hm P (by simp)]
    simp only [ih fun Q hQ => hm Q (by simp [hQ])]

/-! ### columns -/

theorem colsL_obs (x : List Nat) (v : SnVec) : colsL x v = (obs v).flatMap fun e => if e.1 = x then e.2 else [] := by
  unfold colsL obs; rw [List.flatMap_map]

theorem flatMap_single {β : Type} {S : List (List Nat)} (hnd : S.Nodup) (F : List Nat → List β) (mu : List Nat) :
    (S.flatMap fun nu => if nu = mu then F nu else []) = if mu ∈ S then F mu else [] := by
  induction S with
  | nil => simp
  | cons a S ih =>
    rw [List.nodup_cons] at hnd
    rw [List.flatMap_cons, ih hnd.2]
    by_cases h : a = mu
    · subst h; simp [hnd.1]
    · simp [h, Ne.symm h]

theorem sum_single {α : Type} [DecidableEq α] {S : List α} (hnd : S.Nodup) (F : α → ℝ) (mu : α) (h : mu ∈ S) :
    (S.map fun nu => if mu = nu then F nu else 0).sum = F mu := by
  induction S with
  | nil => simp at h
  | cons a S ih =>
    rw [List.nodup_cons] at hnd
    rw [List.map_cons, List.sum_cons]
    rcases List.mem_cons.1 h with rfl | h'
    · have : (S.map fun nu => if mu = nu then F nu else 0) = S.map fun _ => (0 : ℝ) :=
        List.map_congr_left fun nu hnu => if_neg (by rintro rfl; exact hnd.1 hnu)
      rw [this]; simp
    · rw [ih hnd.2 h', if_neg (by rintro rfl; exact hnd.1 h'), zero_add]

theorem sum_flatMap' {α : Type} (S : List α) (F : α → List ℝ) : (S.flatMap F).sum = (S.map fun x => (F x).sum).sum := by
  induction S with
  | nil => rfl
  | cons a S ih => rw [List.flatMap_cons, List.sum_append, ih, List.map_cons, List.sum_cons]

theorem partAt_cols {n : Nat} {w : SnVec} (hw : Ok n w) {mu : List Nat} (h : mu ∈ w.map fun P => P.irrep.lambda) :
    (partAt w mu).cols = colsL mu w := by
  obtain ⟨P, hP, rfl⟩ := List.mem_map.1 h
  rw [partAt_of_mem hw.nodup hP]
  obtain ⟨S1, S2, e⟩ := List.append_of_mem hP
  have hnd := hw.nodup
  rw [e, List.map_append, List.map_cons] at hnd
  unfold colsL
  rw [e, List.flatMap_append, List.flatMap_cons, if_pos rfl]
  have h1 : (S1.flatMap fun Q => if Q.irrep.lambda = P.irrep.lambda then Q.cols else []) = [] := by
    rw [List.flatMap_eq_nil_iff]
    intro Q hQ
    rw [if_neg]
    intro he
    exact (List.nodup_append.1 hnd).2.2 _ (List.mem_map.2 ⟨Q, hQ, rfl⟩) _ (by simp) he
  have h2 : (S2.flatMap fun Q => if Q.irrep.lambda = P.irrep.lambda then Q.cols else []) = [] := by
    rw [List.flatMap_eq_nil_iff]
    intro Q hQ
    rw [if_neg]
    intro he
    have := (List.nodup_append.1 hnd).2.1
    rw [List.nodup_cons] at this
    exact this.1 (List.mem_map.2 ⟨Q, hQ, he⟩)
  rw [h1, h2]; simp

theorem cols_length (P : VPart) : P.cols.length = P.m := by simp [VPart.cols]

theorem cols_mem_length {P : VPart} {c : List ℝ} (h : c ∈ P.cols) : c.length = P.d := by
  unfold VPart.cols at h
  obtain ⟨j, -, rfl⟩ := List.mem_map.1 h
  simp

theorem part_d {n : Nat} {v : SnVec} (hv : Ok n v) {P : VPart} (hP : P ∈ v) : P.d = dimOf P.irrep.lambda := by
  have := lookup_irr hv hP
  conv_lhs => rw [this]
  rfl

/-- the columns of `mu` in the restriction of a vector -/
noncomputable def resCols (mu : List Nat) (v : SnVec) : List (List ℝ) :=
  v.flatMap fun P => if mu ∈ subs P.irrep.lambda then P.cols.map (slice (subs P.irrep.lambda) mu) else []

theorem resCols_length (mu : List Nat) (v : SnVec) (M : List Nat → Nat) (hM : ∀ P ∈ v, M P.irrep.lambda = P.m) :
    (resCols mu v).length = usedBy M (v.map fun P => P.irrep.lambda) mu := by
  unfold resCols usedBy
  rw [List.length_flatMap, List.map_map]
  congr 1
  refine List.map_congr_left fun P hP => ?_
  simp only [Function.comp]
  split_ifs
  · rw [List.length_map, cols_length, hM P hP]
  · rfl

/-- `up` of a vector with the columns of the restriction gives the vector back -/
theorem up_of_res {n : Nat} (hn : 1 ≤ n) {v w : SnVec} (hv : Ok (n + 1) v) (hw : Ok n w)
    (hk : ∀ P ∈ v, ∀ mu ∈ subs P.irrep.lambda, mu ∈ w.map fun P => P.irrep.lambda)
    (hc : ∀ mu, colsL mu w = resCols mu v) :
    ∃ R, SnVec.up (typeOf (obs v)) w = some R ∧ Ok (n + 1) R ∧ obs R = obs v := by
  have ht := typeOf_ok hv
  have hM : ∀ P ∈ v, (mult (typeOf (obs v)) P.irrep.lambda).toNat = P.m := fun P hP => by rw [mult_typeOf hv hP]; simp
  have hpm : ∀ x ∈ parts (typeOf (obs v)), ∃ P ∈ v, P.irrep.lambda = x := by
    intro x hx; rw [parts_typeOf] at hx; exact List.mem_map.1 hx
  have hcols : ∀ P ∈ v, ∀ mu ∈ subs P.irrep.lambda, (partAt w mu).cols = resCols mu v := fun P hP mu hmu => by
    rw [partAt_cols hw (hk P hP mu hmu), hc]
  obtain ⟨R, h1, h2, h3⟩ := up_ok hn hw ht (by
      intro x hx
      obtain ⟨P, hP, rfl⟩ := hpm x hx
      rw [mult_typeOf hv hP]; omega) (by
      intro x hx
      obtain ⟨P, hP, rfl⟩ := hpm x hx
      exact hk P hP) (by
      intro x hx mu hmu
      obtain ⟨P, hP, rfl⟩ := hpm x hx
      rw [← cols_length, hcols P hP mu hmu, resCols_length mu v (fun x => (mult (typeOf (obs v)) x).toNat) hM, parts_typeOf])
  refine ⟨R, h1, h2, ?_⟩
  rw [h3, parts_typeOf]
  conv_rhs => unfold obs
  rw [List.map_map]
  refine List.map_congr_left fun P hP => ?_
  simp only [Function.comp]
  congr 1
  have hx := (hv.part P hP).1
  apply List.ext_getElem
  · simp [hM P hP, cols_length]
  intro j h1 h2
  simp only [List.length_map, List.length_range] at h1
  rw [hM P hP] at h1
  simp only [List.getElem_map, List.getElem_range]
  have hlen := cols_mem_length (List.getElem_mem h2)
  rw [part_d hv hP, dimOf_subs hn hx] at hlen
  conv_rhs => rw [← slices_join (subs_nodup P.irrep.lambda) (P.cols[j]) hlen]
  refine List.flatMap_congr fun mu hmu => ?_
  rw [hcols P hP mu hmu]
  obtain ⟨V1, V2, e⟩ := List.append_of_mem hP
  have hnot : P.irrep.lambda ∉ V1.map fun P => P.irrep.lambda := by
    have := hv.nodup
    rw [e, List.map_append, List.map_cons] at this
    exact fun h => (List.nodup_append.1 this).2.2 _ h _ (by simp) rfl
  have hoff : colOffs (fun x => (mult (typeOf (obs v)) x).toNat) (v.map fun P => P.irrep.lambda) P.irrep.lambda mu =
      (resCols mu V1).length := by
    rw [resCols_length mu V1 (fun x => (mult (typeOf (obs v)) x).toNat) (fun Q hQ => hM Q (by rw [e]; simp [hQ]))]
    unfold colOffs
    have : (v.map fun P => P.irrep.lambda) = (V1.map fun P => P.irrep.lambda) ++ P.irrep.lambda :: V2.map fun P => P.irrep.lambda := by
      conv_lhs => rw [e]
      simp
    rw [this, takeWhile_split hnot]
  rw [hoff]
  have hres : resCols mu v = resCols mu V1 ++ (P.cols.map (slice (subs P.irrep.lambda) mu) ++ resCols mu V2) := by
    unfold resCols
    conv_lhs => rw [e]
    rw [List.flatMap_append, List.flatMap_cons, if_pos hmu]
  rw [hres, List.getD_eq_getElem?_getD, List.getElem?_append_right (by omega), Nat.add_sub_cancel_left,
    List.getElem?_append_left (by simpa using h2), List.getElem?_map, List.getElem?_eq_getElem h2]
  rfl

theorem Ok.single {n : Nat} {v : SnVec} (hv : Ok n v) {P : VPart} (hP : P ∈ v) : Ok n [P] :=
  ⟨fun Q hQ => by rw [List.mem_singleton.1 hQ]; exact hv.part P hP, by simp⟩

/-- all parts restricted -/
theorem downs_ok {n : Nat} (hn : 1 ≤ n) {v : SnVec} (hv : Ok (n + 1) v) :
    ∃ q : VPart → SnVec, v.mapM SnVec.downB = some (v.map q) ∧
      ∀ P ∈ v, SnVec.downB P = some (q P) ∧ Ok n (q P) ∧ (q P).map (fun Q => Q.irrep.lambda) = subs P.irrep.lambda ∧
        obs (q P) = (subs P.irrep.lambda).map (fun mu => (mu, P.cols.map (slice (subs P.irrep.lambda) mu))) ∧
        ∀ Q ∈ q P, Q.m = P.m := by
  have : ∀ P, ∃ R, P ∈ v → SnVec.downB P = some R ∧ Ok n R ∧ R.map (fun Q => Q.irrep.lambda) = subs P.irrep.lambda ∧
        obs R = (subs P.irrep.lambda).map (fun mu => (mu, P.cols.map (slice (subs P.irrep.lambda) mu))) ∧
        ∀ Q ∈ R, Q.m = P.m := by
    intro P
    by_cases hP : P ∈ v
    · obtain ⟨R, hR⟩ := downB_ok hn P (Ok.single hv hP)
      exact ⟨R, fun _ => hR⟩
    · exact ⟨[], fun h => absurd h hP⟩
  choose q hq using this
  exact ⟨q, mapM_map _ _ _ fun P hP => (hq P hP).1, hq⟩

theorem colsL_down {mu : List Nat} {P : VPart} {R : SnVec}
    (h : obs R = (subs P.irrep.lambda).map (fun mu => (mu, P.cols.map (slice (subs P.irrep.lambda) mu)))) :
    colsL mu R = if mu ∈ subs P.irrep.lambda then P.cols.map (slice (subs P.irrep.lambda) mu) else [] := by
  rw [colsL_obs, h, List.flatMap_map]
  exact flatMap_single (subs_nodup _) (fun mu => P.cols.map (slice (subs P.irrep.lambda) mu)) mu

theorem colsL_flatten (mu : List Nat) (vs : List SnVec) : colsL mu vs.flatten = vs.flatMap (colsL mu) := by
  unfold colsL
  induction vs with
  | nil => rfl
  | cons v vs ih => rw [List.flatten_cons, List.flatMap_append, List.flatMap_cons, ih]

/-! ### the group -/

theorem evalN_block {n : Nat} (hn : 1 ≤ n) {x : List Nat} (hx : IsPartition (n + 1) x) (σ : Equiv.Perm (Fin n))
    {mu nu : List Nat} (hmu : mu ∈ subs x) (hnu : nu ∈ subs x) {i j : Nat} (hi : i < dimOf mu) (hj : j < dimOf nu) :
    evalN x (enc (extend σ)) (offOf (subs x) mu + i) (offOf (subs x) nu + j) = if mu = nu then evalN mu (enc σ) i j else 0 := by
  obtain ⟨R, A, ps, S, h1, h2, h3, h4, -, B, h5, h6⟩ := Props.C28_restriction_block_diagonal n hn x hx (enc σ) ⟨σ, rfl⟩
  have hR : R = irrOf x := by
    have := (irrOf_spec (by omega) hx).1
    rw [h1] at this
    exact Option.some.inj this
  rw [← enc_extend, hR, (evalN_spec (by omega) hx (extend σ)).1] at h2
  obtain rfl := Option.some.inj h2
  rw [parents_eq hx (by omega)] at h3
  obtain rfl := Option.some.inj h3
  rw [mapM_map mkIrrep irrOf _ fun mu hmu => (irrOf_spec hn (sub_part hx mu hmu)).1] at h4
  obtain rfl := Option.some.inj h4
  have pos : ∀ mu ∈ subs x, ∃ p, (subs x)[p]? = some mu ∧ ((((subs x).map irrOf).take p).map (·.d)).sum = offOf (subs x) mu := by
    intro mu hmu
    obtain ⟨S1, S2, e⟩ := List.append_of_mem hmu
    have h1 : mu ∉ S1 := by
      have := subs_nodup x
      rw [e] at this
      exact fun h => (List.nodup_append.1 this).2.2 mu h mu (by simp) rfl
    refine ⟨S1.length, by rw [e]; simp, ?_⟩
    rw [e, offOf_split h1, ← List.map_take, List.take_left, List.map_map]
    rfl
  obtain ⟨p, hp, ep⟩ := pos mu hmu
  obtain ⟨r, hr, er⟩ := pos nu hnu
  have hp' : ((subs x).map irrOf)[p]? = some (irrOf mu) := by rw [List.getElem?_map, hp]; rfl
  have hr' : ((subs x).map irrOf)[r]? = some (irrOf nu) := by rw [List.getElem?_map, hr]; rfl
  have := h6 p r (irrOf mu) (irrOf nu) i j hp' hr' hi hj
  rw [ep, er] at this
  rw [this]
  have hB : B p = evalN mu (enc σ) := by
    have := h5 p (irrOf mu) hp'
    rw [(evalN_spec hn (sub_part hx mu hmu) σ).1] at this
    exact (Option.some.inj this).symm
  rw [hB]
  by_cases h : mu = nu
  · subst h
    rw [if_pos rfl, if_pos]
    obtain ⟨hlt, -⟩ := List.getElem?_eq_some_iff.1 hp
    exact (List.getElem?_inj (l := subs x) hlt (subs_nodup x)).1 (hp.trans hr.symm)
  · rw [if_neg h, if_neg]
    rintro rfl
    rw [hp] at hr
    exact h (Option.some.inj hr)

theorem slice_map_range {S : List (List Nat)} {mu : List Nat} {D : Nat} (h : offOf S mu + dimOf mu ≤ D) (F : Nat → ℝ) :
    slice S mu ((List.range D).map F) = (List.range (dimOf mu)).map fun i => F (offOf S mu + i) := by
  unfold slice
  apply List.ext_getElem
  · simp; omega
  · intro i h1 h2
    simp

theorem slice_getD (S : List (List Nat)) (mu : List Nat) (c : List ℝ) {k : Nat} (hk : k < dimOf mu) :
    (slice S mu c).getD k 0 = c.getD (offOf S mu + k) 0 := by
  unfold slice
  rw [List.getD_eq_getElem?_getD, List.getD_eq_getElem?_getD, List.getElem?_take, if_pos hk, List.getElem?_drop]

/-- a column multiplied by an element of the smaller group, piece by piece -/
theorem slice_mulCol {n : Nat} (hn : 1 ≤ n) {x : List Nat} (hx : IsPartition (n + 1) x) (σ : Equiv.Perm (Fin n))
    {mu : List Nat} (hmu : mu ∈ subs x) (c : List ℝ) :
    slice (subs x) mu (mulCol (dimOf x) (evalN x (enc (extend σ))) c) =
      mulCol (dimOf mu) (evalN mu (enc σ)) (slice (subs x) mu c) := by
  have hdim := dimOf_subs hn hx
  have hle : ∀ nu ∈ subs x, offOf (subs x) nu + dimOf nu ≤ dimOf x := fun nu h => by
    rw [hdim]; exact off_le (subs_nodup x) h
  unfold mulCol
  rw [slice_map_range (hle mu hmu)]
  refine List.map_congr_left fun i hi => ?_
  have hi' := List.mem_range.1 hi
  generalize hF : (fun k => evalN x (enc (extend σ)) (offOf (subs x) mu + i) k * c.getD k 0) = F
  have hj : ((List.range (dimOf x)).map F).sum =
      ((subs x).map fun nu => ((List.range (dimOf nu)).map fun b => F (offOf (subs x) nu + b)).sum).sum := by
    conv_lhs => rw [← slices_join (subs_nodup x) ((List.range (dimOf x)).map F) (by simp [hdim])]
    rw [sum_flatMap']
    congr 1
    refine List.map_congr_left fun nu hnu => ?_
    rw [slice_map_range (hle nu hnu)]
  rw [hj]
  have hs : (subs x).map (fun nu => ((List.range (dimOf nu)).map fun b => F (offOf (subs x) nu + b)).sum) =
      (subs x).map fun nu => if mu = nu then ((List.range (dimOf nu)).map fun b => evalN nu (enc σ) i b * (slice (subs x) nu c).getD b 0).sum else 0 := by
    refine List.map_congr_left fun nu hnu => ?_
    by_cases h : mu = nu
    · subst h
      rw [if_pos rfl]
      congr 1
      refine List.map_congr_left fun b hb => ?_
      have hb' := List.mem_range.1 hb
      rw [← hF]
      simp only
      rw [evalN_block hn hx σ hmu hmu hi' hb', if_pos rfl, slice_getD _ _ _ hb']
    · rw [if_neg h]
      have : ((List.range (dimOf nu)).map fun b => F (offOf (subs x) nu + b)) = (List.range (dimOf nu)).map fun _ => (0 : ℝ) := by
        refine List.map_congr_left fun b hb => ?_
        rw [← hF]
        simp only
        rw [evalN_block hn hx σ hmu hnu hi' (List.mem_range.1 hb), if_neg h, zero_mul]
      rw [this]; simp
  rw [hs]
  exact sum_single (subs_nodup x) (fun nu => ((List.range (dimOf nu)).map fun b => evalN nu (enc σ) i b * (slice (subs x) nu c).getD b 0).sum) mu hmu

/-- the restriction of a part commutes with the smaller group -/
theorem down_apply {n : Nat} (hn : 1 ≤ n) (σ : Equiv.Perm (Fin n)) {P P' : VPart} {R R' : SnVec}
    (hx : IsPartition (n + 1) P.irrep.lambda) (hl : P'.irrep.lambda = P.irrep.lambda)
    (hP : P'.cols = P.cols.map (mulCol (dimOf P.irrep.lambda) (evalN P.irrep.lambda (enc (extend σ)))))
    (h : obs R = (subs P.irrep.lambda).map (fun mu => (mu, P.cols.map (slice (subs P.irrep.lambda) mu))))
    (h' : obs R' = (subs P'.irrep.lambda).map (fun mu => (mu, P'.cols.map (slice (subs P'.irrep.lambda) mu)))) :
    obs R' = actObs (enc σ) (obs R) := by
  rw [h, h', hl, hP]
  unfold actObs
  rw [List.map_map]
  refine List.map_congr_left fun mu hmu => ?_
  simp only [Function.comp]
  congr 1
  rw [List.map_map, List.map_map]
  refine List.map_congr_left fun c _ => ?_
  exact slice_mulCol hn hx σ hmu c

theorem colsL_act {a : Arr} {v v' : SnVec} (h : obs v' = actObs a (obs v)) (x : List Nat) :
    colsL x v' = (colsL x v).map (mulCol (dimOf x) (evalN x a)) := by
  rw [colsL_obs, colsL_obs, h]
  unfold actObs
  rw [List.flatMap_map, List.map_flatMap]
  refine List.flatMap_congr fun e _ => ?_
  simp only
  split_ifs with h
  · rw [h]
  · rfl

theorem keys_act {a : Arr} {v v' : SnVec} (h : obs v' = actObs a (obs v)) :
    v'.map (fun P => P.irrep.lambda) = v.map fun P => P.irrep.lambda := by
  have h1 : ∀ v : SnVec, v.map (fun P => P.irrep.lambda) = (obs v).map Prod.fst := by
    intro v; unfold obs; rw [List.map_map]; rfl
  rw [h1, h1, h]
  unfold actObs
  rw [List.map_map]
  rfl

/-- `cat` commutes with the action -/
theorem cat_apply {n : Nat} (hn : 1 ≤ n) (a : Arr) {α : Type} (l : List α) (f g : α → SnVec) (hf : ∀ x ∈ l, Ok n (f x))
    (hg : ∀ x ∈ l, Ok n (g x)) (h : ∀ x ∈ l, obs (g x) = actObs a (obs (f x))) :
    ∃ R R', SnVec.cat (l.map f) = some R ∧ SnVec.cat (l.map g) = some R' ∧ Ok n R ∧ Ok n R' ∧ obs R' = actObs a (obs R) := by
  obtain ⟨t, R, -, a2, a3, a4, a5, a6, a7⟩ := cat_ok hn (l.map f) (by simpa using hf)
  obtain ⟨t', R', -, b2, b3, b4, b5, b6, b7⟩ := cat_ok hn (l.map g) (by simpa using hg)
  refine ⟨R, R', a5, b5, a6, b6, ?_⟩
  have hc : ∀ x, colsL x (l.map g).flatten = (colsL x (l.map f).flatten).map (mulCol (dimOf x) (evalN x a)) := by
    intro x
    rw [colsL_flatten, colsL_flatten, List.flatMap_map, List.flatMap_map, List.map_flatMap]
    exact List.flatMap_congr fun y hy => colsL_act (h y hy) x
  have hk : (l.map g).flatten.map (fun P => P.irrep.lambda) = (l.map f).flatten.map fun P => P.irrep.lambda := by
    rw [List.map_flatten, List.map_flatten, List.map_map, List.map_map]
    congr 1
    exact List.map_congr_left fun y hy => keys_act (h y hy)
  have ht : t' = t := b2.ext a2 (fun x => by rw [a3, b3, hk]) fun x => by rw [a4, b4, hc, List.length_map]
  rw [b7, a7, ht]
  unfold actObs
  rw [List.map_map]
  refine List.map_congr_left fun x _ => ?_
  simp only [Function.comp]
  rw [hc]

end Snob
