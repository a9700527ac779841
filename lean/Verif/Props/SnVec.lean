import Verif.Proofs.SnVecAcc

/-! # Properties C49, C50 and C68: vectors -/

namespace Snob.Props

open IP SnVec

theorem colsAt_eq {n : Nat} {v : SnVec} (hv : Ok n v) (x : List Nat) : colsAt (obs v) x = colsL x v := by
  rw [colsL_obs]
  have hnd : ((obs v).map Prod.fst).Nodup := by
    have := hv.nodup
    unfold obs
    rw [List.map_map]
    exact this
  generalize obs v = o at hnd
  unfold colsAt
  induction o with
  | nil => rfl
  | cons e o ih =>
    rw [List.map_cons, List.nodup_cons] at hnd
    rw [List.lookup_cons, List.flatMap_cons]
    by_cases h : x = e.1
    · subst h
      have : (o.flatMap fun e' => if e'.1 = e.1 then e'.2 else []) = [] := by
        rw [List.flatMap_eq_nil_iff]
        intro e' he'
        rw [if_neg]
        intro h
        exact hnd.1 (h ▸ List.mem_map.2 ⟨e', he', rfl⟩)
      rw [this]
      simp
    · have h' : (x == e.1) = false := by simpa using h
      rw [h', if_neg (Ne.symm h), List.nil_append]
      exact ih hnd.2

/-- **C50.** `cat` of vectors over `S_n` is defined; it has the partitions of its arguments, and for each the columns of
all arguments in the order of the arguments; its type is the sum of the types and the `cat` of the types. -/
theorem C50_cat (n : Nat) (hn : 1 ≤ n) (vs : List SnVec) (hvs : ∀ v ∈ vs, Ok n v) :
    ∃ R ts tau, SnVec.cat vs = some R ∧ Ok n R ∧
      (∀ x, x ∈ (obs R).map Prod.fst ↔ ∃ v ∈ vs, x ∈ (obs v).map Prod.fst) ∧
      (∀ x, colsAt (obs R) x = vs.flatMap fun v => colsAt (obs v) x) ∧
      vs.mapM getType = some ts ∧ getType R = some tau ∧ SnType.cat ts [] = some tau ∧
      ∀ x, mult tau x = (ts.map fun t => mult t x).sum := by
  obtain ⟨tau, R, a1, a2, a3, a4, a5, a6, a7⟩ := cat_ok hn vs hvs
  have hty : typeOf (obs R) = tau := by
    rw [a7]
    conv_rhs => rw [a2.eq_map]
    unfold typeOf
    rw [List.map_map]
    refine List.map_congr_left fun x _ => ?_
    simp only [Function.comp]
    rw [a4]
  have hcols : ∀ x, colsAt (obs R) x = vs.flatMap fun v => colsAt (obs v) x := by
    intro x
    have h1 : (vs.flatMap fun v => colsAt (obs v) x) = colsL x vs.flatten := by
      rw [colsL_flatten]
      exact List.flatMap_congr fun v hv => colsAt_eq (hvs v hv) x
    rw [h1, a7]
    unfold colsAt
    by_cases h : x ∈ parts tau
    · have : ((parts tau).map fun x => (x, colsL x vs.flatten)).lookup x = some (colsL x vs.flatten) := by
        generalize parts tau = l at h
        induction l with
        | nil => simp at h
        | cons y l ih =>
          rw [List.map_cons, List.lookup_cons]
          by_cases e : x = y
          · subst e; simp
          · have h' : (x == y) = false := by simpa using e
            simp only [h']
            exact ih (by simpa [e] using h)
      rw [this]; rfl
    · have h2 : ((parts tau).map fun x => (x, colsL x vs.flatten)).lookup x = none := by
        rw [List.lookup_eq_none_iff]
        intro e he
        obtain ⟨y, hy, rfl⟩ := List.mem_map.1 he
        have : x ≠ y := by rintro rfl; exact h hy
        simpa using this
      rw [h2]
      symm
      unfold colsL
      rw [Option.getD_none, List.flatMap_eq_nil_iff]
      intro P hP
      rw [if_neg]
      rintro rfl
      exact h ((a3 _).2 (List.mem_map.2 ⟨P, hP, rfl⟩))
  refine ⟨R, vs.map fun v => typeOf (obs v), tau, a5, a6, ?_, hcols, mapM_map _ _ _ fun v hv => getType_eq (hvs v hv),
    by rw [getType_eq a6, hty], by rw [← catType_eq, a1], ?_⟩
  · intro x
    rw [a7, List.map_map]
    have : (parts tau).map (Prod.fst ∘ fun x => (x, colsL x vs.flatten)) = parts tau := by
      conv_rhs => rw [← List.map_id (parts tau)]
      rfl
    rw [this, a3, List.map_flatten, List.mem_flatten]
    constructor
    · rintro ⟨l, hl, h⟩
      obtain ⟨v, hv, rfl⟩ := List.mem_map.1 hl
      refine ⟨v, hv, ?_⟩
      unfold obs
      rw [List.map_map]
      exact h
    · rintro ⟨v, hv, h⟩
      refine ⟨_, List.mem_map.2 ⟨v, hv, rfl⟩, ?_⟩
      unfold obs at h
      rw [List.map_map] at h
      exact h
  · intro x
    rw [a4, colsL_flatten, List.length_flatMap, Nat.cast_list_sum, List.map_map, List.map_map]
    congr 1
    refine List.map_congr_left fun v hv => ?_
    simp only [Function.comp]
    exact (mult_typeOf' (hvs v hv) x).symm

/-- **C50.** `cat` commutes with the group: acting on the result is the same as acting on the arguments. -/
theorem C50_cat_action (n : Nat) (hn : 1 ≤ n) (vs : List SnVec) (hvs : ∀ v ∈ vs, Ok n v) (a : Arr) (ha : IsPerm n a) :
    ∃ R w ws R', SnVec.cat vs = some R ∧ SnVec.apply R a = some w ∧ (vs.mapM fun v => SnVec.apply v a) = some ws ∧
      SnVec.cat ws = some R' ∧ obs w = obs R' := by
  obtain ⟨σ, rfl⟩ := ha
  have : ∀ v, ∃ w, v ∈ vs → SnVec.apply v (enc σ) = some w ∧ Ok n w ∧ obs w = actObs (enc σ) (obs v) := by
    intro v
    by_cases hv : v ∈ vs
    · obtain ⟨w, h1, h2, h3, -⟩ := vecApply_ok hn σ v (hvs v hv)
      exact ⟨w, fun _ => ⟨h1, h2, h3⟩⟩
    · exact ⟨[], fun h => absurd h hv⟩
  choose q hq using this
  obtain ⟨R, R', b1, b2, b3, b4, b5⟩ := cat_apply hn (enc σ) vs id q hvs (fun v hv => (hq v hv).2.1) (fun v hv => (hq v hv).2.2)
  rw [List.map_id] at b1
  obtain ⟨w, c1, -, c3, -⟩ := vecApply_ok hn σ R b3
  exact ⟨R, w, vs.map q, R', b1, c1, mapM_map _ _ _ fun v hv => (hq v hv).1, b2, by rw [c3, b5]⟩

/-- **C49.** Acting on a vector multiplies every column by the matrix of the group element in the irrep of the part. -/
theorem C49_apply (n : Nat) (hn : 1 ≤ n) (v : SnVec) (hv : Ok n v) (a : Arr) (ha : IsPerm n a) :
    ∃ w, SnVec.apply v a = some w ∧ Ok n w ∧
      ∀ (k : Nat) (P : VPart), v[k]? = some P → ∃ (Q : VPart) (A : Nat → Nat → ℝ), w[k]? = some Q ∧ Q.irrep = P.irrep ∧ P.irrep.eval a = some A ∧
        Q.cols = P.cols.map (mulCol P.irrep.d A) := by
  obtain ⟨σ, rfl⟩ := ha
  obtain ⟨w, h1, h2, h3, h4, -⟩ := vecApply_ok hn σ v hv
  refine ⟨w, h1, h2, fun k P hk => ?_⟩
  have hP := List.mem_of_getElem? hk
  obtain ⟨hx, hi, -⟩ := hv.part P hP
  have hirr : irrOf P.irrep.lambda = P.irrep := by unfold irrOf; rw [hi]; rfl
  have h5 : (obs w)[k]? = some (P.irrep.lambda, P.cols.map (mulCol (dimOf P.irrep.lambda) (evalN P.irrep.lambda (enc σ)))) := by
    rw [h3]
    unfold actObs obs
    rw [List.getElem?_map, List.getElem?_map, hk]
    rfl
  unfold obs at h5
  rw [List.getElem?_map, Option.map_eq_some_iff] at h5
  obtain ⟨Q, hQ, h6⟩ := h5
  obtain ⟨h7, h8⟩ := Prod.mk.inj h6
  obtain ⟨-, hi', -⟩ := h2.part Q (List.mem_of_getElem? hQ)
  rw [h7, hi] at hi'
  refine ⟨Q, evalN P.irrep.lambda (enc σ), hQ, (Option.some.inj hi').symm, ?_, ?_⟩
  · rw [← (evalN_spec hn hx σ).1, hirr]
  · rw [h8]
    unfold dimOf
    rw [hirr]

/-- **C49.** The restriction of a part: its parts are the sub-partitions in the order of `foreach_sub`, with as many
columns, and every column is cut into the columns of the parts. Inducing back gives the part. -/
theorem C49_downB (n : Nat) (hn : 1 ≤ n) (P : VPart) (hP : Ok (n + 1) [P]) :
    ∃ R, SnVec.downB P = some R ∧ Ok n R ∧ IP.parents P.irrep.lambda = some (R.map fun Q => Q.irrep.lambda) ∧
      (∀ Q ∈ R, Q.m = P.m) ∧
      (∀ j < P.m, R.flatMap (fun Q => Q.cols.getD j []) = P.cols.getD j []) ∧
      ∃ R', SnVec.up [(P.irrep.lambda, P.m)] R = some R' ∧ obs R' = obs [P] := by
  obtain ⟨R, h1, h2, h3, h4, h5⟩ := downB_ok hn P hP
  have hx := (hP.part P (by simp)).1
  refine ⟨R, h1, h2, by rw [h3]; exact parents_eq hx (by omega), h5, ?_, ?_⟩
  · intro j hj
    have hj' : j < P.cols.length := by rw [cols_length]; exact hj
    have e1 : R.flatMap (fun Q => Q.cols.getD j []) = (obs R).flatMap fun e => e.2.getD j [] := by
      unfold obs; rw [List.flatMap_map]
    rw [e1, h4, List.flatMap_map, getD_lt _ _ hj']
    have hlen := cols_mem_length (List.getElem_mem hj')
    rw [part_d hP (by simp), dimOf_subs hn hx] at hlen
    conv_rhs => rw [← slices_join (subs_nodup P.irrep.lambda) (P.cols[j]) hlen]
    refine List.flatMap_congr fun mu _ => ?_
    simp only
    rw [getD_lt _ _ (by simpa using hj'), List.getElem_map]
  · obtain ⟨R', b1, -, b3⟩ := up_of_res hn hP h2 (by
        intro Q hQ mu hmu
        rw [List.mem_singleton.1 hQ] at hmu
        rw [h3]; exact hmu) (by
        intro mu
        rw [colsL_down h4]
        simp [resCols])
    rw [typeOf_obs] at b1
    exact ⟨R', b1, b3⟩

/-- **C49.** Restricting all parts of a vector and putting the results together, then inducing with the type of the
vector, gives the vector back; the type of the restriction is the restriction of the type. -/
theorem C49_up_of_down (n : Nat) (hn : 1 ≤ n) (v : SnVec) (hv : Ok (n + 1) v) :
    ∃ ws w tau R, v.mapM SnVec.downB = some ws ∧ SnVec.cat ws = some w ∧ Ok n w ∧ getType v = some tau ∧
      SnType.down tau = getType w ∧ SnVec.up tau w = some R ∧ obs R = obs v := by
  obtain ⟨ws, w, h1, h2, h3, h4, h5, h6⟩ := restrict_ok hn hv
  obtain ⟨R, b1, -, b3⟩ := up_of_res hn hv h3 (fun P hP mu hmu => (h5 mu).2 ⟨P, hP, hmu⟩) h4
  exact ⟨ws, w, typeOf (obs v), R, h1, h2, h3, getType_eq hv, by rw [h6, getType_eq h3], b1, b3⟩

/-- **C49.** Conversely a vector whose type is the restriction of `tau` can be induced to the type `tau`, and the
restriction of the result is the vector. -/
theorem C49_down_of_up (n : Nat) (hn : 1 ≤ n) (v : SnVec) (hv : Ok n v) (tau : SnType) (ht : TypeOk (n + 1) tau)
    (hm : ∀ x ∈ parts tau, 0 ≤ mult tau x) (hd : SnType.down tau = getType v) :
    ∃ R ws w, SnVec.up tau v = some R ∧ Ok (n + 1) R ∧ getType R = some tau ∧ R.mapM SnVec.downB = some ws ∧
      SnVec.cat ws = some w ∧ obs w = obs v := by
  rw [getType_eq hv] at hd
  obtain ⟨R, a1, a2, a3⟩ := upType_ok hn hv ht hm hd
  obtain ⟨ws, w, b1, b2, b3, b4, b5, b6⟩ := restrict_ok hn a2
  have hty : typeOf (obs R) = tau := by
    rw [a3]
    conv_rhs => rw [ht.eq_map]
    unfold typeOf
    rw [List.map_map]
    refine List.map_congr_left fun x hx => ?_
    simp only [Function.comp, List.length_map, List.length_range]
    rw [Int.toNat_of_nonneg (hm x hx)]
  refine ⟨R, ws, w, a1, a2, by rw [getType_eq a2, hty], b1, b2, obs_ext b3 hv ?_ fun x => ?_⟩
  · intro x
    rw [hty, hd] at b6
    rw [← parts_typeOf, ← parts_typeOf, ← Option.some.inj b6]
  · rw [b4, res_upCols hv ht hm hd a3]

/-- **C49.** Restriction commutes with the action of `S_n` (as permutations of `1..n+1` fixing `n+1`). -/
theorem C49_down_action (n : Nat) (hn : 1 ≤ n) (v : SnVec) (hv : Ok (n + 1) v) (a : Arr) (ha : IsPerm n a) :
    ∃ ws w r v' ws' w', v.mapM SnVec.downB = some ws ∧ SnVec.cat ws = some w ∧ SnVec.apply w a = some r ∧
      SnVec.apply v (a ++ [some ((n : Int) + 1)]) = some v' ∧ v'.mapM SnVec.downB = some ws' ∧ SnVec.cat ws' = some w' ∧
      obs w' = obs r := by
  obtain ⟨σ, rfl⟩ := ha
  obtain ⟨ws, w, a1, a2, a3, a4, a5, -⟩ := restrict_ok hn hv
  obtain ⟨r, b1, b2, b3, b4, b5, b6⟩ := vecApply_ok hn σ w a3
  obtain ⟨v', c1, c2, c3, c4, c5, c6⟩ := vecApply_ok (by omega) (extend σ) v hv
  obtain ⟨ws', w', d1, d2, d3, d4, d5, -⟩ := restrict_ok hn c2
  rw [enc_extend] at c1
  refine ⟨ws, w, r, v', ws', w', a1, a2, b1, c1, d1, d2, obs_ext d3 b2 ?_ ?_⟩
  · intro x
    rw [d5, b4, a5]
    have key : ∀ u : SnVec, (∃ P ∈ u, x ∈ subs P.irrep.lambda) ↔ ∃ k ∈ u.map (fun P => P.irrep.lambda), x ∈ subs k := by
      intro u; simp
    rw [key, key, c4]
  · intro mu
    rw [d4, b6, a4]
    have key : ∀ u : SnVec, resCols mu u =
        (obs u).flatMap fun e => if mu ∈ subs e.1 then e.2.map (slice (subs e.1) mu) else [] := by
      intro u; unfold resCols obs; rw [List.flatMap_map]
    rw [key, key, c3]
    unfold actObs
    rw [List.flatMap_map, List.map_flatMap]
    refine List.flatMap_congr fun e he => ?_
    simp only
    obtain ⟨P, hP, rfl⟩ := List.mem_map.1 he
    simp only
    split_ifs with h
    · rw [List.map_map, List.map_map]
      refine List.map_congr_left fun c _ => ?_
      exact slice_mulCol hn (hv.part P hP).1 σ h c
    · rfl

/-- **C49.** Induction commutes with the action of `S_n`. -/
theorem C49_up_action (n : Nat) (hn : 1 ≤ n) (v : SnVec) (hv : Ok n v) (tau : SnType) (ht : TypeOk (n + 1) tau)
    (hm : ∀ x ∈ parts tau, 0 ≤ mult tau x) (hd : SnType.down tau = getType v) (a : Arr) (ha : IsPerm n a) :
    ∃ R r v' R', SnVec.up tau v = some R ∧ SnVec.apply R (a ++ [some ((n : Int) + 1)]) = some r ∧
      SnVec.apply v a = some v' ∧ SnVec.up tau v' = some R' ∧ obs R' = obs r := by
  have ha' := ha
  obtain ⟨σ, rfl⟩ := ha
  obtain ⟨R, ws, w, a1, a2, a3, a4, a5, a6⟩ := C49_down_of_up n hn v hv tau ht hm hd
  obtain ⟨ws0, w0, r0, r, ws', w', b1, b2, b3, b4, b5, b6, b7⟩ := C49_down_action n hn R a2 _ ha'
  rw [a4] at b1
  obtain rfl := Option.some.inj b1
  rw [a5] at b2
  obtain rfl := Option.some.inj b2
  obtain ⟨v', c1, c2, c3, -⟩ := vecApply_ok hn σ v hv
  have hwOk : Ok n w := by
    obtain ⟨ws2, w2, e1, e2, e3, -⟩ := restrict_ok hn a2
    rw [a4] at e1
    obtain rfl := Option.some.inj e1
    rw [a5] at e2
    obtain rfl := Option.some.inj e2
    exact e3
  obtain ⟨r1, d1, d2, d3, -⟩ := vecApply_ok hn σ w hwOk
  rw [b3] at d1
  obtain rfl := Option.some.inj d1
  have hv' : obs v' = obs w' := by rw [c3, b7, d3, a6]
  obtain ⟨r2, f1, f2, f3, -⟩ := vecApply_ok (by omega) (extend σ) R a2
  rw [enc_extend, b4] at f1
  obtain rfl := Option.some.inj f1
  obtain ⟨ws3, w3, tau3, R3, g1, g2, g3, g4, -, g5, g6⟩ := C49_up_of_down n hn r f2
  rw [b5] at g1
  obtain rfl := Option.some.inj g1
  rw [b6] at g2
  obtain rfl := Option.some.inj g2
  have htau : tau3 = tau := by
    rw [getType_eq f2] at g4
    rw [getType_eq a2] at a3
    rw [← Option.some.inj g4, ← Option.some.inj a3, f3]
    unfold typeOf actObs
    rw [List.map_map]
    exact List.map_congr_left fun e _ => by simp
  rw [htau] at g5
  -- `up` of two vectors that look the same
  have hd' : SnType.down tau = some (typeOf (obs v')) := by
    rw [hd, getType_eq hv, c3]
    unfold typeOf actObs
    rw [List.map_map]
    congr 1
    exact List.map_congr_left fun e _ => by simp
  have hdw : SnType.down tau = some (typeOf (obs w')) := by rw [hd', hv']
  obtain ⟨R4, k1, k2, k3⟩ := upType_ok hn c2 ht hm hd'
  obtain ⟨R5, l1, l2, l3⟩ := upType_ok hn g3 ht hm hdw
  rw [g5] at l1
  obtain rfl := Option.some.inj l1
  refine ⟨R, r, v', R4, a1, b4, c1, k1, ?_⟩
  rw [← g6, k3, l3]
  refine List.map_congr_left fun x hx => ?_
  congr 1
  refine List.map_congr_left fun j _ => ?_
  unfold upCol
  refine List.flatMap_congr fun mu hmu => ?_
  have m1 := (up_keys ht hd' mu).2 ⟨x, hx, hmu⟩
  have m2 := (up_keys ht hdw mu).2 ⟨x, hx, hmu⟩
  rw [partAt_cols c2 m1, partAt_cols g3 m2, colsL_obs, colsL_obs, hv']

/-- **C68.** `accumulate_up(offs,sub,tau)` adds the columns of `up(tau,sub)` to the columns from `offs` on, leaves all
other columns as they were, and advances `offs` by `tau`. -/
theorem C68_accumulate_up (n : Nat) (hn : 1 ≤ n) (R sub : SnVec) (hR : Ok (n + 1) R) (hv : Ok n sub) (offs tau : SnType)
    (hoffs : TypeOk (n + 1) offs) (ht : TypeOk (n + 1) tau) (hm : ∀ x ∈ parts tau, 0 ≤ mult tau x)
    (ho : ∀ x, 0 ≤ mult offs x) (hd : SnType.down tau = getType sub)
    (hN : ∀ x ∈ parts tau, x ∈ (obs R).map Prod.fst ∧ mult offs x + mult tau x ≤ (colsAt (obs R) x).length) :
    ∃ U R' offs', SnVec.up tau sub = some U ∧ SnVec.accumulateUp R offs sub tau = some (R', offs') ∧ Ok (n + 1) R' ∧
      (obs R').map Prod.fst = (obs R).map Prod.fst ∧ TypeOk (n + 1) offs' ∧ (∀ x, mult offs' x = mult offs x + mult tau x) ∧
      ∀ x, (colsAt (obs R') x).length = (colsAt (obs R) x).length ∧ ∀ j : Nat, j < (colsAt (obs R) x).length →
        (colsAt (obs R') x).getD j [] =
          if mult offs x ≤ j ∧ j < mult offs x + mult tau x then
            List.zipWith (· + ·) ((colsAt (obs R) x).getD j []) ((colsAt (obs U) x).getD (j - (mult offs x).toNat) [])
          else (colsAt (obs R) x).getD j [] := by
  rw [getType_eq hv] at hd
  have hS : ∀ x ∈ parts tau, ∀ mu ∈ subs x, mu ∈ sub.map fun P => P.irrep.lambda :=
    fun x hx mu hmu => (up_keys ht hd mu).2 ⟨x, hx, hmu⟩
  have hO : ∀ x ∈ parts tau, ∀ mu ∈ subs x, usedBy (fun x => (mult tau x).toNat) (parts tau) mu ≤ (partAt sub mu).m :=
    fun x hx mu hmu => (up_used hv ht hm hd mu (hS x hx mu hmu)).le
  have hko : ∀ u : SnVec, (obs u).map Prod.fst = u.map fun P => P.irrep.lambda := by
    intro u; unfold obs; rw [List.map_map]; rfl
  have hcol : ∀ {m : Nat} {u : SnVec}, Ok m u → ∀ x ∈ u.map (fun P => P.irrep.lambda), colsAt (obs u) x = (partAt u x).cols :=
    fun hu x hx => by rw [colsAt_eq hu, partAt_cols hu hx]
  have hnil : ∀ {m : Nat} {u : SnVec}, Ok m u → ∀ x, x ∉ u.map (fun P => P.irrep.lambda) → colsAt (obs u) x = [] := by
    intro m u hu x hx
    rw [colsAt_eq hu]
    unfold colsL
    rw [List.flatMap_eq_nil_iff]
    intro P hP
    rw [if_neg]
    rintro rfl
    exact hx (List.mem_map.2 ⟨P, hP, rfl⟩)
  obtain ⟨U, u1, u2, u3⟩ := upType_ok hn hv ht hm hd
  obtain ⟨R', offs', a1, a2, a3, a4, a5, a6⟩ := accumulate_ok hn hR hv hoffs ht hm ho
    (fun x hx => by have := (hN x hx).1; rw [hko] at this; exact this)
    (fun x hx => by
      obtain ⟨h1, h2⟩ := hN x hx
      rw [hko] at h1
      rw [hcol hR x h1, cols_length] at h2
      exact h2) hS hO
  refine ⟨U, R', offs', u1, a1, a2, by rw [hko, hko, a3], a4, a5, fun x => ?_⟩
  by_cases hx : x ∈ R.map fun P => P.irrep.lambda
  swap
  · rw [hnil hR x hx, hnil a2 x (by rw [a3]; exact hx)]
    exact ⟨rfl, fun j hj => absurd hj (by simp)⟩
  obtain ⟨b1, b2⟩ := a6 x hx
  rw [hcol hR x hx, hcol a2 x (by rw [a3]; exact hx)]
  refine ⟨by rw [cols_length, cols_length, b1], fun j hj => ?_⟩
  have hdx : ∀ {u : SnVec}, Ok (n + 1) u → x ∈ u.map (fun P => P.irrep.lambda) → (partAt u x).d = dimOf x := by
    intro u hu hxu
    obtain ⟨k, -, -, -, c4, c5⟩ := index_partAt hu hxu
    have := part_d hu c4
    rw [c5] at this
    exact this
  rw [cols_length] at hj
  have hc : ∀ {u : SnVec}, Ok (n + 1) u → x ∈ u.map (fun P => P.irrep.lambda) → ∀ j < (partAt u x).m,
      (partAt u x).cols.getD j [] = (List.range (dimOf x)).map fun i => (partAt u x).data i j := by
    intro u hu hxu j hj
    unfold VPart.cols
    rw [getD_lt _ _ (by simpa using hj), List.getElem_map, List.getElem_range, hdx hu hxu]
  rw [hc hR hx j hj, hc a2 (by rw [a3]; exact hx) j (by rw [b1]; exact hj)]
  have hox := ho x
  by_cases hin : x ∈ parts tau
  · have hmx := hm x hin
    have hxU : x ∈ U.map fun P => P.irrep.lambda := by
      rw [← hko, u3, List.map_map]
      exact List.mem_map.2 ⟨x, hin, rfl⟩
    have hUc : (partAt U x).cols = (List.range (mult tau x).toNat).map (upCol sub tau x) := by
      have h1 := obs_eq_colsL u2
      rw [u3, ← hko, u3, List.map_map, List.map_map] at h1
      have h2 := List.map_inj_left.1 h1 x hin
      simp only [Function.comp] at h2
      rw [partAt_cols u2 hxU]
      exact (Prod.ext_iff.1 h2).2.symm
    have hup := upD_cols hn hv (ht.all x hin) (mult tau x).toNat (colOffs (fun x => (mult tau x).toNat) (parts tau) x) (hS x hin)
      (fun mu hmu => le_trans (colOffs_le _ ht.nodup hin hmu) (hO x hin mu hmu))
    by_cases hj' : mult offs x ≤ j ∧ j < mult offs x + mult tau x
    · rw [if_pos hj', hcol u2 x hxU, hUc]
      have hlt : j - (mult offs x).toNat < (mult tau x).toNat := by omega
      rw [getD_lt _ _ (by simpa using hlt), List.getElem_map, List.getElem_range]
      have h3 : upCol sub tau x (j - (mult offs x).toNat) = (List.range (dimOf x)).map fun i =>
          upD sub (mult tau x).toNat (colOffs (fun x => (mult tau x).toNat) (parts tau) x) (subs x) i (j - (mult offs x).toNat) := by
        rw [cols_mkP] at hup
        have := List.map_inj_left.1 hup _ (List.mem_range.2 hlt)
        exact this.symm
      rw [h3, List.zipWith_map, List.zipWith_self]
      refine List.map_congr_left fun i _ => ?_
      rw [b2, if_pos ⟨hin, by omega⟩]
    · rw [if_neg hj']
      refine List.map_congr_left fun i _ => ?_
      rw [b2]
      split_ifs with h
      · have : ¬ (j - (mult offs x).toNat < (mult tau x).toNat) := by omega
        unfold upD
        rw [if_neg this, add_zero]
      · rw [add_zero]
  · have h0 : mult tau x = 0 := by
      unfold mult
      have : tau.lookup x = none := by
        rw [List.lookup_eq_none_iff]
        intro e he
        have hne : x ≠ e.1 := by rintro rfl; exact hin (List.mem_map.2 ⟨e, he, rfl⟩)
        simpa using hne
      rw [this]; rfl
    rw [if_neg (by omega)]
    refine List.map_congr_left fun i _ => ?_
    rw [b2, if_neg (fun h => hin h.1), add_zero]

/-- the partition `(2,1)` -/
theorem part21 : IsPartition 3 [2, 1] := (mem_partitions 3 (by norm_num) [2, 1]).1 (by decide +kernel)

theorem dimOf_ex : dimOf [2, 1] = 2 ∧ dimOf [2] = 1 ∧ dimOf [1, 1] = 1 := by
  refine ⟨?_, ?_, ?_⟩
  · rw [dimOf_eq (n := 3) (by omega) part21]; decide +kernel
  · rw [dimOf_eq (n := 2) (by omega) ((mem_partitions 2 (by norm_num) [2]).1 (by decide +kernel))]; decide +kernel
  · rw [dimOf_eq (n := 2) (by omega) ((mem_partitions 2 (by norm_num) [1, 1]).1 (by decide +kernel))]; decide +kernel

/-- a part of `(2,1)` with the columns `(0,1)` and `(10,11)` -/
noncomputable def exPart : VPart := mkP [2, 1] 2 fun i j => i + 10 * j

theorem exPart_ok : Ok 3 [exPart] :=
  ok_map (L := [[2, 1]]) (by norm_num) (by simpa using part21) (by simp) (fun _ => 2) fun _ i j => i + 10 * j

theorem exPart_cols : exPart.cols = [[0, 1], [10, 11]] := by
  unfold exPart
  rw [cols_mkP]
  have : (irrOf [2, 1]).d = 2 := dimOf_ex.1
  rw [this]
  norm_num [List.range_succ]

/-- The restriction of the part to `S_2`: the first row belongs to `(2)`, the second to `(1,1)`. -/
example : ∃ R, SnVec.downB exPart = some R ∧ obs R = [([2], [[0], [10]]), ([1, 1], [[1], [11]])] := by
  obtain ⟨R, h1, -, -, h2, -⟩ := downB_ok (by norm_num) exPart exPart_ok
  refine ⟨R, h1, ?_⟩
  have hl : exPart.irrep.lambda = [2, 1] := (irrOf_spec (by norm_num) part21).2.1
  have hs : subs [2, 1] = [[2], [1, 1]] := by decide +kernel
  rw [h2, hl, hs, exPart_cols]
  obtain ⟨-, d2, d3⟩ := dimOf_ex
  simp [slice, offOf, d2, d3]

/-- Two vectors with the part above: `cat` has the four columns. -/
example : ∃ R, SnVec.cat [[exPart], [exPart]] = some R ∧
    colsAt (obs R) [2, 1] = [[0, 1], [10, 11], [0, 1], [10, 11]] := by
  obtain ⟨R, -, -, h1, -, -, h2, -⟩ := C50_cat 3 (by norm_num) [[exPart], [exPart]] (by simpa using exPart_ok)
  refine ⟨R, h1, ?_⟩
  have hl : exPart.irrep.lambda = [2, 1] := (irrOf_spec (by norm_num) part21).2.1
  rw [h2]
  simp [colsAt, obs, hl, exPart_cols]

/-- The restriction of the part above accumulated into the part itself doubles it. -/
example : ∃ sub R' offs', SnVec.downB exPart = some sub ∧
    SnVec.accumulateUp [exPart] [] sub [([2, 1], 2)] = some (R', offs') ∧ mult offs' [2, 1] = 2 ∧
    (colsAt (obs R') [2, 1]).getD 1 [] = [20, 22] := by
  have hl : exPart.irrep.lambda = [2, 1] := (irrOf_spec (by norm_num) part21).2.1
  have hm : exPart.m = 2 := rfl
  obtain ⟨sub, a1, a2, a3, a4, -, R1, a5, a6⟩ := C49_downB 2 (by norm_num) exPart exPart_ok
  have ht : TypeOk 3 [([2, 1], 2)] := ⟨by simpa [parts] using part21, by simp [parts]⟩
  have hd : SnType.down [([2, 1], 2)] = getType sub := by
    have h1 : IP.parents [2, 1] = some [[2], [1, 1]] := by decide +kernel
    rw [hl, h1] at a3
    rw [getType_eq a2, typeOf_obs]
    have h2 : sub.map (fun P => (P.irrep.lambda, (P.m : Int))) = (sub.map fun P => P.irrep.lambda).map fun x => (x, (2 : Int)) := by
      rw [List.map_map]
      exact List.map_congr_left fun Q hQ => by simp only [Function.comp]; rw [a4 Q hQ, hm]; rfl
    rw [h2, ← Option.some.inj a3]
    decide +kernel
  have hR : colsAt (obs [exPart]) [2, 1] = [[0, 1], [10, 11]] := by simp [colsAt, obs, hl, exPart_cols]
  obtain ⟨U, R', offs', b1, b2, -, -, -, b3, b4⟩ := C68_accumulate_up 2 (by norm_num) [exPart] sub exPart_ok a2 [] [([2, 1], 2)]
    (typeOk_nil 3) ht (by simp [parts, mult]) (by simp [mult]) hd (by
      simp only [parts, List.map_cons, List.map_nil, List.mem_singleton, forall_eq]
      rw [hR]
      simp [obs, hl, mult])
  rw [hl, hm] at a5
  have hU : U = R1 := by
    have h := b1.symm.trans a5
    exact Option.some.inj h
  refine ⟨sub, R', offs', a1, b2, by rw [b3]; decide +kernel, ?_⟩
  rw [(b4 [2, 1]).2 1 (by rw [hR]; simp), hU, a6, hR]
  norm_num [mult, List.lookup]

end Snob.Props
