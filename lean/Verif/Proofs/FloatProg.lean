import Verif.Spec.FloatProg
import Verif.Proofs.VecProg
import Verif.Proofs.FloatFFT
import Verif.Proofs.FloatFn

/-! Programs run on three vectors at once: exactly, in floating point, and with absolute values. -/

namespace Snob

open SnVec Props Weights

variable {n : Nat}

/-- the three vectors have the same parts, and their entries are related -/
structure Rel3 (n : Nat) (R : ℝ → ℝ → ℝ → Prop) (K : List (List Nat)) (q : SnVec × SnVec × SnVec) : Prop where
  ok1 : Ok n q.1
  ok2 : Ok n q.2.1
  ok3 : Ok n q.2.2
  k1 : vkeys q.1 = K
  k2 : vkeys q.2.1 = K
  k3 : vkeys q.2.2 = K
  m2 : ∀ z ∈ K, (partAt q.2.1 z).m = (partAt q.1 z).m
  m3 : ∀ z ∈ K, (partAt q.2.2 z).m = (partAt q.1 z).m
  data : ∀ z ∈ K, ∀ i < dimOf z, ∀ j < (partAt q.1 z).m, R ((partAt q.1 z).data i j) ((partAt q.2.1 z).data i j) ((partAt q.2.2 z).data i j)

theorem Rel3.mono {R R' : ℝ → ℝ → ℝ → Prop} {K : List (List Nat)} {q : SnVec × SnVec × SnVec} (h : Rel3 n R K q)
    (hR : ∀ x y a, R x y a → R' x y a) : Rel3 n R' K q :=
  ⟨h.ok1, h.ok2, h.ok3, h.k1, h.k2, h.k3, h.m2, h.m3, fun z hz i hi j hj => hR _ _ _ (h.data z hz i hi j hj)⟩

/-- changing the entries of a vector -/
theorem mapData_ok (hn : 1 ≤ n) {v : SnVec} (hv : Ok n v) (g : ℝ → ℝ) :
    Ok n (v.map fun P => { P with data := fun i j => g (P.data i j) }) ∧
    vkeys (v.map fun P => { P with data := fun i j => g (P.data i j) }) = vkeys v ∧
    ∀ z ∈ vkeys v, (partAt (v.map fun P => { P with data := fun i j => g (P.data i j) }) z).m = (partAt v z).m ∧
      ∀ i j, (partAt (v.map fun P => { P with data := fun i j => g (P.data i j) }) z).data i j = g ((partAt v z).data i j) := by
  have e : (v.map fun P => { P with data := fun i j => g (P.data i j) }) =
      mkV (vkeys v) (fun x => (partAt v x).m) fun x i j => g ((partAt v x).data i j) := by
    conv_lhs => rw [eq_mkV hv]
    unfold mkV
    rw [List.map_map]
    rfl
  obtain ⟨a1, a2, a3⟩ := partAt_mkV hn (fun x hx => vkeys_part hv hx) (vkeys_sorted hv) (fun x => (partAt v x).m)
    fun x i j => g ((partAt v x).data i j)
  rw [e]
  exact ⟨a1, a2, fun z hz => by rw [a3 z hz]; exact ⟨rfl, fun _ _ => rfl⟩⟩

/-- the product in floating point -/
theorem fmulVec_ok (hn : 1 ≤ n) (F : Rounding) (ord : Nat → SumTree) {v : SnVec} (hv : Ok n v) (W : Weights) (r : List Nat → Nat)
    (f : List Nat → Nat → Nat → ℝ) (h : ∀ x ∈ vkeys v, W x = some (.mat (r x) (partAt v x).m (f x))) :
    ∃ w, F.mulVec ord W v = some w ∧ Ok n w ∧ vkeys w = vkeys v ∧ ∀ x ∈ vkeys v, (partAt w x).m = r x ∧ ∀ i j, (partAt w x).data i j =
      F.dot ord (partAt v x).m ((partAt v x).data i) (f x j) := by
  have hL : ∀ x ∈ vkeys v, IsPartition n x := fun x hx => vkeys_part hv hx
  obtain ⟨a1, a2, a3⟩ := partAt_mkV hn hL (vkeys_sorted hv) r (fun x i j => F.dot ord (partAt v x).m ((partAt v x).data i) (f x j))
  refine ⟨_, ?_, a1, a2, fun x hx => by rw [a3 x hx]; exact ⟨rfl, fun _ _ => rfl⟩⟩
  have e : ∀ P ∈ v, (do let Q ← W.getMatrix P.irrep.lambda; F.mulPart ord Q P) =
      some (⟨P.d, r P.irrep.lambda, P.irrep, fun i j => F.dot ord P.m (P.data i) (f P.irrep.lambda j)⟩ : VPart) := by
    intro P hP
    have hk : P.irrep.lambda ∈ vkeys v := List.mem_map.2 ⟨P, hP, rfl⟩
    have := h _ hk
    rw [partAt_of_mem hv.nodup hP] at this
    unfold getMatrix
    rw [this]
    simp [Rounding.mulPart]
  refine (mapM_map _ _ _ e).trans (congrArg some ?_)
  have e2 : ∀ P ∈ v, (⟨P.d, r P.irrep.lambda, P.irrep, fun i j => F.dot ord P.m (P.data i) (f P.irrep.lambda j)⟩ : VPart) =
      mkP P.irrep.lambda (r P.irrep.lambda) (fun i j => F.dot ord (partAt v P.irrep.lambda).m ((partAt v P.irrep.lambda).data i) (f P.irrep.lambda j)) := by
    intro P hP
    rw [partAt_of_mem hv.nodup hP]
    have hi : irrOf P.irrep.lambda = P.irrep := by
      have := (hv.part P hP).2.1
      unfold irrOf; rw [this]; rfl
    unfold mkP
    rw [hi, (hv.part P hP).2.2]
  rw [List.map_congr_left e2]
  unfold mkV vkeys
  rw [List.map_map]
  rfl

theorem absW_get {W : Weights} {z : List Nat} {r c : Nat} {f : Nat → Nat → ℝ} (h : W z = some (.mat r c f)) :
    W.absW z = some (.mat r c fun j k => |f j k|) := by
  unfold absW; rw [h]; rfl

theorem rel3_mul (hn : 1 ≤ n) {F : Rounding} {ord : Nat → SumTree} {R R' : ℝ → ℝ → ℝ → Prop} {G : ℝ → Prop} {C : Nat}
    (H : ∀ c ≤ C, ∀ x y a f : Nat → ℝ, (∀ k < c, R (x k) (y k) (a k)) → (∀ k < c, G (f k)) →
      R' (∑ k ∈ Finset.range c, x k * f k) (F.dot ord c y f) (∑ k ∈ Finset.range c, a k * |f k|))
    {K : List (List Nat)} {q : SnVec × SnVec × SnVec} (h : Rel3 n R K q) {W : Weights}
    (hG : ∀ z r c f, W z = some (.mat r c f) → ∀ j k, G (f j k)) (hC : ∀ P ∈ q.1, P.m ≤ C) {u : SnVec} (hu : mulVec W q.1 = some u) :
    ∃ u2 u3, F.mulVec ord W q.2.1 = some u2 ∧ mulVec W.absW q.2.2 = some u3 ∧ Rel3 n R' K (u, u2, u3) := by
  obtain ⟨r, f, b1, b2, b3, b4⟩ := mul_data hn h.ok1 hu
  rw [h.k1] at b1 b3 b4
  obtain ⟨u2, c1, c2, c3, c4⟩ := fmulVec_ok hn F ord h.ok2 W r f fun z hz => by
    rw [h.k2] at hz; rw [b1 z hz, h.m2 z hz]
  obtain ⟨u3, d1, d2, d3, d4⟩ := mulVec_ok hn h.ok3 W.absW r (fun z j k => |f z j k|) fun z hz => by
    rw [h.k3] at hz; rw [absW_get (b1 z hz), h.m3 z hz]
  rw [h.k2] at c3 c4
  rw [h.k3] at d3 d4
  refine ⟨u2, u3, c1, d1, b2, c2, d2, b3, c3, d3, fun z hz => by rw [(c4 z hz).1, (b4 z hz).1], fun z hz => by rw [(d4 z hz).1, (b4 z hz).1],
    fun z hz i hi j _ => ?_⟩
  simp only
  rw [(b4 z hz).2, (c4 z hz).2, (d4 z hz).2, h.m2 z hz, h.m3 z hz]
  refine H _ ?_ _ _ _ _ (fun k hk => h.data z hz i hi k hk) fun k _ => hG z _ _ _ (b1 z hz) j k
  obtain ⟨-, -, -, -, e1, -⟩ := index_partAt h.ok1 (mu := z) (show z ∈ vkeys q.1 by rw [h.k1]; exact hz)
  exact hC _ e1

theorem rel3_add (hn : 1 ≤ n) {F : Rounding} {R R' : ℝ → ℝ → ℝ → Prop}
    (H : ∀ x y a x' y' a', R x y a → R x' y' a' → R' (x + x') (F.s (y + y')) (a + a'))
    {K : List (List Nat)} {q q' : SnVec × SnVec × SnVec} (h : Rel3 n R K q) (h' : Rel3 n R K q') {u : SnVec} (hu : q.1.add q'.1 = some u) :
    ∃ u2 u3, F.addVec q.2.1 q'.2.1 = some u2 ∧ q.2.2.add q'.2.2 = some u3 ∧ Rel3 n R' K (u, u2, u3) := by
  have st := add_same hu (by rw [h.k1, h'.k1])
  have st2 : SameType q.2.1 q'.2.1 := sameType_of h.ok2 h'.ok2 (by rw [h.k2, h'.k2]) fun z hz => by
    rw [h.k2] at hz
    rw [h.m2 z hz, h'.m2 z hz]
    exact sameType_m h.ok1 h'.ok1 st (by rw [h.k1]; exact hz)
  have st3 : SameType q.2.2 q'.2.2 := sameType_of h.ok3 h'.ok3 (by rw [h.k3, h'.k3]) fun z hz => by
    rw [h.k3] at hz
    rw [h.m3 z hz, h'.m3 z hz]
    exact sameType_m h.ok1 h'.ok1 st (by rw [h.k1]; exact hz)
  obtain ⟨w1, a1, a2, a3⟩ := C86_add_partial h.ok1 h'.ok1 st
  obtain ⟨w2, b1, b2, b3⟩ := C86_add_partial h.ok2 h'.ok2 st2
  obtain ⟨w3, c1, c2, c3⟩ := C86_add_partial h.ok3 h'.ok3 st3
  rw [hu, Option.some.injEq] at a1
  subst a1
  have k1 := (sameType_keys a3.1).trans h.k1
  have k2 := (sameType_keys b3.1).trans h.k2
  have k3 := (sameType_keys c3.1).trans h.k3
  obtain ⟨d1, d2, d3⟩ := mapData_ok hn b2 F.s
  refine ⟨_, w3, by unfold Rounding.addVec; rw [b1]; rfl, c1, a2, d1, c2, k1, d2.trans k2, k3, fun z hz => ?_, fun z hz => ?_,
    fun z hz i hi j hj => ?_⟩
  · simp only
    rw [(d3 z (k2 ▸ hz)).1, sameType_m b2 h.ok2 b3.1 (k2 ▸ hz), h.m2 z hz, sameType_m a2 h.ok1 a3.1 (k1 ▸ hz)]
  · simp only
    rw [sameType_m c2 h.ok3 c3.1 (k3 ▸ hz), h.m3 z hz, sameType_m a2 h.ok1 a3.1 (k1 ▸ hz)]
  · simp only at hj ⊢
    have hj1 := hj
    rw [sameType_m a2 h.ok1 a3.1 (k1 ▸ hz)] at hj1
    have hj2 : j < (partAt q'.1 z).m := by rw [← sameType_m h.ok1 h'.ok1 st (by rw [h.k1]; exact hz)]; exact hj1
    rw [(d3 z (k2 ▸ hz)).2, comb_at a2 h.ok1 h'.ok1 a3 (k1 ▸ hz) i hi j hj,
      comb_at b2 h.ok2 h'.ok2 b3 (k2 ▸ hz) i hi j (by rw [sameType_m b2 h.ok2 b3.1 (k2 ▸ hz), h.m2 z hz]; exact hj1),
      comb_at c2 h.ok3 h'.ok3 c3 (k3 ▸ hz) i hi j (by rw [sameType_m c2 h.ok3 c3.1 (k3 ▸ hz), h.m3 z hz]; exact hj1),
      one_mul, one_mul, one_mul]
    exact H _ _ _ _ _ _ (h.data z hz i hi j hj1) (h'.data z hz i hi j hj2)

/-- the columns of a concatenation of vectors with the same partitions -/
theorem cat_cols (hn : 1 ≤ n) {v : SnVec} (hv : Ok n v) {ws : List SnVec} (hne : ws ≠ []) (hk : ∀ w ∈ ws, Ok n w ∧ vkeys w = vkeys v) :
    ∃ u, SnVec.cat ws = some u ∧ Ok n u ∧ vkeys u = vkeys v ∧ ∀ z ∈ vkeys v, (partAt u z).cols = ws.flatMap fun w => (partAt w z).cols := by
  obtain ⟨tau, R, -, a2, a3, -, a5, a6, a7⟩ := cat_ok hn ws fun w hw => (hk w hw).1
  have kR : vkeys R = parts tau := by
    have := congrArg (List.map Prod.fst) a7
    unfold obs at this
    rw [List.map_map, List.map_map] at this
    simpa [Function.comp_def] using this
  have kk : vkeys R = vkeys v := by
    have nd : ∀ {l : List (List Nat)}, l.Pairwise LexGreater → l.Nodup := fun h => h.imp fun h => by
      rintro rfl; exact lexGreater_irrefl _ h
    refine ((List.perm_ext_iff_of_nodup (nd a6.sorted) (nd hv.sorted)).2 fun z => ?_).eq_of_pairwise
      (fun _ _ _ _ h h' => absurd h' (lexGreater_asymm h)) a6.sorted hv.sorted
    change z ∈ vkeys R ↔ z ∈ vkeys v
    rw [kR, a3, List.map_flatten, List.mem_flatten]
    constructor
    · rintro ⟨l, hl, hz⟩
      obtain ⟨w, hw, rfl⟩ := List.mem_map.1 hl
      rw [← (hk w hw).2]; exact hz
    · intro hz
      obtain ⟨w, hw⟩ := List.exists_mem_of_ne_nil ws hne
      exact ⟨_, List.mem_map.2 ⟨w, hw, rfl⟩, by rw [← (hk w hw).2] at hz; exact hz⟩
  refine ⟨R, a5, a6, kk, fun z hz => ?_⟩
  have e1 : (partAt R z).cols = colsL z ws.flatten := by
    have hz' : z ∈ vkeys R := kk ▸ hz
    have e : obs R = (vkeys R).map fun p => (p, (partAt R p).cols) := by
      rw [obs_eq_colsL a6]
      exact List.map_congr_left fun p hp => by rw [partAt_cols a6 hp]
    rw [e, ← kR, List.map_inj_left] at a7
    exact (Prod.mk.inj (a7 z hz')).2
  rw [e1, colsL_flatten]
  refine List.flatMap_congr fun w hw => (partAt_cols (hk w hw).1 ?_).symm
  rw [← (hk w hw).2] at hz
  exact hz

/-- three columns -/
abbrev Col3 := (Nat → ℝ) × (Nat → ℝ) × (Nat → ℝ)

theorem Rel3.cols {R : ℝ → ℝ → ℝ → Prop} {K : List (List Nat)} {q : SnVec × SnVec × SnVec} (h : Rel3 n R K q) {z : List Nat} (hz : z ∈ K) :
    ∃ T : List Col3, (partAt q.1 z).cols = T.map (fun t => (List.range (dimOf z)).map t.1) ∧
      (partAt q.2.1 z).cols = T.map (fun t => (List.range (dimOf z)).map t.2.1) ∧
      (partAt q.2.2 z).cols = T.map (fun t => (List.range (dimOf z)).map t.2.2) ∧ ∀ t ∈ T, ∀ i < dimOf z, R (t.1 i) (t.2.1 i) (t.2.2 i) := by
  refine ⟨(List.range (partAt q.1 z).m).map fun j => (fun i => (partAt q.1 z).data i j, fun i => (partAt q.2.1 z).data i j,
    fun i => (partAt q.2.2 z).data i j), ?_, ?_, ?_, ?_⟩
  · simp only [VPart.cols, List.map_map, partAt_d h.ok1 (h.k1 ▸ hz)]; rfl
  · simp only [VPart.cols, List.map_map, partAt_d h.ok2 (h.k2 ▸ hz), h.m2 z hz]; rfl
  · simp only [VPart.cols, List.map_map, partAt_d h.ok3 (h.k3 ▸ hz), h.m3 z hz]; rfl
  · intro t ht i hi
    obtain ⟨j, hj, rfl⟩ := List.mem_map.1 ht
    exact h.data z hz i hi j (List.mem_range.1 hj)

theorem data_of_cols {v : SnVec} (hv : Ok n v) {z : List Nat} (hz : z ∈ vkeys v) {T : List Col3} {g : Col3 → Nat → ℝ}
    (h : (partAt v z).cols = T.map fun t => (List.range (dimOf z)).map (g t)) :
    (partAt v z).m = T.length ∧ ∀ i < dimOf z, ∀ j (hj : j < T.length), (partAt v z).data i j = g T[j] i := by
  have hm : (partAt v z).m = T.length := by simpa [VPart.cols] using congrArg List.length h
  refine ⟨hm, fun i hi j hj => ?_⟩
  rw [← cols_get _ (by rw [partAt_d hv hz]; exact hi) (by rw [hm]; exact hj), h]
  simp [List.getD_eq_getElem?_getD, hi, hj]

theorem rel3_cat (hn : 1 ≤ n) {R : ℝ → ℝ → ℝ → Prop} {x : SnVec} (hx : Ok n x) {qs : List (SnVec × SnVec × SnVec)} (hne : qs ≠ [])
    (h : ∀ q ∈ qs, Rel3 n R (vkeys x) q) :
    ∃ u u2 u3, SnVec.cat (qs.map fun q => q.1) = some u ∧ SnVec.cat (qs.map fun q => q.2.1) = some u2 ∧
      SnVec.cat (qs.map fun q => q.2.2) = some u3 ∧ Rel3 n R (vkeys x) (u, u2, u3) := by
  obtain ⟨u, a1, a2, a3, a4⟩ := cat_cols hn hx (ws := qs.map fun q => q.1) (by simpa using hne) (by
    intro w hw; obtain ⟨q, hq, rfl⟩ := List.mem_map.1 hw; exact ⟨(h q hq).ok1, (h q hq).k1⟩)
  obtain ⟨u2, b1, b2, b3, b4⟩ := cat_cols hn hx (ws := qs.map fun q => q.2.1) (by simpa using hne) (by
    intro w hw; obtain ⟨q, hq, rfl⟩ := List.mem_map.1 hw; exact ⟨(h q hq).ok2, (h q hq).k2⟩)
  obtain ⟨u3, c1, c2, c3, c4⟩ := cat_cols hn hx (ws := qs.map fun q => q.2.2) (by simpa using hne) (by
    intro w hw; obtain ⟨q, hq, rfl⟩ := List.mem_map.1 hw; exact ⟨(h q hq).ok3, (h q hq).k3⟩)
  have key : ∀ z ∈ vkeys x, ∃ T : List Col3, (partAt u z).cols = T.map (fun t => (List.range (dimOf z)).map t.1) ∧
      (partAt u2 z).cols = T.map (fun t => (List.range (dimOf z)).map t.2.1) ∧
      (partAt u3 z).cols = T.map (fun t => (List.range (dimOf z)).map t.2.2) ∧ ∀ t ∈ T, ∀ i < dimOf z, R (t.1 i) (t.2.1 i) (t.2.2 i) := by
    intro z hz
    rw [a4 z hz, b4 z hz, c4 z hz]
    clear a4 b4 c4 a1 b1 c1 hne
    induction qs with
    | nil => exact ⟨[], rfl, rfl, rfl, by simp⟩
    | cons q qs ih =>
      obtain ⟨T, t1, t2, t3, t4⟩ := ih fun q hq => h q (by simp [hq])
      obtain ⟨S, s1, s2, s3, s4⟩ := (h q (by simp)).cols hz
      refine ⟨S ++ T, ?_, ?_, ?_, ?_⟩
      · rw [List.map_cons, List.flatMap_cons, t1, s1, List.map_append]
      · rw [List.map_cons, List.flatMap_cons, t2, s2, List.map_append]
      · rw [List.map_cons, List.flatMap_cons, t3, s3, List.map_append]
      · intro t ht
        rcases List.mem_append.1 ht with ht | ht
        exacts [s4 t ht, t4 t ht]
  refine ⟨u, u2, u3, a1, b1, c1, a2, b2, c2, a3, b3, c3, fun z hz => ?_, fun z hz => ?_, fun z hz i hi j hj => ?_⟩
  all_goals
    obtain ⟨T, t1, t2, t3, t4⟩ := key z hz
    obtain ⟨p1, p2⟩ := data_of_cols a2 (a3 ▸ hz) (g := fun t => t.1) t1
    obtain ⟨q1, q2⟩ := data_of_cols b2 (b3 ▸ hz) (g := fun t => t.2.1) t2
    obtain ⟨r1, r2⟩ := data_of_cols c2 (c3 ▸ hz) (g := fun t => t.2.2) t3
  · simp only; rw [p1, q1]
  · simp only; rw [p1, r1]
  · simp only at hj ⊢
    rw [p1] at hj
    rw [p2 i hi j hj, q2 i hi j hj, r2 i hi j hj]
    exact t4 _ (List.getElem_mem hj) i hi

/-- the columns of the vectors a statement leaves bound those it starts from -/
theorem exec_bound {C : Nat} {c : VStmt} {s s' : List SnVec} (h : c.exec s = some s') (hC : ∀ w ∈ s', ∀ P ∈ w, P.m ≤ C) :
    ∀ w ∈ s, ∀ P ∈ w, P.m ≤ C := by
  cases c with
  | mul W i =>
    unfold VStmt.exec at h
    rcases hi : s[i]? with _ | w
    · simp [hi] at h
    · rcases hw : mulVec W w with _ | u
      · simp [hi, hw] at h
      · simp only [hi, hw, Option.bind_eq_bind, Option.bind_some, Option.some.injEq] at h
        subst h
        exact fun w hw => hC w (by simp [hw])
  | cat i is =>
    change (((i :: is).mapM fun k => s[k]?).bind fun vs => (SnVec.cat vs).bind fun w => some (s ++ [w])) = some s' at h
    rcases hi : (i :: is).mapM (fun k => s[k]?) with _ | ws
    · rw [hi] at h; cases h
    · rw [hi, Option.bind_some] at h
      rcases hw : SnVec.cat ws with _ | u
      · rw [hw] at h; cases h
      · rw [hw, Option.bind_some, Option.some.injEq] at h
        subst h
        exact fun w hw => hC w (by simp [hw])
  | add i j =>
    unfold VStmt.exec at h
    rcases hi : s[i]? with _ | u
    · simp [hi] at h
    · rcases hj : s[j]? with _ | v
      · simp [hi, hj] at h
      · rcases hw : u.add v with _ | w
        · simp [hi, hj, hw] at h
        · simp only [hi, hj, hw, Option.bind_eq_bind, Option.bind_some, Option.some.injEq] at h
          subst h
          have hm : w.map (fun P => P.m) = u.map fun P => P.m := by
            unfold SnVec.add at hw
            split at hw
            · rename_i hl
              clear hi hj hC
              induction u generalizing v w with
              | nil => cases v <;> simp_all [addLoop]
              | cons P u ih =>
                cases v with
                | nil => simp at hl
                | cons Q v =>
                  unfold addLoop at hw
                  rcases hR : P.add Q with _ | R
                  · simp [hR] at hw
                  · rcases hr : addLoop u v with _ | r
                    · simp [hR, hr] at hw
                    · simp only [hR, hr, Option.bind_eq_bind, Option.bind_some, Option.some.injEq] at hw
                      subst hw
                      have e : R.m = P.m := by
                        unfold VPart.add at hR
                        split at hR
                        · cases hR; rfl
                        · cases hR
                      rw [List.map_cons, List.map_cons, e, ih v r (by simpa using hl) hr]
            · cases hw
          intro y hy P hP
          obtain ⟨k, hk⟩ := List.mem_iff_getElem?.1 hy
          by_cases hki : k = i
          · subst hki
            rw [hi, Option.some.injEq] at hk
            subst hk
            have : P.m ∈ w.map fun P => P.m := by rw [hm]; exact List.mem_map.2 ⟨P, hP, rfl⟩
            obtain ⟨Q, hQ, e⟩ := List.mem_map.1 this
            rw [← e]
            refine hC w ?_ Q hQ
            have hlt := (List.getElem?_eq_some_iff.1 hi).1
            exact List.mem_set hlt _
          · exact hC y (List.mem_iff_getElem?.2 ⟨k, by rw [List.getElem?_set_ne (Ne.symm hki)]; exact hk⟩) P hP

theorem mapM_get_map {α β : Type} (g : α → β) (t : List α) (is : List Nat) :
    is.mapM (fun k => (t.map g)[k]?) = (is.mapM fun k => t[k]?).map (List.map g) := by
  induction is with
  | nil => rfl
  | cons i is ih =>
    rw [List.mapM_cons, List.mapM_cons, ih, List.getElem?_map]
    rcases t[i]? with _ | a
    · rfl
    · rcases is.mapM fun k => t[k]? with _ | r <;> rfl

theorem mapM_get_mem {α : Type} {t : List α} {is : List Nat} {qs : List α} (h : is.mapM (fun k => t[k]?) = some qs) : ∀ q ∈ qs, q ∈ t := by
  induction is generalizing qs with
  | nil => cases h; simp
  | cons i is ih =>
    rw [List.mapM_cons] at h
    rcases ha : t[i]? with _ | a
    · simp [ha] at h
    · rcases hr : is.mapM (fun k => t[k]?) with _ | r
      · simp [ha, hr] at h
      · simp only [ha, hr, Option.bind_eq_bind, Option.bind_some, Option.pure_def, Option.some.injEq] at h
        subst h
        intro q hq
        rcases List.mem_cons.1 hq with rfl | hq
        · exact List.mem_of_getElem? ha
        · exact ih hr q hq

section
variable {F : Rounding} {ord : Nat → SumTree} {R : Nat → ℝ → ℝ → ℝ → Prop} {G : ℝ → Prop} {C : Nat}

/-- the weights of a statement -/
def VStmt.AllW (G : ℝ → Prop) : VStmt → Prop
  | .mul W _ => ∀ z r c f, W z = some (.mat r c f) → ∀ j k, G (f j k)
  | _ => True

theorem rel3_step (hn : 1 ≤ n) (hR : ∀ e e' x y a, e ≤ e' → R e x y a → R e' x y a)
    (hmul : ∀ e, ∀ c ≤ C, ∀ x y a f : Nat → ℝ, (∀ k < c, R e (x k) (y k) (a k)) → (∀ k < c, G (f k)) →
      R (e + C) (∑ k ∈ Finset.range c, x k * f k) (F.dot ord c y f) (∑ k ∈ Finset.range c, a k * |f k|))
    (hadd : ∀ e x y a x' y' a', R e x y a → R e x' y' a' → R (e + 1) (x + x') (F.s (y + y')) (a + a'))
    {x : SnVec} (hx : Ok n x) {e : Nat} {t : List (SnVec × SnVec × SnVec)} (ht : ∀ q ∈ t, Rel3 n (R e) (vkeys x) q)
    {c : VStmt} (hG : c.AllW G) (hC : ∀ q ∈ t, ∀ P ∈ q.1, P.m ≤ C) {s' : List SnVec} (h : c.exec (t.map fun q => q.1) = some s') :
    ∃ t' : List (SnVec × SnVec × SnVec), s' = t'.map (fun q => q.1) ∧ F.vexec ord c (t.map fun q => q.2.1) = some (t'.map fun q => q.2.1) ∧
      c.abs.exec (t.map fun q => q.2.2) = some (t'.map fun q => q.2.2) ∧ ∀ q ∈ t', Rel3 n (R (e + c.cost C)) (vkeys x) q := by
  cases c with
  | mul W i =>
    rcases hi : t[i]? with _ | q
    · simp [VStmt.exec, hi] at h
    · rcases hw : mulVec W q.1 with _ | u
      · simp [VStmt.exec, hi, hw] at h
      · have hq := List.mem_of_getElem? hi
        obtain ⟨u2, u3, a1, a2, a3⟩ := rel3_mul hn (hmul e) (ht q hq) hG (hC q hq) hw
        simp only [VStmt.exec, List.getElem?_map, hi, hw, Option.map_some, Option.bind_eq_bind, Option.bind_some, Option.some.injEq] at h
        refine ⟨t ++ [(u, u2, u3)], ?_, ?_, ?_, fun q hq => ?_⟩
        · rw [← h]; simp
        · simp [Rounding.vexec, hi, a1]
        · simp [VStmt.abs, VStmt.exec, hi, a2]
        · rcases List.mem_append.1 hq with hq | hq
          · exact (ht q hq).mono fun _ _ _ => hR _ _ _ _ _ (Nat.le_add_right _ _)
          · rw [List.mem_singleton.1 hq]; exact a3
  | cat i is =>
    change ((((i :: is).mapM fun k => (t.map fun q => q.1)[k]?).bind fun vs => (SnVec.cat vs).bind fun w => some ((t.map fun q => q.1) ++ [w])) =
      some s') at h
    rw [mapM_get_map] at h
    rcases hi : (i :: is).mapM (fun k => t[k]?) with _ | qs
    · rw [hi] at h; cases h
    · have hne : qs ≠ [] := by
        rintro rfl
        rw [List.mapM_cons] at hi
        rcases e1 : t[i]? with _ | y
        · simp [e1] at hi
        · rcases e2 : is.mapM (fun k => t[k]?) with _ | ys
          · simp [e1, e2] at hi
          · simp [e1, e2] at hi
      have hqs : ∀ q ∈ qs, q ∈ t := by
        intro q hq
        exact mapM_get_mem hi q hq
      obtain ⟨u, u2, u3, a1, a2, a3, a4⟩ := rel3_cat hn hx hne fun q hq => ht q (hqs q hq)
      rw [hi, Option.map_some, Option.bind_some] at h
      erw [a1] at h
      rw [Option.bind_some, Option.some.injEq] at h
      refine ⟨t ++ [(u, u2, u3)], ?_, ?_, ?_, fun q hq => ?_⟩
      · rw [← h]; simp
      · change ((((i :: is).mapM fun k => (t.map fun q => q.2.1)[k]?).bind fun vs => (SnVec.cat vs).bind fun w => some ((t.map fun q => q.2.1) ++ [w])) = _)
        rw [mapM_get_map, hi, Option.map_some, Option.bind_some]
        erw [a2]
        simp
      · change ((((i :: is).mapM fun k => (t.map fun q => q.2.2)[k]?).bind fun vs => (SnVec.cat vs).bind fun w => some ((t.map fun q => q.2.2) ++ [w])) = _)
        rw [mapM_get_map, hi, Option.map_some, Option.bind_some]
        erw [a3]
        simp
      · rcases List.mem_append.1 hq with hq | hq
        · exact (ht q hq).mono fun _ _ _ => hR _ _ _ _ _ (Nat.le_add_right _ _)
        · rw [List.mem_singleton.1 hq]; exact a4
  | add i j =>
    rcases hi : t[i]? with _ | q
    · simp [VStmt.exec, hi] at h
    · rcases hj : t[j]? with _ | q'
      · simp [VStmt.exec, hi, hj] at h
      · rcases hw : q.1.add q'.1 with _ | u
        · simp [VStmt.exec, hi, hj, hw] at h
        · obtain ⟨u2, u3, a1, a2, a3⟩ := rel3_add hn (hadd e) (ht q (List.mem_of_getElem? hi)) (ht q' (List.mem_of_getElem? hj)) hw
          simp only [VStmt.exec, List.getElem?_map, hi, hj, hw, Option.map_some, Option.bind_eq_bind, Option.bind_some, Option.some.injEq] at h
          refine ⟨t.set i (u, u2, u3), ?_, ?_, ?_, fun q hq => ?_⟩
          · rw [← h, List.map_set]
          · simp [Rounding.vexec, hi, hj, a1, List.map_set]
          · simp [VStmt.abs, VStmt.exec, hi, hj, a2, List.map_set]
          · rcases List.mem_or_eq_of_mem_set hq with hq | rfl
            · exact (ht q hq).mono fun _ _ _ => hR _ _ _ _ _ (Nat.le_add_right _ _)
            · exact a3

theorem run_bound {p : List VStmt} : ∀ {s s' : List SnVec}, VStmt.run p s = some s' → (∀ w ∈ s', ∀ P ∈ w, P.m ≤ C) →
    ∀ w ∈ s, ∀ P ∈ w, P.m ≤ C := by
  induction p with
  | nil => intro s s' h hC; cases h; exact hC
  | cons c p ih =>
    intro s s' h hC
    unfold VStmt.run at h
    rcases h1 : c.exec s with _ | s1
    · simp [h1] at h
    · rw [h1] at h
      exact exec_bound h1 (ih h hC)

theorem rel3_run (hn : 1 ≤ n) (hR : ∀ e e' x y a, e ≤ e' → R e x y a → R e' x y a)
    (hmul : ∀ e, ∀ c ≤ C, ∀ x y a f : Nat → ℝ, (∀ k < c, R e (x k) (y k) (a k)) → (∀ k < c, G (f k)) →
      R (e + C) (∑ k ∈ Finset.range c, x k * f k) (F.dot ord c y f) (∑ k ∈ Finset.range c, a k * |f k|))
    (hadd : ∀ e x y a x' y' a', R e x y a → R e x' y' a' → R (e + 1) (x + x') (F.s (y + y')) (a + a'))
    {x : SnVec} (hx : Ok n x) {p : List VStmt} : ∀ {e : Nat} {t : List (SnVec × SnVec × SnVec)}, (∀ q ∈ t, Rel3 n (R e) (vkeys x) q) →
    (∀ c ∈ p, c.AllW G) → ∀ {s' : List SnVec}, VStmt.run p (t.map fun q => q.1) = some s' → (∀ w ∈ s', ∀ P ∈ w, P.m ≤ C) →
    ∃ t' : List (SnVec × SnVec × SnVec), s' = t'.map (fun q => q.1) ∧ F.vrun ord p (t.map fun q => q.2.1) = some (t'.map fun q => q.2.1) ∧
      VStmt.run (p.map VStmt.abs) (t.map fun q => q.2.2) = some (t'.map fun q => q.2.2) ∧
      ∀ q ∈ t', Rel3 n (R (e + (p.map (VStmt.cost C)).sum)) (vkeys x) q := by
  induction p with
  | nil =>
    intro e t ht _ s' h _
    cases h
    exact ⟨t, rfl, rfl, rfl, by simpa using ht⟩
  | cons c p ih =>
    intro e t ht hG s' h hC
    unfold VStmt.run at h
    rcases h1 : c.exec (t.map fun q => q.1) with _ | s1
    · simp [h1] at h
    · rw [h1] at h
      have hb := exec_bound h1 (run_bound h hC)
      obtain ⟨t1, a1, a2, a3, a4⟩ := rel3_step hn hR hmul hadd hx ht (hG c (by simp))
        (fun q hq => hb q.1 (List.mem_map.2 ⟨q, hq, rfl⟩)) h1
      subst a1
      obtain ⟨t2, b1, b2, b3, b4⟩ := ih a4 (fun c hc => hG c (by simp [hc])) h hC
      refine ⟨t2, b1, ?_, ?_, fun q hq => ?_⟩
      · unfold Rounding.vrun; rw [a2]; exact b2
      · rw [List.map_cons]; unfold VStmt.run; rw [a3]; exact b3
      · have := b4 q hq
        rwa [List.map_cons, List.sum_cons, ← add_assoc]

end

/-- the input -/
theorem rel3_input (hn : 1 ≤ n) {x : SnVec} (hx : Ok n x) {R : ℝ → ℝ → ℝ → Prop}
    (h : ∀ P ∈ x, ∀ i < P.d, ∀ j < P.m, R (P.data i j) (P.data i j) |P.data i j|) : Rel3 n R (vkeys x) (x, x, x.absVec) := by
  obtain ⟨a1, a2, a3⟩ := mapData_ok hn hx fun y => |y|
  refine ⟨hx, hx, a1, rfl, rfl, a2, fun _ _ => rfl, fun z hz => (a3 z hz).1, fun z hz i hi j hj => ?_⟩
  obtain ⟨-, -, -, -, h1, h2⟩ := index_partAt hx hz
  have := h _ h1 i (by rw [partAt_d hx hz]; exact hi) j hj
  change R _ _ ((partAt (absVec x) z).data i j)
  unfold absVec
  rw [(a3 z hz).2]
  exact this

/-- position by position -/
theorem Rel3.at {R : ℝ → ℝ → ℝ → Prop} {K : List (List Nat)} {w w' a : SnVec} (h : Rel3 n R K (w, w', a)) :
    w'.length = w.length ∧ a.length = w.length ∧ ∀ (k : Nat) (P Q A : VPart), w[k]? = some P → w'[k]? = some Q → a[k]? = some A →
    (Q.irrep.lambda = P.irrep.lambda ∧ Q.d = P.d ∧ Q.m = P.m) ∧ (A.irrep.lambda = P.irrep.lambda ∧ A.d = P.d ∧ A.m = P.m) ∧
    ∀ i < P.d, ∀ j < P.m, R (P.data i j) (Q.data i j) (A.data i j) := by
  have l1 : w.length = K.length := by have := congrArg List.length h.k1; simpa [vkeys] using this
  have l2 : w'.length = K.length := by have := congrArg List.length h.k2; simpa [vkeys] using this
  have l3 : a.length = K.length := by have := congrArg List.length h.k3; simpa [vkeys] using this
  refine ⟨by rw [l1, l2], by rw [l1, l3], fun k P Q A hP hQ hA => ?_⟩
  have e1 : K[k]? = some P.irrep.lambda := by rw [← h.k1]; simp [vkeys, hP]
  have e2 : K[k]? = some Q.irrep.lambda := by rw [← h.k2]; simp [vkeys, hQ]
  have e3 : K[k]? = some A.irrep.lambda := by rw [← h.k3]; simp [vkeys, hA]
  rw [e1, Option.some.injEq] at e2 e3
  have hz : P.irrep.lambda ∈ K := List.mem_of_getElem? e1
  have p1 : partAt w P.irrep.lambda = P := partAt_of_mem h.ok1.nodup (List.mem_of_getElem? hP)
  have p2 : partAt w' P.irrep.lambda = Q := by rw [e2]; exact partAt_of_mem h.ok2.nodup (List.mem_of_getElem? hQ)
  have p3 : partAt a P.irrep.lambda = A := by rw [e3]; exact partAt_of_mem h.ok3.nodup (List.mem_of_getElem? hA)
  have d1 := partAt_d h.ok1 (h.k1 ▸ hz)
  have d2 := partAt_d h.ok2 (h.k2 ▸ hz)
  have d3 := partAt_d h.ok3 (h.k3 ▸ hz)
  have m2 := h.m2 _ hz
  have m3 := h.m3 _ hz
  have hd := h.data _ hz
  simp only [p1, p2, p3] at d1 d2 d3 m2 m3 hd
  rw [d1, d2, d3]
  exact ⟨⟨e2.symm, rfl, m2⟩, ⟨e3.symm, rfl, m3⟩, hd⟩

end Snob
