import Verif.Proofs.SnWeights2

/-! # Properties C74-C77: weights -/

namespace Snob.Props

open Snob SnVec IP Weights

variable {n : Nat}

theorem parts_eq {x y : SnType} (hx : TypeOk n x) (hy : TypeOk n y) (h : ∀ z, z ∈ parts x ↔ z ∈ parts y) : parts x = parts y :=
  ((List.perm_ext_iff_of_nodup (hx.sorted.imp fun h => by rintro rfl; exact lexGreater_irrefl _ h)
      (hy.sorted.imp fun h => by rintro rfl; exact lexGreater_irrefl _ h)).2 h).eq_of_pairwise
      (fun _ _ _ _ h h' => absurd h' (lexGreater_asymm h)) hx.sorted hy.sorted

theorem mult_nonneg {y : SnType} (hy : TypeOk n y) (py : ∀ e ∈ y, 0 ≤ e.2) (z : List Nat) : 0 ≤ mult y z := by
  by_cases h : z ∈ parts y
  · obtain ⟨c, hc, rfl⟩ := List.mem_map.1 h
    rw [lookup_of_mem hy.nodup hc]
    exact py c hc
  · rw [mult_of_not_mem h]

/-- the product with weights made from types with the same irreps -/
theorem weights_mul (hn : 1 ≤ n) {x y : SnType} (hx : TypeOk n x) (hy : TypeOk n y) (px : ∀ e ∈ x, 0 ≤ e.2) (py : ∀ e ∈ y, 0 ≤ e.2)
    (h : ∀ z, z ∈ parts x ↔ z ∈ parts y) (fill : List Nat → Nat → Nat → ℝ) :
    ∃ W, ofTypes fill x y = some (W, y) ∧ (∀ z ∈ parts x, W z = some (.mat (mult x z).toNat (mult y z).toNat (fill z))) ∧
      ∀ v, Ok n v → getType v = some y → ∃ w, mulVec W v = some w ∧ Ok n w ∧ getType w = some x ∧
        ∀ z ∈ parts y, ∀ i j, (partAt w z).data i j = ∑ k ∈ Finset.range (mult y z).toNat, (partAt v z).data i k * fill z j k := by
  obtain ⟨y', a1, a2, a3, a4⟩ := ofTypes_ok fill hx px hy (mult_nonneg hy py)
  have hyy : y' = y := a2.ext hy (fun z => by rw [a4, h]; tauto) a3
  rw [hyy] at a1
  refine ⟨_, a1, fun z hz => if_pos hz, fun v hv tv => ?_⟩
  obtain ⟨b1, b2⟩ := of_type hv tv
  obtain ⟨w, c1, c2, c3, c4⟩ := mulVec_ok hn hv
    (fun z => if z ∈ parts x then some (.mat (mult x z).toNat (mult y z).toNat (fill z)) else none) (fun z => (mult x z).toNat) fill
    (fun z hz => by
      rw [b1] at hz
      rw [if_pos ((h z).2 hz), b2 z hz])
  refine ⟨w, c1, c2, ?_, fun z hz i j => ?_⟩
  · rw [eq_mkV c2, c3, b1, ← parts_eq hx hy h]
    refine type_mkV hn hx px _ (fun z hz => ?_) _
    rw [(c4 z (by rw [b1]; exact (h z).1 hz)).1]
  · rw [(c4 z (by rw [b1]; exact hz)).2 i j, b2 z hz]

/-- **C74** (partial: the full statement is for all types `x` and `y`; false, see `C74_missing` and `C74_undefined`). Weights
made for the types `x` and `y`, whatever they are filled with, make of every vector of type `y` a vector of type `x`: column
`j` of a part is the sum of the columns of the same part, each multiplied by the entry of row `j` of the matrix. -/
theorem C74_product_partial (n : Nat) (hn : 1 ≤ n) (x y : SnType) (hx : TypeOk n x) (hy : TypeOk n y) (px : ∀ e ∈ x, 0 ≤ e.2)
    (py : ∀ e ∈ y, 0 ≤ e.2) (h : ∀ z, z ∈ parts x ↔ z ∈ parts y) (fill : List Nat → Nat → Nat → ℝ) :
    ∃ W, ofTypes fill x y = some (W, y) ∧ ∀ v, Ok n v → getType v = some y →
      ∃ w, mulVec W v = some w ∧ Ok n w ∧ getType w = some x ∧
        ∀ z ∈ parts y, ∀ R, mkIrrep z = some R → ∀ j < (mult x z).toNat,
          (colsAt (obs w) z)[j]? = some (mixCols R.d (fill z j) (colsAt (obs v) z)) := by
  obtain ⟨W, a1, -, a2⟩ := weights_mul hn hx hy px py h fill
  refine ⟨W, a1, fun v hv tv => ?_⟩
  obtain ⟨w, b1, b2, b3, b4⟩ := a2 v hv tv
  refine ⟨w, b1, b2, b3, fun z hz R hR j hj => ?_⟩
  have hd : R.d = dimOf z := by unfold dimOf irrOf; rw [hR]; rfl
  rw [hd]
  obtain ⟨c1, c2⟩ := of_type hv tv
  obtain ⟨d1, d2⟩ := of_type b2 b3
  have hzv : z ∈ vkeys v := by rw [c1]; exact hz
  have hzw : z ∈ vkeys w := by rw [d1]; exact (h z).2 hz
  have ddv : (partAt v z).d = dimOf z := by
    obtain ⟨-, -, -, -, h1, h2⟩ := index_partAt hv hzv
    rw [part_d hv h1, h2]
  have ddw : (partAt w z).d = dimOf z := by
    obtain ⟨-, -, -, -, h1, h2⟩ := index_partAt b2 hzw
    rw [part_d b2 h1, h2]
  rw [colsAt_eq b2, colsAt_eq hv, ← partAt_cols b2 hzw, ← partAt_cols hv hzv]
  have hm : j < (partAt w z).m := by rw [d2 z ((h z).2 hz)]; exact hj
  unfold VPart.cols
  rw [List.getElem?_map, List.getElem?_range hm, ddw, ddv, Option.map_some]
  refine congrArg some ?_
  unfold mixCols
  refine List.map_congr_left fun i hi => ?_
  rw [List.mem_range] at hi
  rw [b4 z hz i j, list_range_sum, List.length_map, List.length_range, c2 z hz]
  refine Finset.sum_congr rfl fun k hk => ?_
  rw [Finset.mem_range] at hk
  simp [List.getD_eq_getElem?_getD, hk, hi, mul_comm]

/-- **C74** is false: if `x` has an irrep that `y` has not, then the product of a vector of type `y` has no part for it, so it
is not of type `x`. Moreover the constructor has entered the irrep in the type `y` (see C47). -/
theorem C74_missing (n : Nat) (hn : 1 ≤ n) (x y : SnType) (hx : TypeOk n x) (hy : TypeOk n y) (px : ∀ e ∈ x, 0 ≤ e.2)
    (py : ∀ e ∈ y, 0 ≤ e.2) (h : ∀ z ∈ parts y, z ∈ parts x) (z : List Nat) (hz : z ∈ parts x) (hz' : z ∉ parts y)
    (fill : List Nat → Nat → Nat → ℝ) :
    ∃ W y', ofTypes fill x y = some (W, y') ∧ z ∈ parts y' ∧ ∀ v, Ok n v → getType v = some y →
      ∃ w t, mulVec W v = some w ∧ getType w = some t ∧ parts t = parts y ∧ t ≠ x := by
  obtain ⟨y', a1, -, -, a4⟩ := ofTypes_ok fill hx px hy (mult_nonneg hy py)
  refine ⟨_, y', a1, (a4 z).2 (Or.inl hz), fun v hv tv => ?_⟩
  obtain ⟨b1, b2⟩ := of_type hv tv
  obtain ⟨w, c1, c2, c3, -⟩ := mulVec_ok hn hv
    (fun z => if z ∈ parts x then some (.mat (mult x z).toNat (mult y z).toNat (fill z)) else none) (fun z => (mult x z).toNat) fill
    (fun z hz => by
      rw [b1] at hz
      rw [if_pos (h z hz), b2 z hz])
  have hk : parts (typeOf (obs w)) = parts y := by
    rw [typeOf_obs, ← b1, ← c3]
    unfold parts
    rw [List.map_map]; rfl
  refine ⟨w, _, c1, getType_eq c2, hk, fun e => hz' ?_⟩
  rw [← hk, e]; exact hz

/-- **C74** is false: if `y` has an irrep that `x` has not, then the product of a vector of type `y` is not defined (the
assertion in `get_matrix` fails). -/
theorem C74_undefined (n : Nat) (x y : SnType) (hx : TypeOk n x) (hy : TypeOk n y) (px : ∀ e ∈ x, 0 ≤ e.2)
    (py : ∀ e ∈ y, 0 ≤ e.2) (z : List Nat) (hz : z ∉ parts x) (hz' : z ∈ parts y) (fill : List Nat → Nat → Nat → ℝ) :
    ∃ W y', ofTypes fill x y = some (W, y') ∧ ∀ v, Ok n v → getType v = some y → mulVec W v = none := by
  obtain ⟨y', a1, -, -, a4⟩ := ofTypes_ok fill hx px hy (mult_nonneg hy py)
  refine ⟨_, y', a1, fun v hv tv => ?_⟩
  obtain ⟨b1, -⟩ := of_type hv tv
  rw [← b1] at hz'
  obtain ⟨P, hP, rfl⟩ := List.mem_map.1 hz'
  rw [Option.eq_none_iff_forall_ne_some]
  intro w hw
  obtain ⟨r, f, e⟩ := mulVec_def hw P hP
  rw [if_neg hz] at e
  exact absurd e (by simp)

/-- what a defined product is -/
theorem mul_data (hn : 1 ≤ n) {W : Weights} {v w : SnVec} (hv : Ok n v) (h : mulVec W v = some w) :
    ∃ (r : List Nat → Nat) (f : List Nat → Nat → Nat → ℝ), (∀ z ∈ vkeys v, W z = some (.mat (r z) (partAt v z).m (f z))) ∧
      Ok n w ∧ vkeys w = vkeys v ∧ ∀ z ∈ vkeys v, (partAt w z).m = r z ∧ ∀ i j, (partAt w z).data i j =
      ∑ k ∈ Finset.range (partAt v z).m, (partAt v z).data i k * f z j k := by
  have h1 : ∀ z, ∃ r f, z ∈ vkeys v → W z = some (.mat r (partAt v z).m f) := by
    intro z
    by_cases hz : z ∈ vkeys v
    · obtain ⟨P, hP, rfl⟩ := List.mem_map.1 hz
      obtain ⟨r, f, e⟩ := mulVec_def h P hP
      exact ⟨r, f, fun _ => by rw [e, partAt_of_mem hv.nodup hP]⟩
    · exact ⟨0, fun _ _ => 0, fun h => absurd h hz⟩
  choose r f hrf using h1
  obtain ⟨w', c1, c2, c3, c4⟩ := mulVec_ok hn hv W r f hrf
  rw [h, Option.some.injEq] at c1
  subst c1
  exact ⟨r, f, hrf, c2, c3, c4⟩

/-- **C75.** The product with weights commutes with the action of the group, whenever it is defined. -/
theorem C75_equivariant (n : Nat) (hn : 1 ≤ n) (W : Weights) (v w : SnVec) (hv : Ok n v) (h : mulVec W v = some w) (a : Arr)
    (ha : IsPerm n a) : ∃ v' w' w'', v.apply a = some v' ∧ mulVec W v' = some w' ∧ w.apply a = some w'' ∧ obs w' = obs w'' := by
  obtain ⟨σ, rfl⟩ := ha
  obtain ⟨r, f, a1, a2, a3, a4⟩ := mul_data hn hv h
  obtain ⟨v', b1, b2, b3, b4⟩ := apply_data hn σ hv
  obtain ⟨w'', c1, c2, c3, c4⟩ := apply_data hn σ a2
  obtain ⟨w', d1, d2, d3, d4⟩ := mulVec_ok hn b2 W r f (fun z hz => by
    rw [b3] at hz; rw [a1 z hz, (b4 z hz).1])
  refine ⟨v', w', w'', b1, d1, c1, (obs_data d2 c2 (by rw [d3, b3, c3, a3])).2 fun p hp => ?_⟩
  rw [d3] at hp
  have hp' : p ∈ vkeys v := by rw [← b3]; exact hp
  have hpw : p ∈ vkeys w := by rw [a3]; exact hp'
  refine ⟨by rw [(d4 p hp).1, (c4 p hpw).1, (a4 p hp').1], fun i hi j hj => ?_⟩
  rw [(d4 p hp).1] at hj
  rw [(d4 p hp).2, (c4 p hpw).2 i hi j (by rw [(a4 p hp').1]; exact hj), (b4 p hp').1]
  have e : ∀ k ∈ Finset.range (partAt v p).m, (partAt v' p).data i k * f p j k =
      ∑ l ∈ Finset.range (dimOf p), evalN p (enc σ) i l * ((partAt v p).data l k * f p j k) := by
    intro k hk
    rw [(b4 p hp').2 i hi k (Finset.mem_range.1 hk), Finset.sum_mul]
    exact Finset.sum_congr rfl fun l _ => by ring
  rw [Finset.sum_congr rfl e, Finset.sum_comm]
  refine Finset.sum_congr rfl fun l _ => ?_
  rw [(a4 p hp').2, Finset.mul_sum]

/-- **C75.** The product with weights is linear. -/
theorem C75_linear (n : Nat) (hn : 1 ≤ n) (W : Weights) (s : ℝ) (u v w v' : SnVec) (hu : Ok n u) (hv : Ok n v) (hw : Ok n w)
    (hc : IsComb s u v w) (h : mulVec W v = some v') :
    ∃ u' w', mulVec W u = some u' ∧ mulVec W w = some w' ∧ IsComb s u' v' w' := by
  obtain ⟨r, f, a1, a2, a3, a4⟩ := mul_data hn hv h
  have k1 : vkeys u = vkeys v := sameType_keys hc.1
  have k2 : vkeys u = vkeys w := sameType_keys hc.2.1
  have m1 := fun {z} hz => sameType_m hu hv hc.1 (x := z) hz
  have m2 := fun {z} hz => sameType_m hu hw hc.2.1 (x := z) hz
  obtain ⟨u', b1, b2, b3, b4⟩ := mulVec_ok hn hu W r f (fun z hz => by rw [a1 z (k1 ▸ hz), m1 hz])
  obtain ⟨w', c1, c2, c3, c4⟩ := mulVec_ok hn hw W r f (fun z hz => by
    rw [← k2] at hz; rw [a1 z (k1 ▸ hz), ← m2 hz, m1 hz])
  refine ⟨u', w', b1, c1, comb_of b2 a2 c2 ?_ ?_ fun z hz i hi j hj => ?_⟩
  · refine sameType_of b2 a2 (by rw [b3, a3, k1]) fun z hz => ?_
    rw [b3] at hz
    rw [(b4 z hz).1, (a4 z (k1 ▸ hz)).1]
  · refine sameType_of b2 c2 (by rw [b3, c3, k2]) fun z hz => ?_
    rw [b3] at hz
    rw [(b4 z hz).1, (c4 z (k2 ▸ hz)).1]
  · rw [b3] at hz
    rw [(b4 z hz).2, (a4 z (k1 ▸ hz)).2, (c4 z (k2 ▸ hz)).2, ← m1 hz, ← m2 hz, Finset.mul_sum, ← Finset.sum_add_distrib]
    refine Finset.sum_congr rfl fun k hk => ?_
    rw [comb_at hu hv hw hc hz i hi k (Finset.mem_range.1 hk)]
    ring

/-- **C75.** Multiplying by weights twice is multiplying by the product of the matrices. -/
theorem C75_composition (n : Nat) (hn : 1 ≤ n) (W V : Weights) (u v w : SnVec) (hu : Ok n u) (h1 : mulVec V u = some v)
    (h2 : mulVec W v = some w) : ∃ w', mulVec (comp W V) u = some w' ∧ obs w' = obs w := by
  obtain ⟨r, f, a1, a2, a3, a4⟩ := mul_data hn hu h1
  obtain ⟨r', f', b1, b2, b3, b4⟩ := mul_data hn a2 h2
  rw [a3] at b1 b4
  obtain ⟨w', c1, c2, c3, c4⟩ := mulVec_ok hn hu (comp W V) r'
    (fun z i j => ∑ k ∈ Finset.range (r z), f' z i k * f z k j) (fun z hz => by
    unfold comp
    rw [a1 z hz, b1 z hz]
    simp only [list_range_sum])
  refine ⟨w', c1, (obs_data c2 b2 (by rw [c3, b3, a3])).2 fun p hp => ?_⟩
  rw [c3] at hp
  refine ⟨by rw [(c4 p hp).1, (b4 p hp).1], fun i hi j hj => ?_⟩
  rw [(c4 p hp).2, (b4 p hp).2, (a4 p hp).1]
  have e : ∀ k ∈ Finset.range (r p), (partAt v p).data i k * f' p j k =
      ∑ l ∈ Finset.range (partAt u p).m, (partAt u p).data i l * (f' p j k * f p k l) := by
    intro k _
    rw [(a4 p hp).2, Finset.sum_mul]
    exact Finset.sum_congr rfl fun l _ => by ring
  rw [Finset.sum_congr rfl e, Finset.sum_comm]
  exact Finset.sum_congr rfl fun l _ => by rw [Finset.mul_sum]

/-- **C76.** Every linear map from the vectors of type `y` to those of type `x` (with the same irreps) that commutes with the
group is the product with weights. -/
theorem C76_complete (n : Nat) (hn : 1 ≤ n) (x y : SnType) (hx : TypeOk n x) (hy : TypeOk n y) (px : ∀ e ∈ x, 0 ≤ e.2)
    (py : ∀ e ∈ y, 0 ≤ e.2) (h : ∀ z, z ∈ parts x ↔ z ∈ parts y) (T : SnVec → SnVec) (hT : IsEquivariant n x y T) :
    ∃ fill W, ofTypes fill x y = some (W, y) ∧ ∀ v, Ok n v → getType v = some y →
      ∃ w, mulVec W v = some w ∧ obs w = obs (T v) := by
  obtain ⟨W, a1, -, a2⟩ := weights_mul hn hx hy px py h fun p l j => (partAt (T (vecOf y (unitD p 0 j))) p).data 0 l
  refine ⟨_, W, a1, fun v hv tv => ?_⟩
  obtain ⟨w, b1, b2, b3, b4⟩ := a2 v hv tv
  obtain ⟨c1, c2⟩ := hT.type v hv tv
  obtain ⟨d1, d2⟩ := of_type b2 b3
  obtain ⟨e1, e2⟩ := of_type c1 c2
  refine ⟨w, b1, (obs_data b2 c1 (by rw [d1, e1])).2 fun p hp => ?_⟩
  rw [d1] at hp
  refine ⟨by rw [d2 p hp, e2 p hp], fun i hi l hl => ?_⟩
  rw [d2 p hp] at hl
  rw [b4 p ((h p).1 hp), image hn hy py hT hx hp hi hl hv tv, if_pos ((h p).1 hp)]

/-- **C76.** Different weights give different maps. -/
theorem C76_unique (n : Nat) (hn : 1 ≤ n) (x y : SnType) (hx : TypeOk n x) (hy : TypeOk n y) (px : ∀ e ∈ x, 0 ≤ e.2)
    (py : ∀ e ∈ y, 0 ≤ e.2) (h : ∀ z, z ∈ parts x ↔ z ∈ parts y) (f g : List Nat → Nat → Nat → ℝ) (W V : Weights)
    (hW : ofTypes f x y = some (W, y)) (hV : ofTypes g x y = some (V, y))
    (he : ∀ v w u, Ok n v → getType v = some y → mulVec W v = some w → mulVec V v = some u → obs w = obs u) :
    ∀ z ∈ parts x, ∀ i < (mult x z).toNat, ∀ j < (mult y z).toNat, f z i j = g z i j := by
  intro z hz i hi j hj
  obtain ⟨W', a1, -, a2⟩ := weights_mul hn hx hy px py h f
  obtain ⟨V', b1, -, b2⟩ := weights_mul hn hx hy px py h g
  rw [hW, Option.some.injEq, Prod.mk.injEq] at a1
  rw [hV, Option.some.injEq, Prod.mk.injEq] at b1
  obtain ⟨rfl, -⟩ := a1
  obtain ⟨rfl, -⟩ := b1
  obtain ⟨c1, c2, c3, c4⟩ := vecOf_ok hn hy py (unitD z 0 j)
  obtain ⟨w, d1, d2, d3, d4⟩ := a2 _ c1 c2
  obtain ⟨u, e1, e2, e3, e4⟩ := b2 _ c1 c2
  have hz' := (h z).1 hz
  obtain ⟨k1, k2⟩ := of_type d2 d3
  obtain ⟨l1, l2⟩ := of_type e2 e3
  have := ((obs_data d2 e2 (by rw [k1, l1])).1 (he _ _ _ c1 c2 d1 e1) z (by rw [k1]; exact hz)).2 0 (dimOf_pos hn (hx.all z hz)) i
    (by rw [k2 z hz]; exact hi)
  rw [d4 z hz', e4 z hz', (c4 z hz').2] at this
  have s : ∀ F : Nat → Nat → ℝ, ∑ k ∈ Finset.range (mult y z).toNat, unitD z 0 j z 0 k * F i k = F i j := by
    intro F
    rw [Finset.sum_eq_single j]
    · simp [unitD]
    · intro b _ hb; simp [unitD, hb]
    · intro h; exact absurd (Finset.mem_range.2 hj) h
  rwa [s, s] at this

theorem ofVecsLoop_ok (fill : List Nat → Nat → ℝ) (x y : SnVec) (h : vkeys x = vkeys y) (hnd : (vkeys x).Nodup) (W : Weights) :
    ∃ W', ofVecsLoop fill x y W = some W' ∧ (∀ z, z ∉ vkeys x → W' z = W z) ∧
      ∀ (k : Nat) (P Q : VPart), x[k]? = some P → y[k]? = some Q → W' P.irrep.lambda = some (.vec (P.m * Q.m) (fill P.irrep.lambda)) := by
  induction x generalizing y W with
  | nil => exact ⟨W, rfl, fun _ _ => rfl, by simp⟩
  | cons P x ih =>
    cases y with
    | nil => simp at h
    | cons Q y =>
      unfold vkeys at h hnd
      rw [List.map_cons, List.map_cons, List.cons.injEq] at h
      rw [List.map_cons, List.nodup_cons] at hnd
      obtain ⟨W', a1, a2, a3⟩ := ih y h.2 hnd.2 (Function.update W P.irrep.lambda (some (.vec (P.m * Q.m) (fill P.irrep.lambda))))
      refine ⟨W', ?_, fun z hz => ?_, fun k P' Q' hP hQ => ?_⟩
      · rw [ofVecsLoop, if_pos ((eqb_iff _ _).2 fun i => by rw [h.1]), a1]
      · unfold vkeys at hz
        rw [List.map_cons, List.mem_cons, not_or] at hz
        rw [a2 z hz.2, Function.update_of_ne hz.1]
      · cases k with
        | zero =>
          simp only [List.getElem?_cons_zero, Option.some.injEq] at hP hQ
          subst hP hQ
          rw [a2 _ hnd.1, Function.update_self]
        | succ k =>
          rw [List.getElem?_cons_succ] at hP hQ
          exact a3 k P' Q' hP hQ

/-- **C77** (partial: the full statement is that the weights made for the vectors `x` and `y` make a vector of the type of `x` of
every vector of the type of `y`; false, see `C77_undefined`). The constructor from two vectors with the same irreps makes for
each irrep a tensor with as many entries as the matrix should have, and the given filling. -/
theorem C77_from_vectors_partial (n : Nat) (x y : SnVec) (hx : Ok n x) (h : x.map (fun P => P.irrep.lambda) = y.map fun P => P.irrep.lambda)
    (fill : List Nat → Nat → ℝ) : ∃ W, ofVecs fill x y = some W ∧ (∀ z, z ∉ x.map (fun P => P.irrep.lambda) → W.getMatrix z = none) ∧
      ∀ (k : Nat) (P Q : VPart), x[k]? = some P → y[k]? = some Q →
        W.getMatrix P.irrep.lambda = some (.vec (P.m * Q.m) (fill P.irrep.lambda)) := by
  obtain ⟨W, a1, a2, a3⟩ := ofVecsLoop_ok fill x y h hx.nodup fun _ => none
  refine ⟨W, ?_, fun z hz => a2 z hz, a3⟩
  unfold ofVecs
  have hl : x.length = y.length := by simpa using congrArg List.length h
  rw [if_pos hl, a1]

/-- **C77** is false: the product of weights made from two vectors with a vector of the type of the second is never defined,
as the weights are not matrices. -/
theorem C77_undefined (n : Nat) (x y : SnVec) (hx : Ok n x) (h : x.map (fun P => P.irrep.lambda) = y.map fun P => P.irrep.lambda)
    (fill : List Nat → Nat → ℝ) (W : Weights) (hW : ofVecs fill x y = some W) (v : SnVec) (hv : v ≠ []) : mulVec W v = none := by
  obtain ⟨W', a1, a2, a3⟩ := C77_from_vectors_partial n x y hx h fill
  rw [hW, Option.some.injEq] at a1
  subst a1
  rw [Option.eq_none_iff_forall_ne_some]
  intro w hw
  obtain ⟨P, hP⟩ := List.exists_mem_of_ne_nil v hv
  obtain ⟨r, f, e⟩ := mulVec_def hw P hP
  by_cases hz : P.irrep.lambda ∈ x.map fun P => P.irrep.lambda
  · obtain ⟨Q, hQ, hl⟩ := List.mem_map.1 hz
    obtain ⟨k, hk, hkQ⟩ := List.mem_iff_getElem.1 hQ
    have hlen : x.length = y.length := by simpa using congrArg List.length h
    have := a3 k Q (y[k]'(hlen ▸ hk)) (by rw [List.getElem?_eq_getElem hk, hkQ]) (List.getElem?_eq_getElem _)
    unfold getMatrix at this
    rw [hl, e] at this
    exact absurd this (by simp)
  · have := a2 _ hz
    unfold getMatrix at this
    rw [e] at this
    exact absurd this (by simp)

/-! ### Examples -/

theorem exType_ok (m : Int) : TypeOk 3 [([2, 1], m)] := typeOk_cons.2 ⟨part21, by simp [parts], typeOk_nil 3⟩

theorem exType_get (s t : ℝ) : getType (exVec s t) = some [([2, 1], 1)] := by
  rw [getType_eq (exVec_ok s t), typeOf_obs]
  simp only [exVec, List.map_cons, List.map_nil]
  rw [show (mkP [2, 1] 1 fun i _ => if i = 0 then s else t).irrep.lambda = [2, 1] from (irrOf_spec (by norm_num) part21).2.1]
  rfl

/-- weights with matrix `(5, 7)^T`: one column is turned into two -/
example : ∃ W w P, ofTypes (fun _ j _ => if j = 0 then 5 else 7) [([2, 1], 2)] [([2, 1], 1)] = some (W, [([2, 1], 1)]) ∧
    mulVec W (exVec 3 4) = some w ∧ getType w = some [([2, 1], 2)] ∧ w = [P] ∧ P.data 0 0 = 15 ∧ P.data 0 1 = 21 ∧ P.data 1 0 = 20 ∧ P.data 1 1 = 28 := by
  obtain ⟨W, a1, -, a2⟩ := weights_mul (n := 3) (by norm_num) (exType_ok 2) (exType_ok 1) (by simp) (by simp) (by simp [parts]) fun _ j _ => if j = 0 then 5 else 7
  obtain ⟨w, b1, b2, b3, b4⟩ := a2 (exVec 3 4) (exVec_ok 3 4) (exType_get 3 4)
  obtain ⟨c1, c2⟩ := of_type b2 b3
  have hp : partAt (exVec 3 4) [2, 1] = mkP [2, 1] 1 fun i _ => if i = 0 then 3 else 4 := by
    have h2 : (mkP [2, 1] 1 fun i _ => if i = 0 then (3 : ℝ) else 4).irrep.lambda = [2, 1] := (irrOf_spec (by norm_num) part21).2.1
    have := partAt_of_mem (exVec_ok 3 4).nodup (P := mkP [2, 1] 1 fun i _ => if i = 0 then 3 else 4) (by simp [exVec])
    rwa [h2] at this
  have hw : w = [partAt w [2, 1]] := by
    conv_lhs => rw [vec_eq_map b2]
    have e : (w.map fun P => P.irrep.lambda) = [[2, 1]] := c1
    have hm : partAt w [2, 1] ∈ w := by
      obtain ⟨-, -, -, -, h1, -⟩ := index_partAt b2 (mu := [2, 1]) (by rw [e]; simp)
      exact h1
    have hl : (partAt w [2, 1]).irrep.lambda = [2, 1] := by
      obtain ⟨-, -, -, -, -, h1⟩ := index_partAt b2 (mu := [2, 1]) (by rw [e]; simp)
      exact h1
    rw [e]
    have := lookup_irr b2 hm
    rw [hl] at this
    simpa using this.symm
  have d := b4 [2, 1] (by simp [parts])
  refine ⟨W, w, partAt w [2, 1], a1, b1, b3, hw, ?_, ?_, ?_, ?_⟩ <;> rw [d, hp] <;> simp [mult, mkP] <;> norm_num

example : ∃ v' w' w'', (exVec 3 4).apply [some 2, some 3, some 1] = some v' ∧ mulVec (fun _ => some (.mat 2 1 fun j _ => j)) v' = some w' ∧
    (do let w ← mulVec (fun _ => some (.mat 2 1 fun j _ => j)) (exVec 3 4); w.apply [some 2, some 3, some 1]) = some w'' ∧ obs w' = obs w'' := by
  obtain ⟨v', w', w'', h1, h2, h3, h4⟩ := C75_equivariant 3 (by norm_num) (fun _ => some (.mat 2 1 fun j _ => j)) (exVec 3 4) _ (exVec_ok 3 4) rfl
    [some 2, some 3, some 1] ⟨cyc 0 2, by decide⟩
  exact ⟨v', w', w'', h1, h2, h3, h4⟩

/-- the identity is given by weights -/
example : ∃ fill W, ofTypes fill [([2, 1], 1)] [([2, 1], 1)] = some (W, [([2, 1], 1)]) ∧ ∀ v, Ok 3 v → getType v = some [([2, 1], 1)] →
    ∃ w, mulVec W v = some w ∧ obs w = obs v :=
  C76_complete 3 (by norm_num) _ _ (exType_ok 1) (exType_ok 1) (by simp) (by simp) (fun _ => Iff.rfl) id
    ⟨fun _ h t => ⟨h, t⟩, fun _ _ _ _ _ _ _ _ h => h, fun a v v' w _ _ _ h h' => by
      have : some v' = some w := h.symm.trans h'
      rw [Option.some.inj this]; rfl⟩

example : ∃ W, ofTypes (fun _ _ _ => 1) [([3], 1), ([2, 1], 1)] [([2, 1], 1)] = some W ∧
    ∃ w t, mulVec W.1 (exVec 3 4) = some w ∧ getType w = some t ∧ t ≠ [([3], 1), ([2, 1], 1)] := by
  have p3 : IsPartition 3 [3] := (mem_partitions 3 (by norm_num) [3]).1 (by decide)
  obtain ⟨W, y', a1, -, a2⟩ := C74_missing 3 (by norm_num) [([3], 1), ([2, 1], 1)] [([2, 1], 1)]
    (typeOk_cons.2 ⟨p3, fun x hx => by
      rw [show x = [2, 1] by simpa [parts] using hx]
      exact ⟨0, by simp, by decide⟩, exType_ok 1⟩) (exType_ok 1) (by simp) (by simp) (by simp [parts]) [3] (by simp [parts]) (by simp [parts]) fun _ _ _ => 1
  obtain ⟨w, t, b1, b2, -, b3⟩ := a2 (exVec 3 4) (exVec_ok 3 4) (exType_get 3 4)
  exact ⟨_, a1, w, t, b1, b2, b3⟩

example : ∃ W, ofVecs (fun _ _ => 1) (exVec 1 2) (exVec 3 4) = some W ∧ mulVec W (exVec 3 4) = none := by
  obtain ⟨W, h, -⟩ := C77_from_vectors_partial 3 (exVec 1 2) (exVec 3 4) (exVec_ok 1 2) rfl fun _ _ => 1
  exact ⟨W, h, C77_undefined 3 (exVec 1 2) (exVec 3 4) (exVec_ok 1 2) rfl _ W h (exVec 3 4) (by simp [exVec])⟩

end Snob.Props
