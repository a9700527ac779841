import Verif.Proofs.VecInner
import Verif.Props.LetterProg

/-! # C139: adjoints of the operations on vectors -/

namespace Snob.Props

open Snob SnVec Weights Perm

variable {n : Nat}

theorem evalN_one (hn : 1 ≤ n) {p : List Nat} (hp : IsPartition n p) {i j : Nat} (hi : i < dimOf p) (hj : j < dimOf p) :
    evalN p (enc (1 : Equiv.Perm (Fin n))) i j = if i = j then 1 else 0 := by
  rw [evalN_rho hn hp 1 ⟨i, hi⟩ ⟨j, hj⟩, map_one, Matrix.one_apply]
  exact if_congr (by rw [(eqvR hn hp).apply_eq_iff_eq]; exact ⟨fun h => congrArg Fin.val h, fun h => Fin.ext h⟩) rfl rfl

/-- **C139.** The adjoint of the action of a permutation is the action of the inverse. -/
theorem C139_action (hn : 1 ≤ n) {v w : SnVec} (hv : Ok n v) (hw : Ok n w) (st : SameType v w) {a b : Arr} (ha : IsPerm n a)
    (hb : Perm.inverse a = some b) : ∃ v' w', v.apply a = some v' ∧ w.apply b = some w' ∧ dot v' w = dot v w' := by
  obtain ⟨σ, rfl⟩ := ha
  rw [inverse_eq] at hb
  obtain rfl := Option.some.inj hb
  obtain ⟨v', a1, a2, a3, a4⟩ := apply_data hn σ hv
  obtain ⟨w', b1, b2, b3, b4⟩ := apply_data hn σ⁻¹ hw
  have hk := sameType_keys st
  refine ⟨v', w', a1, b1, ?_⟩
  rw [dot_eq a2 hw (a3.trans hk), dot_eq hv b2 (hk.trans b3.symm), a3]
  congr 1
  refine List.map_congr_left fun x hx => ?_
  have hx' : x ∈ vkeys w := hk ▸ hx
  have hm := sameType_m hv hw st hx
  have hp := vkeys_part hv hx
  rw [(a4 x hx).1, Finset.sum_comm, Finset.sum_comm (s := Finset.range (dimOf x)) (t := Finset.range (partAt v x).m)]
  refine Finset.sum_congr rfl fun j hj => ?_
  rw [Finset.mem_range] at hj
  have e1 : ∀ i ∈ Finset.range (dimOf x), (partAt v' x).data i j * (partAt w x).data i j =
      ∑ k ∈ Finset.range (dimOf x), evalN x (enc σ) i k * (partAt v x).data k j * (partAt w x).data i j := fun i hi => by
    rw [(a4 x hx).2 i (Finset.mem_range.1 hi) j hj, Finset.sum_mul]
  have e2 : ∀ i ∈ Finset.range (dimOf x), (partAt v x).data i j * (partAt w' x).data i j =
      ∑ k ∈ Finset.range (dimOf x), (partAt v x).data i j * (evalN x (enc σ⁻¹) i k * (partAt w x).data k j) := fun i hi => by
    rw [(b4 x hx').2 i (Finset.mem_range.1 hi) j (hm ▸ hj), Finset.mul_sum]
  rw [Finset.sum_congr rfl e1, Finset.sum_congr rfl e2, Finset.sum_comm]
  refine Finset.sum_congr rfl fun k hk => Finset.sum_congr rfl fun i hi => ?_
  rw [evalN_inv hn hp σ (Finset.mem_range.1 hk) (Finset.mem_range.1 hi)]
  ring

/-- **C139.** In particular the action keeps inner products. -/
theorem C139_action_isometry (hn : 1 ≤ n) {v w : SnVec} (hv : Ok n v) (hw : Ok n w) (st : SameType v w) {a : Arr} (ha : IsPerm n a) :
    ∃ v' w', v.apply a = some v' ∧ w.apply a = some w' ∧ dot v' w' = dot v w := by
  obtain ⟨σ, rfl⟩ := ha
  obtain ⟨w', b1, b2, b3, -⟩ := vecApply_ok hn σ w hw
  have aw := acted_of_obs hn hw b2 b3
  have sw : SameType v w' := Eq.trans st (aw.same hw)
  obtain ⟨v', w'', c1, c2, c3⟩ := C139_action hn hv b2 sw ⟨σ, rfl⟩ (inverse_eq σ)
  refine ⟨v', w', c1, b1, c3.trans ?_⟩
  obtain ⟨u, d1, d2, d3, d4⟩ := apply_data hn σ⁻¹ b2
  obtain rfl := Option.some.inj (c2.symm.trans d1)
  obtain ⟨-, k1, e1⟩ := aw
  rw [k1] at d3 d4
  have hk := sameType_keys st
  rw [dot_eq hv d2 (hk.trans d3.symm), dot_eq hv hw hk]
  congr 1
  refine List.map_congr_left fun x hx => Finset.sum_congr rfl fun i hi => Finset.sum_congr rfl fun j hj => ?_
  rw [Finset.mem_range] at hi hj
  have hx' : x ∈ vkeys w := hk ▸ hx
  rw [sameType_m hv hw st hx] at hj
  rw [(d4 x hx').2 i hi j (by rw [(e1 x hx').1]; exact hj), Finset.sum_congr rfl fun k hk => by rw [(e1 x hx').2 k (Finset.mem_range.1 hk) j hj]]
  have hp := vkeys_part hw hx'
  have key : ∀ l < dimOf x, ∑ k ∈ Finset.range (dimOf x), evalN x (enc σ⁻¹) i k * evalN x (enc σ) k l = if i = l then 1 else 0 := by
    intro l hl
    have h1 := evalN_mul hn hp σ⁻¹ σ hi hl
    rw [inv_mul_cancel, evalN_one hn hp hi hl] at h1
    exact h1.symm
  congr 1
  simp only [Finset.mul_sum, ← mul_assoc]
  rw [Finset.sum_comm]
  simp only [← Finset.sum_mul]
  rw [Finset.sum_congr rfl fun l hl => by rw [key l (Finset.mem_range.1 hl)]]
  simp [hi]

/-- **C139.** Restriction keeps inner products. -/
theorem C139_restriction {v v' w w' : SnVec} (hn : 1 ≤ n) (hv : Ok (n + 1) v) (hv' : Ok (n + 1) v') (st : SameType v v') (h : v.Restricts w)
    (h' : v'.Restricts w') : dot w w' = dot v v' := by
  obtain ⟨ws, h1, h2⟩ := h
  obtain ⟨ws', h1', h2'⟩ := h'
  exact dot_down hn hv hv' st h1 h2 h1' h2'

/-- **C139.** The adjoint of restriction is induction, and the other way round: the inner product of the restriction of `v` with `w` is that of
`v` with the vector induced from `w` to the type of `v`. -/
theorem C139_adjoint (hn : 1 ≤ n) {v w : SnVec} (hv : Ok (n + 1) v) (hw : Ok n w) {tau : SnType} (ht : getType v = some tau)
    (hd : SnType.down tau = getType w) : ∃ u R, v.Restricts u ∧ Ok n u ∧ SameType u w ∧ SnVec.up tau w = some R ∧ SameType v R ∧ dot u w = dot v R := by
  rw [getType_eq hv] at ht
  obtain rfl := Option.some.inj ht
  have hmu : ∀ x ∈ parts (typeOf (obs v)), 0 ≤ mult (typeOf (obs v)) x := by
    intro x _
    rw [mult_typeOf' hv]
    positivity
  obtain ⟨R, ws, w', a1, a2, a3, a4, a5, a6⟩ := C49_down_of_up n hn w hw _ (typeOf_ok hv) hmu hd
  obtain ⟨us, u, b1, b2, b3, -, -, b4⟩ := restrict_ok hn hv
  obtain ⟨ws1, w1, c1, c2, c3, -⟩ := restrict_ok hn a2
  obtain rfl := Option.some.inj (a4.symm.trans c1)
  obtain rfl := Option.some.inj (a5.symm.trans c2)
  rw [getType_eq a2] at a3
  have st : SameType v R := same_of_types (Option.some.inj a3).symm
  have su : SameType u w := by
    rw [getType_eq hw, b4] at hd
    exact same_of_types (Option.some.inj hd)
  refine ⟨u, R, ⟨us, b1, b2⟩, b3, su, a1, st, ?_⟩
  rw [← dot_down hn hv a2 st b1 b2 a4 a5]
  exact dot_congr b3 hw b3 c3 su rfl a6.symm

/-- **C139.** Induction keeps inner products. -/
theorem C139_induction (hn : 1 ≤ n) {w w' : SnVec} (hw : Ok n w) (hw' : Ok n w') {tau : SnType} (ht : TypeOk (n + 1) tau)
    (hm : ∀ x ∈ parts tau, 0 ≤ mult tau x) (hd : SnType.down tau = getType w) (st : SameType w w') :
    ∃ R R', SnVec.up tau w = some R ∧ SnVec.up tau w' = some R' ∧ dot R R' = dot w w' := by
  have hd' : SnType.down tau = getType w' := by rw [hd, getType_eq hw, getType_eq hw', types_of_same st]
  obtain ⟨R, us, u, a1, a2, a3, a4, a5, a6⟩ := C49_down_of_up n hn w hw tau ht hm hd
  obtain ⟨R', us', u', b1, b2, b3, b4, b5, b6⟩ := C49_down_of_up n hn w' hw' tau ht hm hd'
  rw [getType_eq a2] at a3
  rw [getType_eq b2] at b3
  have sR : SameType R R' := same_of_types (Option.some.inj (a3.trans b3.symm))
  refine ⟨R, R', a1, b1, ?_⟩
  rw [← dot_down hn a2 b2 sR a4 a5 b4 b5]
  obtain ⟨_, _, c1, c2, c3, -⟩ := restrict_ok hn a2
  obtain rfl := Option.some.inj (a4.symm.trans c1)
  obtain rfl := Option.some.inj (a5.symm.trans c2)
  obtain ⟨_, _, d1, d2, d3, -⟩ := restrict_ok hn b2
  obtain rfl := Option.some.inj (b4.symm.trans d1)
  obtain rfl := Option.some.inj (b5.symm.trans d2)
  have su : SameType u u' := by
    have e1 : SameType u w := same_of_obs (by rw [a6])
    have e2 : SameType u' w' := same_of_obs (by rw [b6])
    exact Eq.trans e1 (Eq.trans st (Eq.symm e2))
  exact dot_congr c3 d3 hw hw' su a6 b6

/-- **C139.** Restriction is linear. -/
theorem C139_linear (hn : 1 ≤ n) {s : ℝ} {u v w u' v' w' : SnVec} (hu : Ok (n + 1) u) (hv : Ok (n + 1) v) (hw : Ok (n + 1) w) (h : IsComb s u v w)
    (h1 : u.Restricts u') (h2 : v.Restricts v') (h3 : w.Restricts w') : IsComb s u' v' w' := by
  have ok : ∀ {a b : SnVec}, Ok (n + 1) a → a.Restricts b → Ok n b ∧ SnType.down (typeOf (obs a)) = some (typeOf (obs b)) := by
    rintro a b ha ⟨cs, e1, e2⟩
    obtain ⟨_, _, c1, c2, c3, -, -, c4⟩ := restrict_ok hn ha
    obtain rfl := Option.some.inj (e1.symm.trans c1)
    obtain rfl := Option.some.inj (e2.symm.trans c2)
    exact ⟨c3, c4⟩
  have adj : ∀ {a a' x : SnVec}, Ok (n + 1) a → a.Restricts a' → SameType u a → Ok n x → SameType u' x →
      ∃ R, SnVec.up (typeOf (obs u)) x = some R ∧ Ok (n + 1) R ∧ SameType a R ∧ dot a' x = dot a R := by
    intro a a' x ha hr st hx sx
    have ht : typeOf (obs u) = typeOf (obs a) := types_of_same st
    have hd : SnType.down (typeOf (obs u)) = getType x := by rw [(ok hu h1).2, getType_eq hx, types_of_same sx]
    obtain ⟨b, R, e1, -, -, e2, e3, e4⟩ := C139_adjoint hn ha hx (getType_eq ha) (by rw [← ht]; exact hd)
    obtain ⟨bs, f1, f2⟩ := e1
    obtain ⟨cs, g1, g2⟩ := hr
    obtain rfl := Option.some.inj (f1.symm.trans g1)
    obtain rfl := Option.some.inj (f2.symm.trans g2)
    have hmu : ∀ x ∈ parts (typeOf (obs u)), 0 ≤ mult (typeOf (obs u)) x := by
      intro x _
      rw [mult_typeOf' hu]
      positivity
    obtain ⟨R', k1, k2, -⟩ := upType_ok hn hx (typeOf_ok hu) hmu (by rw [hd, getType_eq hx])
    rw [← ht] at e2
    obtain rfl := Option.some.inj (e2.symm.trans k1)
    exact ⟨R, e2, k2, e3, e4⟩
  have st : ∀ {a a' : SnVec}, Ok (n + 1) a → a.Restricts a' → SameType u a → SameType u' a' := by
    intro a a' ha hr st
    exact same_of_types (Option.some.inj ((ok hu h1).2.symm.trans ((congrArg SnType.down (types_of_same st)).trans (ok ha hr).2)))
  refine comb_of_dot hn (ok hu h1).1 (ok hv h2).1 (ok hw h3).1 (st hv h2 h.1) (st hw h3 h.2.1) fun x hx sx => ?_
  obtain ⟨R, a1, a2, a3, a4⟩ := adj hu h1 rfl hx sx
  obtain ⟨R1, b1, -, -, b4⟩ := adj hv h2 h.1 hx sx
  obtain ⟨R2, c1, -, -, c4⟩ := adj hw h3 h.2.1 hx sx
  obtain rfl := Option.some.inj (a1.symm.trans b1)
  obtain rfl := Option.some.inj (a1.symm.trans c1)
  rw [a4, b4, c4]
  exact dot_comb hu hv hw a2 h a3

/-- **C139.** The adjoint of the product with weights is the product with the transposed weights. -/
theorem C139_weights (hn : 1 ≤ n) {W W' : Weights} (hW : W'.AdjointOf W) {v u w : SnVec} (hv : Ok n v) (hw : Ok n w) (h : mulVec W v = some u)
    (st : SameType u w) : ∃ v', mulVec W' w = some v' ∧ SameType v v' ∧ dot u w = dot v v' := by
  obtain ⟨r, f, a1, a2, a3, a4⟩ := mul_data hn hv h
  have hk := sameType_keys st
  have hg : ∀ z, ∃ g, z ∈ vkeys v → W' z = some (.mat (partAt v z).m (r z) g) ∧ ∀ i < (partAt v z).m, ∀ j < r z, g i j = f z j i := by
    intro z
    by_cases hz : z ∈ vkeys v
    · obtain ⟨g, g1, g2⟩ := hW z _ _ _ (a1 z hz)
      exact ⟨g, fun _ => ⟨g1, g2⟩⟩
    · exact ⟨fun _ _ => 0, fun h => absurd h hz⟩
  choose g hg using hg
  have hm : ∀ z ∈ vkeys v, (partAt w z).m = r z := fun z hz => by
    rw [← sameType_m a2 hw st (a3 ▸ hz), (a4 z hz).1]
  have hkw : vkeys w = vkeys v := hk.symm.trans a3
  obtain ⟨v', b1, b2, b3, b4⟩ := mulVec_ok hn hw W' (fun z => (partAt v z).m) g fun z hz => by
    rw [hm z (hkw ▸ hz)]
    exact (hg z (hkw ▸ hz)).1
  have sv : SameType v v' := sameType_of hv b2 (by rw [b3, hkw]) fun z hz => ((b4 z (hkw ▸ hz)).1).symm
  refine ⟨v', b1, sv, ?_⟩
  rw [dot_eq a2 hw hk, dot_eq hv b2 (sameType_keys sv), a3]
  congr 1
  refine List.map_congr_left fun z hz => Finset.sum_congr rfl fun i _ => ?_
  rw [(a4 z hz).1]
  simp only [(a4 z hz).2, (b4 z (hkw ▸ hz)).2, hm z hz, Finset.sum_mul, Finset.mul_sum]
  rw [Finset.sum_comm]
  refine Finset.sum_congr rfl fun k hk => Finset.sum_congr rfl fun j hj => ?_
  rw [(hg z hz).2 k (Finset.mem_range.1 hk) j (Finset.mem_range.1 hj)]
  ring

/-! ## Examples -/

/-- the inner product of the restrictions of two vectors of three letters -/
example : ∃ w w', (exVec 1 2).Restricts w ∧ (exVec 3 4).Restricts w' ∧ dot w w' = 11 := by
  obtain ⟨ws, w, a1, a2, -⟩ := restrict_ok (n := 2) (by norm_num) (exVec_ok 1 2)
  obtain ⟨ws', w', b1, b2, -⟩ := restrict_ok (n := 2) (by norm_num) (exVec_ok 3 4)
  refine ⟨w, w', ⟨ws, a1, a2⟩, ⟨ws', b1, b2⟩, ?_⟩
  rw [C139_restriction (by norm_num) (exVec_ok 1 2) (exVec_ok 3 4) (by simp [SameType, exVec, mkP]) ⟨ws, a1, a2⟩ ⟨ws', b1, b2⟩, exVec_dot]
  norm_num

/-- and of the vectors acted on by the cycle 1→2→3→1 -/
example : ∃ w w', SnVec.apply (exVec 1 2) [some 2, some 3, some 1] = some w ∧ SnVec.apply (exVec 3 4) [some 2, some 3, some 1] = some w' ∧
    dot w w' = 11 := by
  obtain ⟨w, w', h1, h2, h3⟩ := C139_action_isometry (n := 3) (by norm_num) (exVec_ok 1 2) (exVec_ok 3 4) (by simp [SameType, exVec, mkP])
    (a := [some 2, some 3, some 1]) ⟨cyc 0 2, by decide⟩
  exact ⟨w, w', h1, h2, by rw [h3, exVec_dot]; norm_num⟩

/-- the adjoint of restriction, with the restriction of another vector -/
example : ∃ tau u w R, getType (exVec 1 2) = some tau ∧ (exVec 1 2).Restricts u ∧ (exVec 3 4).Restricts w ∧ SnVec.up tau w = some R ∧
    dot (exVec 1 2) R = dot u w ∧ dot u w = 11 := by
  obtain ⟨ws, w, b1, b2, b3, -, -, b4⟩ := restrict_ok (n := 2) (by norm_num) (exVec_ok 3 4)
  have st : SameType (exVec 1 2) (exVec 3 4) := by simp [SameType, exVec, mkP]
  obtain ⟨u, R, h1, -, -, h4, -, h6⟩ := C139_adjoint (n := 2) (by norm_num) (exVec_ok 1 2) b3 (getType_eq (exVec_ok 1 2))
    (by rw [getType_eq b3, ← b4, types_of_same st])
  refine ⟨_, u, w, R, getType_eq (exVec_ok 1 2), h1, ⟨ws, b1, b2⟩, h4, h6.symm, ?_⟩
  rw [C139_restriction (by norm_num) (exVec_ok 1 2) (exVec_ok 3 4) st h1 ⟨ws, b1, b2⟩, exVec_dot]
  norm_num

/-- weights with a matrix of one row and one column are their own transpose -/
example : ∃ u v', mulVec (fun _ => some (.mat 1 1 fun _ _ => 5)) (exVec 1 2) = some u ∧
    mulVec (fun _ => some (.mat 1 1 fun _ _ => 5)) (exVec 3 4) = some v' ∧ dot u (exVec 3 4) = dot (exVec 1 2) v' := by
  obtain ⟨u, a1, a2, a3, a4⟩ := mulVec_ok (n := 3) (by norm_num) (exVec_ok 1 2) (fun _ => some (.mat 1 1 fun _ _ => 5)) (fun _ => 1) (fun _ _ _ => 5)
    fun x hx => by rw [partAt_m (exVec_ok 1 2) (m := 1) (by simp [exVec, mkP]) hx]
  have st : SameType (exVec 1 2) (exVec 3 4) := by simp [SameType, exVec, mkP]
  have su : SameType u (exVec 3 4) := Eq.trans (sameType_of a2 (exVec_ok 1 2) a3 fun x hx => by
    rw [(a4 x (a3 ▸ hx)).1, partAt_m (exVec_ok 1 2) (m := 1) (by simp [exVec, mkP]) (a3 ▸ hx)]) st
  obtain ⟨v', b1, -, b2⟩ := C139_weights (n := 3) (by norm_num) (W' := fun _ => some (.mat 1 1 fun _ _ => 5))
    (fun x r c f h => by
      cases h
      exact ⟨_, rfl, fun _ _ _ _ => rfl⟩) (exVec_ok 1 2) (exVec_ok 3 4) a1 su
  exact ⟨u, v', a1, b1, b2⟩

end Snob.Props
