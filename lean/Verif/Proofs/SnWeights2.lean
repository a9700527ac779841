import Verif.Proofs.SnWeights
import Verif.Props.CGVec

/-! # Every linear map of vectors that commutes with the group is given by weights -/

namespace Snob

open IP SnVec Matrix

variable {n : Nat}

/-- Schur's lemma in row numbers -/
theorem schur_rows (hn : 1 ≤ n) {p q : List Nat} (hp : IsPartition n p) (hq : IsPartition n q) (K : Nat → Nat → ℝ)
    (h : ∀ σ : Equiv.Perm (Fin n), ∀ i < dimOf p, ∀ k < dimOf q,
      ∑ i' ∈ Finset.range (dimOf p), evalN p (enc σ) i i' * K i' k = ∑ k' ∈ Finset.range (dimOf q), evalN q (enc σ) k' k * K i k') :
    ∀ i < dimOf p, ∀ k < dimOf q, K i k = if p = q ∧ i = k then K 0 0 else 0 := by
  set T : Matrix (Wd n p) (Wd n q) ℝ := fun u v => K ((eqvR hn hp).symm u) ((eqvR hn hq).symm v) with hT
  have hc : ∀ σ, rho hp σ * T = T * rho hq σ := by
    intro σ
    ext u v
    rw [Matrix.mul_apply, Matrix.mul_apply, ← (eqvR hn hp).sum_comp, ← (eqvR hn hq).sum_comp]
    have e := h σ ((eqvR hn hp).symm u) ((eqvR hn hp).symm u).2 ((eqvR hn hq).symm v) ((eqvR hn hq).symm v).2
    rw [Finset.sum_range, Finset.sum_range] at e
    refine (Finset.sum_congr rfl fun i _ => ?_).trans (e.trans (Finset.sum_congr rfl fun k _ => ?_))
    · rw [hT]
      rw [show evalN p (enc σ) ((eqvR hn hp).symm u) i = _ from evalN_rho hn hp σ _ i]
      simp
    · rw [hT]
      rw [show evalN q (enc σ) k ((eqvR hn hq).symm v) = _ from evalN_rho hn hq σ k _]
      show rho hq σ (eqvR hn hq k) _ * _ = K _ ((eqvR hn hq).symm (eqvR hn hq k)) * _
      have e1 : (eqvR hn hq).symm (eqvR hn hq k) = k := Equiv.symm_apply_apply _ _
      have e2 : eqvR hn hq ((eqvR hn hq).symm v) = v := Equiv.apply_symm_apply _ _
      rw [e2, mul_comm]
      exact congrArg (fun t : Fin (irrOf q).d => K ((eqvR hn hp).symm u) t * rho hq σ (eqvR hn hq k) v) e1.symm
  intro i hi k hk
  have hK : K i k = T (eqvR hn hp ⟨i, hi⟩) (eqvR hn hq ⟨k, hk⟩) := by rw [hT]; simp
  by_cases hpq : p = q
  · subst hpq
    obtain ⟨c, hc'⟩ := schur_eq hp T hc
    have h0 : K 0 0 = T (eqvR hn hp ⟨0, dimOf_pos hn hp⟩) (eqvR hn hq ⟨0, dimOf_pos hn hp⟩) := by rw [hT]; simp
    rw [hK, h0, hc', Matrix.smul_apply, Matrix.smul_apply, Matrix.one_apply, Matrix.one_apply, if_pos rfl]
    by_cases hik : i = k
    · subst hik; simp
    · rw [if_neg (by simpa [Fin.ext_iff] using hik), if_neg (fun h => hik h.2)]; simp
  · rw [hK, schur_ne hp hq hpq T hc, if_neg (fun h => hpq h.1)]; rfl

/-- a type as a list of partitions with their multiplicities -/
theorem type_eq_map {t : SnType} (ht : TypeOk n t) : t = (parts t).map fun x => (x, mult t x) := by
  unfold parts
  rw [List.map_map]
  conv_lhs => rw [← List.map_id t]
  refine List.map_congr_left fun e he => ?_
  simp only [Function.comp, id]
  rw [lookup_of_mem ht.nodup he]

/-- the parts of a vector of a given type -/
theorem of_type {v : SnVec} (hv : Ok n v) {y : SnType} (h : getType v = some y) :
    vkeys v = parts y ∧ ∀ x ∈ parts y, (partAt v x).m = (mult y x).toNat := by
  rw [getType_eq hv, Option.some.injEq] at h
  have hk : vkeys v = parts y := by
    rw [← h, typeOf_obs]
    unfold parts
    rw [List.map_map]; rfl
  refine ⟨hk, fun x hx => ?_⟩
  rw [← hk] at hx
  obtain ⟨P, hP, rfl⟩ := List.mem_map.1 hx
  rw [← h, mult_typeOf hv hP, partAt_of_mem hv.nodup hP]
  simp

theorem type_mkV (hn : 1 ≤ n) {y : SnType} (hy : TypeOk n y) (py : ∀ e ∈ y, 0 ≤ e.2) (M : List Nat → Nat)
    (hM : ∀ x ∈ parts y, M x = (mult y x).toNat) (D : List Nat → Nat → Nat → ℝ) : getType (mkV (parts y) M D) = some y := by
  obtain ⟨a1, -, -⟩ := partAt_mkV hn hy.all hy.sorted M D
  rw [getType_eq a1, typeOf_obs]
  conv_rhs => rw [type_eq_map hy]
  unfold mkV
  rw [List.map_map]
  refine congrArg some (List.map_congr_left fun x hx => ?_)
  simp only [Function.comp]
  have e : (mkP x (M x) (D x)).irrep.lambda = x := (irrOf_spec hn (hy.all x hx)).2.1
  rw [e]
  refine Prod.ext rfl ?_
  show (M x : Int) = mult y x
  rw [hM x hx]
  refine Int.toNat_of_nonneg ?_
  obtain ⟨c, hc, rfl⟩ := List.mem_map.1 hx
  rw [lookup_of_mem hy.nodup hc]
  exact py c hc

namespace Weights

/-- the vector of type `y` with the given entries -/
noncomputable def vecOf (y : SnType) (D : List Nat → Nat → Nat → ℝ) : SnVec := mkV (parts y) (fun x => (mult y x).toNat) D

/-- the entries of the vector with a single one -/
noncomputable def unitD (q : List Nat) (k j : Nat) : List Nat → Nat → Nat → ℝ := fun q' k' j' => if q' = q ∧ k' = k ∧ j' = j then 1 else 0

section
variable {x y : SnType} {T : SnVec → SnVec}

theorem vecOf_ok (hn : 1 ≤ n) (hy : TypeOk n y) (py : ∀ e ∈ y, 0 ≤ e.2) (D : List Nat → Nat → Nat → ℝ) :
    Ok n (vecOf y D) ∧ getType (vecOf y D) = some y ∧ vkeys (vecOf y D) = parts y ∧
      ∀ z ∈ parts y, (partAt (vecOf y D) z).m = (mult y z).toNat ∧ (partAt (vecOf y D) z).data = D z := by
  obtain ⟨a1, a2, a3⟩ := partAt_mkV hn hy.all hy.sorted (fun x => (mult y x).toNat) D
  refine ⟨a1, type_mkV hn hy py _ (fun _ _ => rfl) D, a2, fun z hz => ?_⟩
  unfold vecOf
  rw [a3 z hz]
  exact ⟨rfl, rfl⟩

theorem sameType_type {u v : SnVec} (hu : Ok n u) (hv : Ok n v) (tu : getType u = some y) (tv : getType v = some y) : SameType u v := by
  obtain ⟨a1, a2⟩ := of_type hu tu
  obtain ⟨b1, b2⟩ := of_type hv tv
  refine Props.sameType_of hu hv (a1.trans b1.symm) fun z hz => ?_
  rw [a1] at hz
  rw [a2 z hz, b2 z hz]

/-- an entry of the image is a linear function of the entries -/
theorem lin (hn : 1 ≤ n) (hy : TypeOk n y) (py : ∀ e ∈ y, 0 ≤ e.2) (hT : IsEquivariant n x y T)
    {p : List Nat} (hp : p ∈ parts x) {i l : Nat} (hi : i < dimOf p) (hl : l < (mult x p).toNat) (s : ℝ) (D E : List Nat → Nat → Nat → ℝ) :
    (partAt (T (vecOf y fun q k j => s * D q k j + E q k j)) p).data i l =
      s * (partAt (T (vecOf y D)) p).data i l + (partAt (T (vecOf y E)) p).data i l := by
  obtain ⟨a1, a2, a3, a4⟩ := vecOf_ok hn hy py fun q k j => s * D q k j + E q k j
  obtain ⟨b1, b2, b3, b4⟩ := vecOf_ok hn hy py D
  obtain ⟨c1, c2, c3, c4⟩ := vecOf_ok hn hy py E
  have hc : IsComb s (vecOf y fun q k j => s * D q k j + E q k j) (vecOf y D) (vecOf y E) := by
    refine Props.comb_of a1 b1 c1 (sameType_type a1 b1 a2 b2) (sameType_type a1 c1 a2 c2) fun z hz i _ j _ => ?_
    rw [a3] at hz
    rw [(a4 z hz).2, (b4 z hz).2, (c4 z hz).2]
  have h := hT.linear s _ _ _ a1 b1 c1 a2 hc
  obtain ⟨d1, d2⟩ := hT.type _ a1 a2
  obtain ⟨e1, e2⟩ := of_type d1 d2
  refine Props.comb_at d1 (hT.type _ b1 b2).1 (hT.type _ c1 c2).1 h (x := p) (by rw [e1]; exact hp) i hi l ?_
  rw [e2 p hp]; exact hl

/-- only the entries in range count -/
theorem local_ (hn : 1 ≤ n) (hy : TypeOk n y) (py : ∀ e ∈ y, 0 ≤ e.2) (hT : IsEquivariant n x y T)
    {p : List Nat} (hp : p ∈ parts x) {i l : Nat} (hi : i < dimOf p) (hl : l < (mult x p).toNat) {D E : List Nat → Nat → Nat → ℝ}
    (h : ∀ q ∈ parts y, ∀ k < dimOf q, ∀ j < (mult y q).toNat, D q k j = E q k j) :
    (partAt (T (vecOf y D)) p).data i l = (partAt (T (vecOf y E)) p).data i l := by
  obtain ⟨b1, b2, b3, b4⟩ := vecOf_ok hn hy py D
  obtain ⟨c1, c2, c3, c4⟩ := vecOf_ok hn hy py E
  have hc : IsComb 0 (vecOf y D) (vecOf y D) (vecOf y E) := by
    refine Props.comb_of b1 b1 c1 rfl (sameType_type b1 c1 b2 c2) fun z hz i hi j hj => ?_
    rw [b3] at hz
    rw [(b4 z hz).1] at hj
    rw [(b4 z hz).2, (c4 z hz).2, h z hz i hi j hj]; ring
  have h := hT.linear 0 _ _ _ b1 b1 c1 b2 hc
  obtain ⟨d1, d2⟩ := hT.type _ b1 b2
  obtain ⟨e1, e2⟩ := of_type d1 d2
  have := Props.comb_at d1 d1 (hT.type _ c1 c2).1 h (x := p) (by rw [e1]; exact hp) i hi l (by rw [e2 p hp]; exact hl)
  rw [this]; ring

/-- an entry of the image in terms of the images of the unit vectors -/
theorem expand (hn : 1 ≤ n) (hy : TypeOk n y) (py : ∀ e ∈ y, 0 ≤ e.2) (hT : IsEquivariant n x y T)
    {p : List Nat} (hp : p ∈ parts x) {i l : Nat} (hi : i < dimOf p) (hl : l < (mult x p).toNat) (D : List Nat → Nat → Nat → ℝ) :
    (partAt (T (vecOf y D)) p).data i l = ∑ q ∈ (parts y).toFinset, ∑ k ∈ Finset.range (dimOf q), ∑ j ∈ Finset.range (mult y q).toNat,
      D q k j * (partAt (T (vecOf y (unitD q k j))) p).data i l := by
  set G : (List Nat → Nat → Nat → ℝ) → ℝ := fun D => (partAt (T (vecOf y D)) p).data i l with hG
  have h0 : G 0 = 0 := by
    have := lin hn hy py hT hp hi hl 1 0 0
    have e : (fun q k j => 1 * (0 : List Nat → Nat → Nat → ℝ) q k j + (0 : List Nat → Nat → Nat → ℝ) q k j) = 0 := by
      funext q k j; simp
    rw [e] at this
    change G 0 = 1 * G 0 + G 0 at this
    linarith
  let F : (List Nat → Nat → Nat → ℝ) →ₗ[ℝ] ℝ :=
    { toFun := G
      map_add' := fun D E => by
        have := lin hn hy py hT hp hi hl 1 D E
        have e : (fun q k j => 1 * D q k j + E q k j) = D + E := by funext q k j; simp
        rw [e] at this
        change G (D + E) = 1 * G D + G E at this
        rw [this, one_mul]
      map_smul' := fun s D => by
        have := lin hn hy py hT hp hi hl s D 0
        have e : (fun q k j => s * D q k j + (0 : List Nat → Nat → Nat → ℝ) q k j) = s • D := by funext q k j; simp
        rw [e] at this
        change G (s • D) = s * G D + G 0 at this
        rw [this, h0, add_zero]; rfl }
  have e1 : G D = F (∑ q ∈ (parts y).toFinset, ∑ k ∈ Finset.range (dimOf q), ∑ j ∈ Finset.range (mult y q).toNat, D q k j • unitD q k j) := by
    refine local_ hn hy py hT hp hi hl fun q hq k hk j hj => ?_
    simp only [Finset.sum_apply, Pi.smul_apply, unitD, smul_eq_mul, mul_ite, mul_one, mul_zero]
    rw [Finset.sum_eq_single q, Finset.sum_eq_single k, Finset.sum_eq_single j]
    · simp
    · intro b _ hb; rw [if_neg]; rintro ⟨-, -, rfl⟩; exact hb rfl
    · intro h; exact absurd (Finset.mem_range.2 hj) h
    · intro b _ hb; refine Finset.sum_eq_zero fun c _ => ?_; rw [if_neg]; rintro ⟨-, rfl, -⟩; exact hb rfl
    · intro h; exact absurd (Finset.mem_range.2 hk) h
    · intro b _ hb
      refine Finset.sum_eq_zero fun c _ => Finset.sum_eq_zero fun d _ => ?_
      rw [if_neg]; rintro ⟨rfl, -, -⟩; exact hb rfl
    · intro h; exact absurd (List.mem_toFinset.2 hq) h
  show G D = _
  rw [e1, map_sum]
  refine Finset.sum_congr rfl fun q _ => ?_
  rw [map_sum]
  refine Finset.sum_congr rfl fun k _ => ?_
  rw [map_sum]
  refine Finset.sum_congr rfl fun j _ => ?_
  rw [map_smul]
  rfl

theorem expand_vec (hn : 1 ≤ n) (hy : TypeOk n y) (py : ∀ e ∈ y, 0 ≤ e.2) (hT : IsEquivariant n x y T)
    {p : List Nat} (hp : p ∈ parts x) {i l : Nat} (hi : i < dimOf p) (hl : l < (mult x p).toNat) {v : SnVec} (hv : Ok n v) (tv : getType v = some y) :
    (partAt (T v) p).data i l = ∑ q ∈ (parts y).toFinset, ∑ k ∈ Finset.range (dimOf q), ∑ j ∈ Finset.range (mult y q).toNat,
      (partAt v q).data k j * (partAt (T (vecOf y (unitD q k j))) p).data i l := by
  have e : v = vecOf y fun q => (partAt v q).data := by
    obtain ⟨a1, a2⟩ := of_type hv tv
    conv_lhs => rw [eq_mkV hv]
    rw [a1]
    exact List.map_congr_left fun z hz => by simp only [a2 z hz]
  have := expand hn hy py hT hp hi hl fun q => (partAt v q).data
  rwa [← e] at this

/-- the images of the unit vectors -/
theorem unit_image (hn : 1 ≤ n) (hy : TypeOk n y) (py : ∀ e ∈ y, 0 ≤ e.2) (hT : IsEquivariant n x y T)
    {p q : List Nat} (hx : TypeOk n x) (hp : p ∈ parts x) (hq : q ∈ parts y) {l j : Nat} (hl : l < (mult x p).toNat) (hj : j < (mult y q).toNat) :
    ∀ i < dimOf p, ∀ k < dimOf q, (partAt (T (vecOf y (unitD q k j))) p).data i l =
      if p = q ∧ i = k then (partAt (T (vecOf y (unitD q 0 j))) p).data 0 l else 0 := by
  refine schur_rows hn (hx.all p hp) (hy.all q hq) (fun i k => (partAt (T (vecOf y (unitD q k j))) p).data i l) fun σ i hi k hk => ?_
  obtain ⟨b1, b2, b3, b4⟩ := vecOf_ok hn hy py (unitD q k j)
  obtain ⟨v', c1, c2, c3, c4⟩ := apply_data hn σ b1
  obtain ⟨d1, d2⟩ := hT.type _ b1 b2
  obtain ⟨e1, e2⟩ := of_type d1 d2
  obtain ⟨w, f1, f2, f3, f4⟩ := apply_data hn σ d1
  have tv' : getType v' = some y := by
    rw [getType_eq c2, ← b2, getType_eq b1]
    rw [typeOf_obs, typeOf_obs]
    have : SameType v' (vecOf y (unitD q k j)) := Props.sameType_of c2 b1 c3 fun z hz => (c4 z (c3 ▸ hz)).1
    have h := congrArg (List.map fun e : List Nat × Nat => (e.1, (e.2 : Int))) this
    rw [List.map_map, List.map_map] at h
    exact congrArg some h
  have hc := hT.commutes (enc σ) _ v' w ⟨σ, rfl⟩ b1 b2 c1 f1
  obtain ⟨g1, g2⟩ := hT.type _ c2 tv'
  obtain ⟨h1, h2⟩ := of_type g1 g2
  have hk' : vkeys (T v') = vkeys w := by rw [h1, f3, e1]
  have := ((obs_data g1 f2 hk').1 hc p (by rw [h1]; exact hp)).2 i hi l (by rw [h2 p hp]; exact hl)
  rw [(f4 p (by rw [e1]; exact hp)).2 i hi l (by rw [e2 p hp]; exact hl)] at this
  rw [← this, expand_vec hn hy py hT hp hi hl c2 tv']
  rw [Finset.sum_eq_single q]
  · refine Finset.sum_congr rfl fun k' hk' => ?_
    rw [Finset.sum_eq_single j]
    · have hq' : q ∈ vkeys (vecOf y (unitD q k j)) := by rw [b3]; exact hq
      rw [(c4 q hq').2 k' (Finset.mem_range.1 hk') j (by rw [(b4 q hq).1]; exact hj), (b4 q hq).2, Finset.sum_eq_single k]
      · simp [unitD]
      · intro b _ hb; simp [unitD, hb]
      · intro h; exact absurd (Finset.mem_range.2 hk) h
    · intro j' hj' hne
      have hq' : q ∈ vkeys (vecOf y (unitD q k j)) := by rw [b3]; exact hq
      rw [(c4 q hq').2 k' (Finset.mem_range.1 hk') j' (by rw [(b4 q hq).1]; exact Finset.mem_range.1 hj'), (b4 q hq).2, Finset.sum_eq_zero, zero_mul]
      intro b _; simp [unitD, hne]
    · intro h; exact absurd (Finset.mem_range.2 hj) h
  · intro q' hq' hne
    rw [List.mem_toFinset] at hq'
    refine Finset.sum_eq_zero fun k' hk' => Finset.sum_eq_zero fun j' hj' => ?_
    have hq2 : q' ∈ vkeys (vecOf y (unitD q k j)) := by rw [b3]; exact hq'
    rw [(c4 q' hq2).2 k' (Finset.mem_range.1 hk') j' (by rw [(b4 q' hq').1]; exact Finset.mem_range.1 hj'), (b4 q' hq').2, Finset.sum_eq_zero, zero_mul]
    intro b _; simp [unitD, hne]
  · intro h; exact absurd (List.mem_toFinset.2 hq) h

/-- the image of any vector -/
theorem image (hn : 1 ≤ n) (hy : TypeOk n y) (py : ∀ e ∈ y, 0 ≤ e.2) (hT : IsEquivariant n x y T)
    {p : List Nat} (hx : TypeOk n x) (hp : p ∈ parts x) {i l : Nat} (hi : i < dimOf p) (hl : l < (mult x p).toNat) {v : SnVec} (hv : Ok n v) (tv : getType v = some y) :
    (partAt (T v) p).data i l = if p ∈ parts y then ∑ j ∈ Finset.range (mult y p).toNat,
      (partAt v p).data i j * (partAt (T (vecOf y (unitD p 0 j))) p).data 0 l else 0 := by
  rw [expand_vec hn hy py hT hp hi hl hv tv]
  by_cases h : p ∈ parts y
  · rw [if_pos h, Finset.sum_eq_single p, Finset.sum_eq_single i]
    · refine Finset.sum_congr rfl fun j hj => ?_
      rw [unit_image hn hy py hT hx hp h hl (Finset.mem_range.1 hj) i hi i hi, if_pos ⟨rfl, rfl⟩]
    · intro b hb hne
      refine Finset.sum_eq_zero fun j hj => ?_
      rw [unit_image hn hy py hT hx hp h hl (Finset.mem_range.1 hj) i hi b (Finset.mem_range.1 hb), if_neg (fun h => hne h.2.symm), mul_zero]
    · intro h; exact absurd (Finset.mem_range.2 hi) h
    · intro q hq hne
      rw [List.mem_toFinset] at hq
      refine Finset.sum_eq_zero fun k hk => Finset.sum_eq_zero fun j hj => ?_
      rw [unit_image hn hy py hT hx hp hq hl (Finset.mem_range.1 hj) i hi k (Finset.mem_range.1 hk), if_neg (fun h => hne h.1.symm), mul_zero]
    · intro h'; exact absurd (List.mem_toFinset.2 h) h'
  · rw [if_neg h]
    refine Finset.sum_eq_zero fun q hq => Finset.sum_eq_zero fun k hk => Finset.sum_eq_zero fun j hj => ?_
    rw [List.mem_toFinset] at hq
    rw [unit_image hn hy py hT hx hp hq hl (Finset.mem_range.1 hj) i hi k (Finset.mem_range.1 hk), if_neg, mul_zero]
    rintro ⟨rfl, -⟩
    exact h hq

end

end Weights

end Snob
