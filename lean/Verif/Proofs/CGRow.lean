import Verif.Proofs.CGRef
import Verif.Proofs.ProductRep
import Verif.Proofs.SnVecAcc

/-! # The basis of the tensor product, and contents, in terms of the row numbers of the code -/

namespace Snob

open IP Matrix

/-- the numbering of the tableaux -/
noncomputable def eqvR {n : Nat} (hn : 1 ≤ n) {p : List Nat} (hp : IsPartition n p) : Fin (irrOf p).d ≃ Wd n p :=
  ((irrOf_spec hn hp).2.2.2).eqv

theorem evalN_rho {n : Nat} (hn : 1 ≤ n) {p : List Nat} (hp : IsPartition n p) (σ : Equiv.Perm (Fin n)) (i j : Fin (irrOf p).d) :
    evalN p (enc σ) i j = rho hp σ (eqvR hn hp i) (eqvR hn hp j) := by
  rw [(evalN_spec hn hp σ).2]
  rfl

/-! ## Contents -/

/-- the content of the entry `k+1` of the tableau of row `r` -/
noncomputable def ct (n : Nat) (p : List Nat) (r k : Nat) : Int := contW ((words n p).getD r []) (k + 1)

theorem eqvR_val {n : Nat} (hn : 1 ≤ n) {p : List Nat} (hp : IsPartition n p) (i : Fin (irrOf p).d) :
    (eqvR hn hp i).1 = (words n p).getD i [] := by
  have hi : (i : Nat) < (words n p).length := ((irrOf_spec hn hp).2.2.2).d_eq ▸ i.2
  rw [List.getD_eq_getElem?_getD, List.getElem?_eq_getElem hi]
  rfl

theorem ct_eq {n : Nat} (hn : 1 ≤ n) {p : List Nat} (hp : IsPartition n p) (i : Fin (irrOf p).d) (k : Nat) :
    ct n p i k = (eqvR hn hp i).cont (k + 1) := by
  unfold ct
  rw [← eqvR_val hn hp]
  rfl

theorem ct_inj {n : Nat} (hn : 1 ≤ n) {p q : List Nat} (hp : IsPartition n p) (hq : IsPartition n q) {r s : Nat}
    (hr : r < dimOf p) (hs : s < dimOf q) (h : ∀ k < n, ct n p r k = ct n q s k) : p = q ∧ r = s := by
  set i : Fin (irrOf p).d := ⟨r, hr⟩
  set j : Fin (irrOf q).d := ⟨s, hs⟩
  have e : (eqvR hn hp i).1 = (eqvR hn hq j).1 := by
    refine contW_injective ((eqvR hn hp i).lat hp) ((eqvR hn hq j).lat hq)
      (((eqvR hn hp i).length hp).trans ((eqvR hn hq j).length hq).symm) fun m h1 h2 => ?_
    rw [(eqvR hn hp i).length hp] at h2
    have := h (m - 1) (by omega)
    have e1 := ct_eq hn hp i (m - 1)
    have e2 := ct_eq hn hq j (m - 1)
    rw [Nat.sub_add_cancel h1] at e1 e2
    exact e1.symm.trans (this.trans e2)
  have hpq : p = q := shape_unique hp hq (eqvR hn hp i).2 (e ▸ (eqvR hn hq j).2)
  subst hpq
  refine ⟨rfl, ?_⟩
  have := (eqvR hn hp).injective (Subtype.ext e)
  exact congrArg Fin.val this

/-- the content of the box of `x` outside `mu` -/
def topc (x mu : List Nat) : Int := (row x (growRow mu x) : Int) - 1 - growRow mu x

theorem words_off {n : Nat} (hn : 1 ≤ n) {x mu : List Nat} (hx : IsPartition (n + 1) x) (hmu : mu ∈ subs x) {t : Nat}
    (ht : t < dimOf mu) :
    (words (n + 1) x).getD (offOf (subs x) mu + t) [] = growRow mu x :: (words n mu).getD t [] := by
  obtain ⟨S1, S2, e⟩ := List.append_of_mem hmu
  have h1 : mu ∉ S1 := by
    have := subs_nodup x
    rw [e] at this
    exact fun h => (List.nodup_append.1 this).2.2 mu h mu (by simp) rfl
  have hm : IsPartition n mu := sub_part hx mu hmu
  have ht' : t < (words n mu).length := by
    rw [dimOf_eq hn hm] at ht; exact ht
  have hl : (S1.flatMap fun q => (words n q).map (growRow q x :: ·)).length = (S1.map dimOf).sum := by
    rw [List.length_flatMap]
    congr 1
    refine List.map_congr_left fun q hq => ?_
    rw [List.length_map, dimOf_eq hn (sub_part hx q (by rw [e]; simp [hq]))]
    rfl
  rw [words, e, offOf_split h1, List.flatMap_append, List.getD_eq_getElem?_getD, ← hl, List.getElem?_append_right (by omega),
    Nat.add_sub_cancel_left, List.flatMap_cons, List.getElem?_append_left (by simpa using ht'), List.getElem?_map,
    List.getElem?_eq_getElem ht', List.getD_eq_getElem?_getD, List.getElem?_eq_getElem ht']
  rfl

theorem ct_block {n : Nat} (hn : 1 ≤ n) {x mu : List Nat} (hx : IsPartition (n + 1) x) (hmu : mu ∈ subs x) {t : Nat}
    (ht : t < dimOf mu) {k : Nat} (hk : k < n) : ct (n + 1) x (offOf (subs x) mu + t) k = ct n mu t k := by
  unfold ct
  rw [words_off hn hx hmu ht]
  have hm : IsPartition n mu := sub_part hx mu hmu
  have hl : ((words n mu).getD t []).length = n := by
    have := eqvR_val hn hm ⟨t, ht⟩
    simp only at this
    rw [← this]
    exact (eqvR hn hm ⟨t, ht⟩).length hm
  unfold contW
  rw [posW, if_neg (by rw [hl]; omega)]

theorem ct_top {n : Nat} (hn : 1 ≤ n) {x mu : List Nat} (hx : IsPartition (n + 1) x) (hmu : mu ∈ subs x) {t : Nat}
    (ht : t < dimOf mu) : ct (n + 1) x (offOf (subs x) mu + t) n = topc x mu := by
  obtain ⟨hm, r, hb⟩ := (mem_subs hx mu).1 hmu
  have hv := eqvR_val hn hm ⟨t, ht⟩
  simp only at hv
  have := cont_emb_top hx hm hb (eqvR hn hm ⟨t, ht⟩)
  unfold ct topc
  rw [words_off hn hx hmu ht, ← hv, growRow_eq hm hx hb, ← this]
  rfl

theorem topc_ne_sub {n : Nat} {x mu nu : List Nat} (hx : IsPartition (n + 1) x) (hmu : mu ∈ subs x) (hnu : nu ∈ subs x)
    (h : mu ≠ nu) : topc x mu ≠ topc x nu := by
  obtain ⟨hm, r, hb⟩ := (mem_subs hx mu).1 hmu
  obtain ⟨hm', r', hb'⟩ := (mem_subs hx nu).1 hnu
  unfold topc
  rw [growRow_eq hm hx hb, growRow_eq hm' hx hb']
  exact cont_top_ne hx (addsBox_row_ne hm hm' h hb hb')

theorem topc_ne_sup {n : Nat} {x y mu : List Nat} (hx : IsPartition (n + 1) x) (hy : IsPartition (n + 1) y) (hmu : mu ∈ subs x)
    (hmu' : mu ∈ subs y) (h : x ≠ y) : topc x mu ≠ topc y mu := by
  obtain ⟨hm, r, hb⟩ := (mem_subs hx mu).1 hmu
  obtain ⟨-, r', hb'⟩ := (mem_subs hy mu).1 hmu'
  unfold topc
  rw [growRow_eq hm hx hb, growRow_eq hm hy hb']
  have hr := addsBox_row_ne' hx hy h hb hb'
  have h1 := hb r
  have h2 := hb' r'
  rw [if_pos rfl] at h1 h2
  rcases Nat.lt_or_gt_of_ne hr with hlt | hlt
  · have := row_anti hm.sorted (i := r) (j := r') (by omega)
    omega
  · have := row_anti hm.sorted (i := r') (j := r) (by omega)
    omega

theorem topc_lt {n : Nat} {x mu : List Nat} (hx : IsPartition (n + 1) x) (hmu : mu ∈ subs x) :
    -(n : Int) ≤ topc x mu ∧ topc x mu ≤ n := by
  obtain ⟨hm, r, hb⟩ := (mem_subs hx mu).1 hmu
  unfold topc
  rw [growRow_eq hm hx hb]
  have h1 := hb r
  rw [if_pos rfl] at h1
  have h2 : row x r ≤ n + 1 := by
    rw [← hx.sum]
    unfold row
    by_cases hl : r < x.length
    · rw [List.getElem?_eq_getElem hl]
      exact List.single_le_sum (by simp) _ (List.getElem_mem hl)
    · rw [List.getElem?_eq_none (by omega)]; simp
  have h3 : r < x.length := by
    by_contra hl
    unfold row at h1
    rw [List.getElem?_eq_none (by omega)] at h1
    simp at h1
  have h4 := hx.length_le
  omega

/-- every row lies in one block -/
theorem exists_block {n : Nat} (hn : 1 ≤ n) {x : List Nat} (hx : IsPartition (n + 1) x) {r : Nat} (hr : r < dimOf x) :
    ∃ mu ∈ subs x, ∃ t < dimOf mu, r = offOf (subs x) mu + t := by
  have key : ∀ (S1 S2 : List (List Nat)), (S1 ++ S2).Nodup → ∀ r, (S1.map dimOf).sum ≤ r → r < ((S1 ++ S2).map dimOf).sum →
      ∃ mu ∈ S2, ∃ t < dimOf mu, r = offOf (S1 ++ S2) mu + t := by
    intro S1 S2
    induction S2 generalizing S1 with
    | nil => intro _ r h1 h2; simp at h2; omega
    | cons mu S2 ih =>
      intro hnd r h1 h2
      have hmu : mu ∉ S1 := fun h => (List.nodup_append.1 hnd).2.2 mu h mu (by simp) rfl
      by_cases h3 : r < (S1.map dimOf).sum + dimOf mu
      · refine ⟨mu, by simp, r - (S1.map dimOf).sum, by omega, ?_⟩
        rw [offOf_split hmu]; omega
      · have e : S1 ++ mu :: S2 = (S1 ++ [mu]) ++ S2 := by simp
        rw [e] at hnd h2 ⊢
        obtain ⟨nu, h4, h5⟩ := ih (S1 ++ [mu]) hnd r (by simp; omega) h2
        exact ⟨nu, by simp [h4], h5⟩
  exact key [] (subs x) (by simpa using subs_nodup x) r (by simp) (by rw [dimOf_subs hn hx] at hr; simpa using hr)

theorem block_lt {n : Nat} (hn : 1 ≤ n) {x mu : List Nat} (hx : IsPartition (n + 1) x) (hmu : mu ∈ subs x) {t : Nat} (ht : t < dimOf mu) :
    offOf (subs x) mu + t < dimOf x := by
  have := off_le (subs_nodup x) hmu
  rw [dimOf_subs hn hx]
  omega

/-- the blocks are disjoint -/
theorem block_inj {n : Nat} (hn : 1 ≤ n) {x mu nu : List Nat} (hx : IsPartition (n + 1) x) (hmu : mu ∈ subs x) (hnu : nu ∈ subs x)
    {s t : Nat} (hs : s < dimOf mu) (ht : t < dimOf nu) (h : offOf (subs x) mu + s = offOf (subs x) nu + t) : mu = nu ∧ s = t := by
  have h1 := words_off hn hx hmu hs
  have h2 := words_off hn hx hnu ht
  rw [h, h2] at h1
  obtain ⟨e1, e2⟩ := List.cons.inj h1
  have hm := sub_part hx mu hmu
  have hm' := sub_part hx nu hnu
  refine ct_inj hn hm hm' hs ht fun k _ => ?_
  unfold ct
  rw [e2]

/-! ## The tensor product -/

/-- the pairs of rows, as the code numbers them -/
abbrev XI (a b : List Nat) := Fin ((irrOf a).d * (irrOf b).d)

/-- the tensor product of two irreps -/
noncomputable def pm (n : Nat) (a b : List Nat) (σ : Equiv.Perm (Fin n)) : Matrix (XI a b) (XI a b) ℝ :=
  fun x y => evalN a (enc σ) (fstIx x) (fstIx y) * evalN b (enc σ) (sndIx x) (sndIx y)

/-- the numbering of the pairs of tableaux -/
noncomputable def eqvX {n : Nat} (hn : 1 ≤ n) {a b : List Nat} (ha : IsPartition n a) (hb : IsPartition n b) :
    XI a b ≃ Wd n a × Wd n b := (fuseEquiv _ _).trans (Equiv.prodCongr (eqvR hn ha) (eqvR hn hb))

section
variable {n : Nat} {a b : List Nat}

theorem pm_eq (hn : 1 ≤ n) (ha : IsPartition n a) (hb : IsPartition n b) (σ : Equiv.Perm (Fin n)) :
    pm n a b σ = (tpW ha hb σ).submatrix (eqvX hn ha hb) (eqvX hn ha hb) := by
  ext x y
  unfold pm
  rw [evalN_rho hn ha, evalN_rho hn hb]
  rfl

theorem tpW_mul (ha : IsPartition n a) (hb : IsPartition n b) (σ τ : Equiv.Perm (Fin n)) :
    tpW ha hb (σ * τ) = tpW ha hb σ * tpW ha hb τ := by
  unfold tpW
  rw [map_mul, map_mul, Matrix.mul_kronecker_mul]

theorem tpW_inv (ha : IsPartition n a) (hb : IsPartition n b) (σ : Equiv.Perm (Fin n)) : tpW ha hb σ⁻¹ = (tpW ha hb σ)ᵀ := by
  unfold tpW
  rw [rho_inv, rho_inv, Matrix.kroneckerMap_transpose]

theorem pm_mul (hn : 1 ≤ n) (ha : IsPartition n a) (hb : IsPartition n b) (σ τ : Equiv.Perm (Fin n)) :
    pm n a b (σ * τ) = pm n a b σ * pm n a b τ := by
  rw [pm_eq hn ha hb, pm_eq hn ha hb, pm_eq hn ha hb, tpW_mul, Matrix.submatrix_mul_equiv]

theorem pm_inv (hn : 1 ≤ n) (ha : IsPartition n a) (hb : IsPartition n b) (σ : Equiv.Perm (Fin n)) :
    pm n a b σ⁻¹ = (pm n a b σ)ᵀ := by
  rw [pm_eq hn ha hb, pm_eq hn ha hb, tpW_inv, Matrix.transpose_submatrix]

theorem prodMat_pm (hn : 1 ≤ n) (ha : IsPartition n a) (hb : IsPartition n b) (σ : Equiv.Perm (Fin n)) :
    prodMat (P := ⟨irrOf a, irrOf b⟩) ((irrOf_spec hn ha).2.2.2) ((irrOf_spec hn hb).2.2.2) σ = pm n a b σ := by
  ext x y
  unfold pm
  rw [(evalN_spec hn ha σ).2, (evalN_spec hn hb σ).2]
  rfl

/-- the Jucys-Murphy elements of the tensor product -/
noncomputable def jmX (n : Nat) (a b : List Nat) (k : Nat) : Matrix (XI a b) (XI a b) ℝ := ∑ i ∈ Finset.range k, pm n a b (tr n i k)

theorem tr_inv (n i k : Nat) : (tr n i k)⁻¹ = tr n i k := by
  unfold tr
  split_ifs
  · exact Equiv.swap_inv _ _
  · simp

theorem jmX_symm (hn : 1 ≤ n) (ha : IsPartition n a) (hb : IsPartition n b) (k : Nat) : (jmX n a b k)ᵀ = jmX n a b k := by
  unfold jmX
  rw [Matrix.transpose_sum]
  refine Finset.sum_congr rfl fun i _ => ?_
  rw [← pm_inv hn ha hb, tr_inv]

/-- a basis in which the tensor product is a sum of irreps -/
structure Ref (n : Nat) (a b : List Nat) (E : List Nat → Nat → Nat → XI a b → ℝ) : Prop where
  equi : ∀ {p : List Nat}, IsPartition n p → ∀ {c r : Nat}, c < kronN n a b p → r < dimOf p → ∀ (σ : Equiv.Perm (Fin n)) x,
    ∑ y, pm n a b σ x y * E p c r y = ∑ s : Fin (irrOf p).d, evalN p (enc σ) s r * E p c s x
  orth : ∀ {p q : List Nat}, IsPartition n p → IsPartition n q → ∀ {c r d s : Nat}, c < kronN n a b p → r < dimOf p →
    d < kronN n a b q → s < dimOf q → ∑ x, E p c r x * E q d s x = if p = q ∧ c = d ∧ r = s then 1 else 0
  comp : ∀ x y, ∑ p : Pt n, ∑ c : Fin (kronN n a b p.1), ∑ r : Fin (irrOf p.1).d, E p.1 c r x * E p.1 c r y = if x = y then 1 else 0

open Classical in
theorem exists_Ref (hn : 1 ≤ n) (ha : IsPartition n a) (hb : IsPartition n b) : ∃ E, Ref n a b E := by
  obtain ⟨E, h1, h2, h3⟩ := exists_ref hn ha hb
  let E' : List Nat → Nat → Nat → XI a b → ℝ := fun p c r x =>
    if h : IsPartition n p ∧ c < kronN n a b p ∧ r < (irrOf p).d then
      E ⟨p, h.1⟩ ⟨c, h.2.1⟩ (eqvX hn ha hb x) (eqvR hn h.1 ⟨r, h.2.2⟩) else 0
  have hE : ∀ {p : List Nat} (hp : IsPartition n p) {c r : Nat} (hc : c < kronN n a b p) (hr : r < (irrOf p).d) x,
      E' p c r x = E ⟨p, hp⟩ ⟨c, hc⟩ (eqvX hn ha hb x) (eqvR hn hp ⟨r, hr⟩) := by
    intro p hp c r hc hr x
    exact dif_pos ⟨hp, hc, hr⟩
  refine ⟨E', ?_, ?_, ?_⟩
  · intro p hp c r hc hr σ x
    have := congrFun (congrFun (h1 ⟨p, hp⟩ ⟨c, hc⟩ σ) (eqvX hn ha hb x)) (eqvR hn hp ⟨r, hr⟩)
    rw [Matrix.mul_apply, Matrix.mul_apply, ← (eqvX hn ha hb).sum_comp, ← (eqvR hn hp).sum_comp] at this
    rw [pm_eq hn ha hb]
    simp only [Matrix.submatrix_apply]
    rw [Finset.sum_congr rfl fun y _ => by rw [hE hp hc hr y], this]
    refine Finset.sum_congr rfl fun s _ => ?_
    rw [hE hp hc s.2, mul_comm]
    congr 1
    exact (evalN_rho hn hp σ s ⟨r, hr⟩).symm
  · intro p q hp hq c r d s hc hr hd hs
    have := h2 ⟨⟨p, hp⟩, ⟨c, hc⟩, eqvR hn hp ⟨r, hr⟩⟩ ⟨⟨q, hq⟩, ⟨d, hd⟩, eqvR hn hq ⟨s, hs⟩⟩
    rw [← (eqvX hn ha hb).sum_comp] at this
    rw [Finset.sum_congr rfl fun y _ => by rw [hE hp hc hr y, hE hq hd hs y], this]
    refine if_congr ?_ rfl rfl
    constructor
    · intro h
      have hpq : p = q := congrArg Subtype.val (congrArg Sigma.fst h)
      subst hpq
      simp only [Sigma.mk.injEq, heq_eq_eq, true_and, Prod.mk.injEq] at h
      have h5 := (eqvR hn hp).injective h.2
      exact ⟨rfl, congrArg Fin.val h.1, congrArg Fin.val h5⟩
    · rintro ⟨rfl, rfl, rfl⟩
      rfl
  · intro x y
    have := h3 (eqvX hn ha hb x) (eqvX hn ha hb y)
    rw [Fintype.sum_sigma] at this
    have e : (if eqvX hn ha hb x = eqvX hn ha hb y then (1 : ℝ) else 0) = if x = y then 1 else 0 :=
      if_congr (eqvX hn ha hb).apply_eq_iff_eq rfl rfl
    refine Eq.trans ?_ (this.trans e)
    refine Finset.sum_congr rfl fun p _ => ?_
    rw [Fintype.sum_prod_type]
    refine Finset.sum_congr rfl fun c _ => ?_
    rw [← (eqvR hn p.2).sum_comp]
    refine Finset.sum_congr rfl fun r _ => ?_
    rw [hE p.2 c.2 r.2, hE p.2 c.2 r.2]

variable {E : List Nat → Nat → Nat → XI a b → ℝ}

theorem Ref.weight (h : Ref n a b E) (hn : 1 ≤ n) {p : List Nat} (hp : IsPartition n p) {c r : Nat} (hc : c < kronN n a b p)
    (hr : r < dimOf p) {k : Nat} (hk : k < n) (x : XI a b) : ∑ y, jmX n a b k x y * E p c r y = ct n p r k * E p c r x := by
  unfold jmX
  simp only [Matrix.sum_apply, Finset.sum_mul]
  rw [Finset.sum_comm]
  simp only [h.equi hp hc hr]
  rw [Finset.sum_comm]
  have key : ∀ s : Fin (irrOf p).d, ∑ i ∈ Finset.range k, evalN p (enc (tr n i k)) s r * E p c s x =
      if s = ⟨r, hr⟩ then (ct n p r k : ℝ) * E p c r x else 0 := by
    intro s
    rw [← Finset.sum_mul]
    have := ((irrOf_spec hn hp).2.2.2).rep_jm k hk s ⟨r, hr⟩
    have e : ∀ i, evalN p (enc (tr n i k)) s r = ((irrOf_spec hn hp).2.2.2).rep (tr n i k) s ⟨r, hr⟩ := fun i =>
      (evalN_spec hn hp _).2 s ⟨r, hr⟩
    simp only [e]
    rw [this]
    by_cases hs : s = ⟨r, hr⟩
    · rw [if_pos hs, if_pos hs, hs]
      congr 1
      exact congrArg Int.cast (ct_eq hn hp ⟨r, hr⟩ k).symm
    · rw [if_neg hs, if_neg hs, zero_mul]
  rw [Finset.sum_congr rfl fun s _ => key s, Finset.sum_ite_eq' Finset.univ, if_pos (Finset.mem_univ _)]

theorem Ref.expand (h : Ref n a b E) (v : XI a b → ℝ) (x : XI a b) :
    v x = ∑ p : Pt n, ∑ c : Fin (kronN n a b p.1), ∑ r : Fin (irrOf p.1).d, (∑ y, E p.1 c r y * v y) * E p.1 c r x := by
  have : v x = ∑ y, (if x = y then 1 else 0) * v y := by simp
  rw [this]
  simp only [← h.comp, Finset.sum_mul]
  rw [Finset.sum_comm]
  refine Finset.sum_congr rfl fun p _ => ?_
  rw [Finset.sum_comm]
  refine Finset.sum_congr rfl fun c _ => ?_
  rw [Finset.sum_comm]
  refine Finset.sum_congr rfl fun r _ => ?_
  refine Finset.sum_congr rfl fun y _ => ?_
  ring

/-- the coefficients of a weight vector -/
theorem Ref.support (h : Ref n a b E) (hn : 1 ≤ n) (ha : IsPartition n a) (hb : IsPartition n b) {v : XI a b → ℝ} {k : Nat} (hk : k < n)
    {w : ℝ} (hv : ∀ x, ∑ y, jmX n a b k x y * v y = w * v x) {p : List Nat} (hp : IsPartition n p) {c r : Nat}
    (hc : c < kronN n a b p) (hr : r < dimOf p) (hne : (ct n p r k : ℝ) ≠ w) : ∑ y, E p c r y * v y = 0 := by
  have h1 : ∑ x, E p c r x * ∑ y, jmX n a b k x y * v y = w * ∑ y, E p c r y * v y := by
    simp only [hv, Finset.mul_sum]
    exact Finset.sum_congr rfl fun x _ => by ring
  have h2 : ∑ x, E p c r x * ∑ y, jmX n a b k x y * v y = ct n p r k * ∑ y, E p c r y * v y := by
    simp only [Finset.mul_sum]
    rw [Finset.sum_comm]
    refine Finset.sum_congr rfl fun y _ => ?_
    rw [← mul_assoc, ← h.weight hn hp hc hr hk y, Finset.sum_mul]
    refine Finset.sum_congr rfl fun x _ => ?_
    have := congrFun (congrFun (jmX_symm hn ha hb k) x) y
    rw [Matrix.transpose_apply] at this
    rw [this]; ring
  have h3 : ((ct n p r k : ℝ) - w) * ∑ y, E p c r y * v y = 0 := by rw [sub_mul, ← h1, ← h2, sub_self]
  rcases mul_eq_zero.1 h3 with h4 | h4
  · exact absurd (sub_eq_zero.1 h4) hne
  · exact h4

end

end Snob
