import Verif.Proofs.CGSign

/-! # When the coefficients are compatible with the action -/

namespace Snob

open Matrix IP
open scoped Nat

theorem evalN_inv {n : Nat} (hn : 1 ≤ n) {p : List Nat} (hp : IsPartition n p) (σ : Equiv.Perm (Fin n)) {i j : Nat} (hi : i < dimOf p) (hj : j < dimOf p) :
    evalN p (enc σ⁻¹) i j = evalN p (enc σ) j i := by
  rw [evalN_rho hn hp σ⁻¹ ⟨i, hi⟩ ⟨j, hj⟩, evalN_rho hn hp σ ⟨j, hj⟩ ⟨i, hi⟩, rho_inv]
  rfl

theorem evalN_orth {n : Nat} (hn : 1 ≤ n) {p : List Nat} (hp : IsPartition n p) {s t : Nat} (hs : s < dimOf p) (ht : t < dimOf p) :
    ∑ σ : Equiv.Perm (Fin n), evalN p (enc σ) s 0 * evalN p (enc σ) t 0 = if s = t then (n ! : ℝ) / Fintype.card (Wd n p) else 0 := by
  have h0 := dimOf_pos hn hp
  rw [Finset.sum_congr rfl fun σ _ => by rw [evalN_rho hn hp σ ⟨s, hs⟩ ⟨0, h0⟩, evalN_rho hn hp σ ⟨t, ht⟩ ⟨0, h0⟩], orthogonality_eq]
  refine if_congr ?_ rfl rfl
  rw [(eqvR hn hp).apply_eq_iff_eq, (eqvR hn hp).apply_eq_iff_eq]
  exact ⟨fun h => congrArg Fin.val h.1, fun h => ⟨Fin.ext h, rfl⟩⟩

/-- a function of the rows that is zero on the first row and is carried along by the action is zero -/
theorem zero_of_first {n : Nat} (hn : 1 ≤ n) {p : List Nat} (hp : IsPartition n p) (D : Nat → ℝ)
    (h : ∀ σ : Equiv.Perm (Fin n), ∑ s ∈ Finset.range (dimOf p), evalN p (enc σ) s 0 * D s = 0) {t : Nat} (ht : t < dimOf p) : D t = 0 := by
  have h1 : ∑ σ : Equiv.Perm (Fin n), evalN p (enc σ) t 0 * ∑ s ∈ Finset.range (dimOf p), evalN p (enc σ) s 0 * D s = 0 :=
    Finset.sum_eq_zero fun σ _ => by rw [h σ, mul_zero]
  simp only [Finset.mul_sum] at h1
  rw [Finset.sum_comm] at h1
  have e : ∀ s ∈ Finset.range (dimOf p), ∑ σ : Equiv.Perm (Fin n), evalN p (enc σ) t 0 * (evalN p (enc σ) s 0 * D s) =
      if t = s then ((n ! : ℝ) / Fintype.card (Wd n p)) * D t else 0 := by
    intro s hs
    rw [Finset.sum_congr rfl fun σ _ => (mul_assoc (evalN p (enc σ) t 0) (evalN p (enc σ) s 0) (D s)).symm, ← Finset.sum_mul,
      evalN_orth hn hp ht (Finset.mem_range.1 hs)]
    split_ifs with h
    · rw [h]
    · rw [zero_mul]
  rw [Finset.sum_congr rfl e, Finset.sum_ite_eq, if_pos (Finset.mem_range.2 ht)] at h1
  refine (mul_eq_zero.1 h1).resolve_left ?_
  have h2 := card_Wd_pos hp
  have h3 := Nat.factorial_pos n
  positivity

section
variable {n : Nat} {a b : List Nat} {Φ : Coef} {eig : Eig} {E : List Nat → Nat → Nat → XI a b → ℝ}

/-- the coefficients compatible with the action, as for `Ref` -/
theorem EquiPhi.equi (h : EquiPhi n Φ) (hn : 1 ≤ n) {a b p : List Nat} (ha : IsPartition n a) (hb : IsPartition n b) (hp : IsPartition n p) {c r : Nat}
    (hc : c < kronN n a b p) (hr : r < dimOf p) (σ : Equiv.Perm (Fin n)) (x : XI a b) :
    ∑ y, pm n a b σ x y * Φ a b p r c (fstIx y) (sndIx y) = ∑ s ∈ Finset.range (dimOf p), evalN p (enc σ) s r * Φ a b p s c (fstIx x) (sndIx x) := by
  have := h a b p ha hb hp c hc r hr σ⁻¹ x
  rw [pm_inv hn ha hb] at this
  simp only [Matrix.transpose_apply] at this
  rw [this]
  exact Finset.sum_congr rfl fun s hs => by rw [evalN_inv hn hp σ hr (Finset.mem_range.1 hs)]

theorem EquiPhi.of {Φ : Coef} (hn : 1 ≤ n) (h : ∀ a b p, IsPartition n a → IsPartition n b → IsPartition n p → ∀ c < kronN n a b p, ∀ r < dimOf p,
    ∀ (σ : Equiv.Perm (Fin n)) (x : XI a b), ∑ y, pm n a b σ x y * Φ a b p r c (fstIx y) (sndIx y) =
      ∑ s ∈ Finset.range (dimOf p), evalN p (enc σ) s r * Φ a b p s c (fstIx x) (sndIx x)) : EquiPhi n Φ := by
  intro a b p ha hb hp c hc r hr σ x
  have := h a b p ha hb hp c hc r hr σ⁻¹ x
  rw [pm_inv hn ha hb] at this
  simp only [Matrix.transpose_apply] at this
  rw [this]
  exact Finset.sum_congr rfl fun s hs => by rw [evalN_inv hn hp σ (Finset.mem_range.1 hs) hr]

theorem psi_equi (hΦ : EquiPhi n Φ) (hn : 1 ≤ n) (ha : IsPartition (n + 1) a) (hb : IsPartition (n + 1) b) {mu : List Nat} (hm : IsPartition n mu)
    {t k : Nat} (ht : t < dimOf mu) (hk : k < kmul n a b mu) (σ : Equiv.Perm (Fin n)) (x : XI a b) :
    ∑ y : XI a b, pm (n + 1) a b (extend σ) x y * psi n Φ a b mu t k (fstIx y) (sndIx y) =
      ∑ s ∈ Finset.range (dimOf mu), evalN mu (enc σ) s t * psi n Φ a b mu s k (fstIx x) (sndIx x) := by
  obtain ⟨h1, h2⟩ := loc_mem hk
  unfold psi
  generalize loc n (sprs a b) mu k = l at h1 h2 ⊢
  obtain ⟨e, d⟩ := l
  obtain ⟨m1, m2⟩ := mem_sprs.1 h1
  dsimp only at *
  rw [pm_embP hn ha hb h1 (Φ e.1 e.2 mu t d) (fun i j => ∑ s ∈ Finset.range (dimOf mu), evalN mu (enc σ) s t * Φ e.1 e.2 mu s d i j) σ
    (fun z => (hΦ.equi hn (sub_part ha _ m1) (sub_part hb _ m2) hm h2 ht σ z).symm)]
  unfold embP
  split_ifs
  · rfl
  · simp

theorem ref_equi_block (hE : Ref (n + 1) a b E) (hn : 1 ≤ n) {lam mu : List Nat} (hl : IsPartition (n + 1) lam) (hmu : mu ∈ subs lam) {c t : Nat}
    (hc : c < kronN (n + 1) a b lam) (ht : t < dimOf mu) (σ : Equiv.Perm (Fin n)) (x : XI a b) :
    ∑ y, pm (n + 1) a b (extend σ) x y * E lam c (offOf (subs lam) mu + t) y =
      ∑ s ∈ Finset.range (dimOf mu), evalN mu (enc σ) s t * E lam c (offOf (subs lam) mu + s) x := by
  rw [hE.equi hl hc (block_lt hn hl hmu ht),
    ← Finset.sum_range (fun s => evalN lam (enc (extend σ)) s (offOf (subs lam) mu + t) * E lam c s x),
    show Finset.range (irrOf lam).d = Finset.range (dimOf lam) from rfl, sum_blocks hn hl]
  have : ∀ nu ∈ subs lam, (∑ s ∈ Finset.range (dimOf nu), evalN lam (enc (extend σ)) (offOf (subs lam) nu + s) (offOf (subs lam) mu + t) *
      E lam c (offOf (subs lam) nu + s) x) =
      if nu = mu then ∑ s ∈ Finset.range (dimOf mu), evalN mu (enc σ) s t * E lam c (offOf (subs lam) mu + s) x else 0 := by
    intro nu hnu
    by_cases h : nu = mu
    · subst h
      rw [if_pos rfl]
      exact Finset.sum_congr rfl fun s hs => by rw [evalN_block hn hl σ hnu hnu (Finset.mem_range.1 hs) ht, if_pos rfl]
    · rw [if_neg h]
      exact Finset.sum_eq_zero fun s hs => by rw [evalN_block hn hl σ hnu hmu (Finset.mem_range.1 hs) ht, if_neg h, zero_mul]
  rw [List.map_congr_left this, ← List.sum_toFinset _ (subs_nodup lam), Finset.sum_ite_eq', if_pos (List.mem_toFinset.2 hmu)]

/-- a block in terms of the reference basis -/
theorem nextB_ref (hI : Inv n Φ) (hΦ : EquiPhi n Φ) (hE : Ref (n + 1) a b E) (he : EigOk eig) (hn : 1 ≤ n) (ha : IsPartition (n + 1) a)
    (hb : IsPartition (n + 1) b) {lam mu : List Nat} (hl : IsPartition (n + 1) lam) (hmu : mu ∈ subs lam) (c : Fin (kronN (n + 1) a b lam)) {t : Nat}
    (ht : t < dimOf mu) (x : XI a b) : nextB eig n Φ a b lam mu t c (fstIx x) (sndIx x) =
      ∑ d, (Om E eig n Φ lam mu * Gm eig n Φ a b lam mu) d c * E lam d (offOf (subs lam) mu + t) x := by
  have hm := sub_part hl mu hmu
  rw [nextB_lt c.2]
  obtain ⟨D, hD⟩ : ∃ D : Nat → XI a b → ℝ, ∀ t x, D t x = (∑ k : Fin (kmul n a b mu), psi n Φ a b mu t k (fstIx x) (sndIx x) * Fm eig n Φ a b lam mu k c) -
    ∑ d, (Om E eig n Φ lam mu * Gm eig n Φ a b lam mu) d c * E lam d (offOf (subs lam) mu + t) x := ⟨_, fun _ _ => rfl⟩
  have h0 : ∀ x, D 0 x = 0 := by
    intro x
    have := congrFun (congrFun (congrArg (fun M : Matrix (XI a b) (Fin (kronN (n + 1) a b lam)) ℝ => M * Gm eig n Φ a b lam mu) (VS_eq hI hE he hn ha hb hl hmu)) x) c
    beta_reduce at this
    rw [Matrix.mul_assoc, Matrix.mul_assoc, Matrix.mul_apply, Matrix.mul_apply] at this
    rw [hD, sub_eq_zero]
    refine this.trans (Finset.sum_congr rfl fun d _ => ?_)
    rw [mul_comm]
    rfl
  have hact : ∀ (σ : Equiv.Perm (Fin n)) x, ∑ y, pm (n + 1) a b (extend σ) x y * D 0 y = ∑ s ∈ Finset.range (dimOf mu), evalN mu (enc σ) s 0 * D s x := by
    intro σ x
    simp only [hD, mul_sub, Finset.sum_sub_distrib]
    congr 1
    · simp only [Finset.mul_sum]
      rw [Finset.sum_comm, Finset.sum_comm (s := Finset.range _)]
      refine Finset.sum_congr rfl fun k _ => ?_
      simp only [← mul_assoc]
      rw [← Finset.sum_mul, ← Finset.sum_mul, psi_equi hΦ hn ha hb hm (dimOf_pos hn hm) k.2]
    · simp only [Finset.mul_sum]
      rw [Finset.sum_comm, Finset.sum_comm (s := Finset.range _)]
      refine Finset.sum_congr rfl fun d _ => ?_
      simp only [mul_left_comm _ ((Om E eig n Φ lam mu * Gm eig n Φ a b lam mu) d c)]
      rw [← Finset.mul_sum, ← Finset.mul_sum, ref_equi_block hE hn hl hmu d.2 (dimOf_pos hn hm)]
  have hz := zero_of_first hn hm (fun s => D s x) (fun σ => by
    rw [← hact σ x]
    exact Finset.sum_eq_zero fun y _ => by rw [h0, mul_zero]) ht
  rw [hD, sub_eq_zero] at hz
  exact hz

/-- the part of `lam` is carried along if all of its blocks are turned alike -/
theorem equi_part (hI : Inv n Φ) (hΦ : EquiPhi n Φ) (hE : Ref (n + 1) a b E) (he : EigOk eig) (hn : 1 ≤ n) (ha : IsPartition (n + 1) a)
    (hb : IsPartition (n + 1) b) {lam : List Nat} (hl : IsPartition (n + 1) lam)
    (hG : ∀ mu ∈ subs lam, Om E eig n Φ lam mu * Gm eig n Φ a b lam mu = Om E eig n Φ lam (mu0 lam)) (c : Fin (kronN (n + 1) a b lam)) {r : Nat}
    (hr : r < dimOf lam) (σ : Equiv.Perm (Fin (n + 1))) (x : XI a b) :
    ∑ y, pm (n + 1) a b σ x y * nextPhi eig n Φ a b lam r c (fstIx y) (sndIx y) =
      ∑ s ∈ Finset.range (dimOf lam), evalN lam (enc σ) s r * nextPhi eig n Φ a b lam s c (fstIx x) (sndIx x) := by
  have key : ∀ r < dimOf lam, ∀ x : XI a b, nextPhi eig n Φ a b lam r c (fstIx x) (sndIx x) = ∑ d, Om E eig n Φ lam (mu0 lam) d c * E lam d r x := by
    intro r hr x
    obtain ⟨mu, hmu, t, ht, rfl⟩ := exists_block hn hl hr
    rw [nextPhi_off hmu ht, nextB_ref hI hΦ hE he hn ha hb hl hmu c ht, hG mu hmu]
  rw [Finset.sum_congr rfl fun y _ => by rw [key r hr y], Finset.sum_congr (s₁ := Finset.range _) rfl fun s hs => by rw [key s (Finset.mem_range.1 hs) x]]
  simp only [Finset.mul_sum]
  rw [Finset.sum_comm, Finset.sum_comm (s := Finset.range _)]
  refine Finset.sum_congr rfl fun d _ => ?_
  simp only [mul_left_comm _ (Om E eig n Φ lam (mu0 lam) d c)]
  rw [← Finset.mul_sum, ← Finset.mul_sum, hE.equi hl d.2 hr, Finset.sum_range]
  rfl

/-- a block that is aligned, when there is one copy -/
theorem turn_one (hI : Inv n Φ) (hE : Ref (n + 1) a b E) (he : EigOk eig) (hn : 1 ≤ n) (ha : IsPartition (n + 1) a)
    (hb : IsPartition (n + 1) b) {lam : List Nat} (hl : IsPartition (n + 1) lam) (hk : kronN (n + 1) a b lam ≤ 1) {mu : List Nat} (hmu : mu ∈ subs lam)
    (hA : mu ≠ mu0 lam → |Am n lam mu| > 0.0001) : Om E eig n Φ lam mu * Gm eig n Φ a b lam mu = Om E eig n Φ lam (mu0 lam) := by
  unfold Gm
  split_ifs with h1 h2
  · rw [h1, Matrix.mul_one]
  · have hA : Am n lam mu ≠ 0 := by
      intro h0
      rw [h0, abs_zero] at h2
      norm_num at h2
    have e : (1 / Am n lam mu) • (Bm eig n Φ a b lam mu)ᵀ = ((Om E eig n Φ lam mu)ᵀ * Om E eig n Φ lam (mu0 lam))ᵀ := by
      rw [Bm_eq hI hE he hn ha hb hl hmu, Matrix.transpose_smul, smul_smul, one_div_mul_cancel hA, one_smul]
    have hT : ∀ M : Matrix (Fin (kronN (n + 1) a b lam)) (Fin (kronN (n + 1) a b lam)) ℝ, Mᵀ = M := by
      intro M; ext i j
      rw [Matrix.transpose_apply, show i = j from Fin.ext (by omega)]
    rw [e, hT, ← Matrix.mul_assoc, (Om_orth hI hE he hn ha hb hl hmu).2, Matrix.one_mul]
  · exact absurd (hA h1) h2

end

/-! ## Up to three letters -/

theorem chi_id {n : Nat} {p : List Nat} (hp : IsPartition n p) : chi hp 1 = (words n p).length := by
  unfold chi
  rw [map_one, Matrix.trace_one, card_Wd hp]

theorem part_two {p : List Nat} (hp : IsPartition 2 p) : p = [2] ∨ p = [1, 1] := by
  have := (mem_partitions 2 (by omega) p).2 hp
  rw [show IP.partitions 2 = [[2], [1, 1]] by decide] at this
  simpa using this

theorem part_three {p : List Nat} (hp : IsPartition 3 p) : p = [3] ∨ p = [2, 1] ∨ p = [1, 1, 1] := by
  have := (mem_partitions 3 (by omega) p).2 hp
  rw [show IP.partitions 3 = [[3], [2, 1], [1, 1, 1]] by decide] at this
  simpa using this

theorem kron_le_of_sq {n : Nat} {a b c : List Nat} (ha : IsPartition n a) (hb : IsPartition n b) (hc : IsPartition n c)
    (h1 : ∀ σ, chi ha σ * chi ha σ = 1) : kronN n a b c ≤ 1 := by
  have h := kron_sq_sum ha hb h1
  have := Finset.single_le_sum (f := fun x : Pt n => kronN n a b x.1 * kronN n a b x.1) (fun _ _ => Nat.zero_le _) (Finset.mem_univ (⟨c, hc⟩ : Pt n))
  rw [h] at this
  dsimp only at this
  by_contra hh
  have h2 : 2 ≤ kronN n a b c := by omega
  have := Nat.mul_le_mul h2 h2
  omega

theorem kron_three {a b : List Nat} (ha : IsPartition 3 a) (hb : IsPartition 3 b) : kronN 3 a b [2, 1] ≤ 1 := by
  have hl : IsPartition 3 [2, 1] := (mem_partitions 3 (by omega) _).1 (by decide)
  have hr : ∀ c (hc : IsPartition 3 c), c ≠ [2, 1] → ∀ σ, chi hc σ * chi hc σ = 1 := by
    intro c hc hne
    rcases part_three hc with rfl | rfl | rfl
    · exact chi_row_sq (by omega)
    · exact absurd rfl hne
    · exact chi_col_sq (n := 3) (by omega)
  by_cases h1 : a = [2, 1]
  · by_cases h2 : b = [2, 1]
    · subst h1 h2
      have h := sum_kron_chi hl hl 1
      simp only [chi_id] at h
      have h' : ∑ r : Pt 3, kronN 3 [2, 1] [2, 1] r.1 * (words 3 r.1).length = 4 := by
        have e : (words 3 [2, 1]).length = 2 := by decide
        rw [e] at h
        have : ((∑ r : Pt 3, kronN 3 [2, 1] [2, 1] r.1 * (words 3 r.1).length : Nat) : ℝ) = 4 := by
          push_cast
          rw [h]; norm_num
        exact_mod_cast this
      have h3 : IsPartition 3 [3] := (mem_partitions 3 (by omega) _).1 (by decide)
      have hne : (⟨[2, 1], hl⟩ : Pt 3) ≠ ⟨[3], h3⟩ := fun h => by simpa using congrArg Subtype.val h
      have := Finset.add_le_sum (f := fun r : Pt 3 => kronN 3 [2, 1] [2, 1] r.1 * (words 3 r.1).length) (fun _ _ => Nat.zero_le _)
        (Finset.mem_univ (⟨[2, 1], hl⟩ : Pt 3)) (Finset.mem_univ (⟨[3], h3⟩ : Pt 3)) hne
      rw [h'] at this
      dsimp only at this
      rw [show (words 3 [2, 1]).length = 2 by decide, show (words 3 [3]).length = 1 by decide, kronN_swap23 3 [2, 1] [2, 1] [3],
        kronN_swap12 3 [2, 1] [3] [2, 1], kronN_row (by omega) hl hl, if_pos rfl] at this
      omega
    · rw [kronN_swap12]
      exact kron_le_of_sq hb ha hl (hr b hb h2)
  · exact kron_le_of_sq ha hb hl (hr a ha h1)

/-- the entry of the exchange of the last two letters between the two rows of `[2,1]` -/
theorem Am_three : |Am 2 [2, 1] [1, 1]| > 0.0001 := by
  have hl : IsPartition 3 [2, 1] := (mem_partitions 3 (by omega) _).1 (by decide)
  have hm : [1, 1] ∈ subs [2, 1] := by decide
  have hm' : IsPartition 2 [1, 1] := (mem_partitions 2 (by omega) _).1 (by decide)
  have hd := dimOf_pos (by omega) hm'
  have l0 : 0 < (irrOf [2, 1]).d := dimOf_pos (by omega) hl
  have l1 : offOf (subs [2, 1]) [1, 1] < (irrOf [2, 1]).d := by have := block_lt (n := 2) (by omega) hl hm hd; rwa [add_zero] at this
  have c0 : ∀ i < 3, ct 3 [2, 1] 0 i = if i < 2 then (i : Int) else 1 - (i : Int) := by
    intro i hi
    refine (ct_hook (p := 2) (by omega) 1 (i := i) (by omega)).trans ?_
    push_cast; split_ifs <;> ring
  have c1 : ∀ i < 3, ct 3 [2, 1] (offOf (subs [2, 1]) [1, 1]) i = if i < 2 then - (i : Int) else 1 := by
    intro i hi
    by_cases h : i < 2
    · have e1 := ct_block (n := 2) (by omega) hl hm hd h
      have e2 := ct_hook (p := 1) (by omega) 1 (i := i) (by omega)
      rw [add_zero] at e1
      rw [e1, if_pos h]
      refine e2.trans ?_
      push_cast; split_ifs <;> omega
    · have e1 := ct_top (n := 2) (by omega) hl hm hd
      rw [add_zero] at e1
      have e2 := topc_arm (p := 1) (k := 1) (by omega)
      rw [if_neg h, show i = 2 by omega, e1]
      exact e2
  set u0 := eqvR (by omega) hl ⟨0, l0⟩ with hu0
  set us := eqvR (by omega) hl ⟨_, l1⟩ with hus
  have d0 : ∀ i < 3, u0.cont (i + 1) = if i < 2 then (i : Int) else 1 - (i : Int) := fun i hi => by rw [← ct_eq, c0 i hi]
  have d1 : ∀ i < 3, us.cont (i + 1) = if i < 2 then - (i : Int) else 1 := fun i hi => by rw [← ct_eq, c1 i hi]
  have a1 := d0 1 (by omega)
  have a2 := d0 2 (by omega)
  have b1 := d1 1 (by omega)
  have b2 := d1 2 (by omega)
  simp at a1 a2 b1 b2
  have o : offc (u0.cont 3 - u0.cont 2) ≠ 0 := offc_ne_zero (Or.inr (by rw [a1, a2]; omega))
  obtain ⟨v, hv⟩ := u0.exists_sw hl (k := 2) (by omega) (by omega) o
  have hvs : v = us := by
    refine Wd.ext_cont hl fun i h1 h2 => ?_
    rw [hv]
    by_cases i3 : i = 3
    · subst i3; rw [sw_hi, a1, b2]
    by_cases i2 : i = 2
    · subst i2; rw [sw_lo, a2, b1]
    rw [sw_ne _ (by omega) (by omega), show i = 0 + 1 by omega, d0 0 (by omega), d1 0 (by omega)]
    simp
  unfold Am
  rw [evalN_rho (by omega) hl _ ⟨_, l1⟩ ⟨0, l0⟩, rho_adj hl (by omega), ← hu0, ← hus]
  unfold yorM
  rw [if_neg (by intro h; rw [h, b1] at a1; omega), if_pos (by rw [← hvs, hv, sw_sw])]
  show |offc (us.cont 3 - us.cont 2)| > _
  rw [b1, b2]
  have h : (1 / 2 : ℝ) ≤ offc 2 := Real.le_sqrt_of_sq_le (by norm_num)
  rw [show (1 - -1 : Int) = 2 by norm_num, abs_of_nonneg (by linarith)]
  refine lt_of_lt_of_le ?_ h
  norm_num

theorem equi_one (eig : Eig) : EquiPhi 1 (cgPhi eig 1) := by
  intro a b p ha hb hp c hc r hr σ x
  obtain rfl := isPartition_one ha
  obtain rfl := isPartition_one hb
  obtain rfl := isPartition_one hp
  have h1 : dimOf [1] = 1 := dimOf_row le_rfl
  rw [h1] at hr
  have x1 : (fstIx x : Nat) = 0 := by have := (fstIx x).2; have : (irrOf [1]).d = 1 := h1; omega
  have x2 : (sndIx x : Nat) = 0 := by have := (sndIx x).2; have : (irrOf [1]).d = 1 := h1; omega
  unfold pm
  rw [x1, x2, sum_XI (a := [1]) (b := [1]) (fun i j => evalN [1] (enc σ) i 0 * evalN [1] (enc σ) j 0 * cgPhi eig 1 [1] [1] [1] r c i j), h1,
    Finset.sum_range_one, Finset.sum_range_one, Finset.sum_range_one, show r = 0 by omega, evalN_row le_rfl, one_mul]

theorem equi_next {n : Nat} {eig : Eig} (he : EigOk eig) (hn : 1 ≤ n) (hΦ : EquiPhi n (cgPhi eig n))
    (h : ∀ lam, IsPartition (n + 1) lam → ∀ mu ∈ subs lam, mu ≠ mu0 lam → |Am n lam mu| > 0.0001 ∧
      ∀ a b, IsPartition (n + 1) a → IsPartition (n + 1) b → kronN (n + 1) a b lam ≤ 1) : EquiPhi (n + 1) (cgPhi eig (n + 1)) := by
  refine EquiPhi.of (by omega) fun a b lam ha hb hl c hc r hr σ x => ?_
  obtain ⟨E, hE⟩ := exists_Ref (n := n + 1) (by omega) ha hb
  have hI := inv_cgPhi he hn
  obtain ⟨k, rfl⟩ : ∃ k, n = k + 1 := ⟨n - 1, by omega⟩
  refine equi_part hI hΦ hE he hn ha hb hl (fun mu hmu => ?_) ⟨c, hc⟩ hr σ x
  by_cases h0 : mu = mu0 lam
  · rw [← h0]
    unfold Gm
    rw [if_pos h0, Matrix.mul_one]
  · exact turn_one hI hE he hn ha hb hl ((h lam hl mu hmu h0).2 a b ha hb) hmu fun _ => (h lam hl mu hmu h0).1

theorem equi_two {eig : Eig} (he : EigOk eig) : EquiPhi 2 (cgPhi eig 2) := by
  refine equi_next he le_rfl (equi_one eig) fun lam hl mu hmu h0 => absurd ?_ h0
  obtain rfl := isPartition_one (sub_part hl mu hmu)
  exact (isPartition_one (sub_part hl _ (mu0_mem le_rfl hl))).symm

theorem equi_three {eig : Eig} (he : EigOk eig) : EquiPhi 3 (cgPhi eig 3) := by
  refine equi_next he (by omega) (equi_two he) fun lam hl mu hmu h0 => ?_
  rcases part_three hl with rfl | rfl | rfl
  · rw [show subs [3] = [[2]] by decide] at hmu
    exact absurd (by rw [List.mem_singleton.1 hmu]; unfold mu0; decide) h0
  · rw [show subs [2, 1] = [[2], [1, 1]] by decide] at hmu
    have h2 : mu0 [2, 1] = [2] := by unfold mu0; decide
    rw [h2] at h0
    simp only [List.mem_cons, h0, List.not_mem_nil, or_false, false_or] at hmu
    subst hmu
    exact ⟨Am_three, fun a b ha hb => kron_three ha hb⟩
  · rw [show subs [1, 1, 1] = [[1, 1]] by decide] at hmu
    exact absurd (by rw [List.mem_singleton.1 hmu]; unfold mu0; decide) h0

end Snob
