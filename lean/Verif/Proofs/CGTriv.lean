import Verif.Proofs.CGOne
import Verif.Proofs.CGAcc3
import Verif.Props.CG

/-! # Products with the trivial irrep -/

namespace Snob

open Matrix IP
open scoped Nat

/-! ## The signs -/

/-- the product over the boxes of the signs of the solver at their contents -/
noncomputable def boxsg (eig : Eig) (N : Nat) (p : List Nat) : ℝ :=
  ∏ i ∈ Finset.range N, ∏ j ∈ Finset.range (row p i), usg eig ((j : ℝ) - i)

theorem boxsg_sq {eig : Eig} (he : EigOk eig) (N : Nat) (p : List Nat) : boxsg eig N p * boxsg eig N p = 1 := by
  unfold boxsg
  rw [← Finset.prod_mul_distrib]
  refine Finset.prod_eq_one fun i _ => ?_
  rw [← Finset.prod_mul_distrib]
  exact Finset.prod_eq_one fun j _ => usg_sq he _

theorem boxsg_ext {eig : Eig} {N : Nat} {p : List Nat} {n : Nat} (hp : IsPartition n p) (hN : n ≤ N) : boxsg eig (N + 1) p = boxsg eig N p := by
  unfold boxsg
  rw [Finset.prod_range_succ]
  have : row p N = 0 := by
    unfold row
    rw [List.getElem?_eq_none (by have := hp.length_le; omega)]
    rfl
  rw [this]
  simp

theorem boxsg_add {eig : Eig} {n N : Nat} {x mu : List Nat} (hx : IsPartition (n + 1) x) (hmu : mu ∈ subs x) (hN : n + 1 ≤ N) :
    boxsg eig N x = usg eig (topc x mu) * boxsg eig N mu := by
  obtain ⟨hm, r, hb⟩ := (mem_subs hx mu).1 hmu
  have hr : r < N := by
    by_contra h
    have h1 : row x r = 0 := by
      unfold row
      rw [List.getElem?_eq_none (by have := hx.length_le; omega)]
      rfl
    have := hb r
    rw [if_pos rfl] at this
    omega
  have ht : topc x mu = (row mu r : Int) - r := by
    unfold topc
    rw [growRow_eq hm hx hb, hb r, if_pos rfl]
    push_cast; ring
  unfold boxsg
  rw [← Finset.mul_prod_erase _ _ (Finset.mem_range.2 hr), ← Finset.mul_prod_erase (Finset.range N) (fun i => ∏ j ∈ Finset.range (row mu i), usg eig ((j : ℝ) - i)) (Finset.mem_range.2 hr),
    hb r, if_pos rfl, Finset.prod_range_succ, ht]
  push_cast
  rw [mul_comm (∏ _ ∈ _, _) (usg _ _), mul_assoc]
  congr 2
  refine Finset.prod_congr rfl fun i hi => ?_
  rw [hb i, if_neg (Finset.ne_of_mem_erase hi), add_zero]

/-- the sign of the part of `p`: the boxes other than the first -/
noncomputable def cgsg (eig : Eig) (n : Nat) (p : List Nat) : ℝ := usg eig 0 * boxsg eig n p

theorem cgsg_sq {eig : Eig} (he : EigOk eig) (n : Nat) (p : List Nat) : cgsg eig n p * cgsg eig n p = 1 := by
  unfold cgsg
  calc _ = (usg eig 0 * usg eig 0) * (boxsg eig n p * boxsg eig n p) := by ring
    _ = 1 := by rw [usg_sq he, boxsg_sq he, mul_one]

theorem cgsg_ne {eig : Eig} (he : EigOk eig) (n : Nat) (p : List Nat) : cgsg eig n p ≠ 0 := by
  intro h
  have := cgsg_sq he n p
  rw [h] at this
  norm_num at this

theorem cgsg_one {eig : Eig} (he : EigOk eig) : cgsg eig 1 [1] = 1 := by
  unfold cgsg boxsg
  rw [Finset.prod_range_one]
  simp only [row_single, if_true, Finset.prod_range_one]
  push_cast
  rw [sub_zero, usg_sq he]

theorem cgsg_add {eig : Eig} {n : Nat} {x mu : List Nat} (hx : IsPartition (n + 1) x) (hmu : mu ∈ subs x) :
    cgsg eig (n + 1) x = usg eig (topc x mu) * cgsg eig n mu := by
  unfold cgsg
  rw [boxsg_add hx hmu le_rfl, boxsg_ext (sub_part hx mu hmu) le_rfl]
  ring

/-! ## The coefficients -/

theorem subs_row {n : Nat} (hn : 1 ≤ n) : subs [n + 1] = [[n]] := by
  unfold subs
  simp only [List.length_singleton, List.range_one, List.reverse_singleton]
  rw [List.filter_cons_of_pos (by simp [row])]
  have : dropZeroLast [n] = [n] := by
    unfold dropZeroLast
    rw [if_neg (by simp; omega)]
  simp [row, this]

theorem dimOf_row {n : Nat} (hn : 1 ≤ n) : dimOf [n] = 1 := by
  rw [dimOf_eq hn (isPartition_row hn), dimW, words_self hn]
  rfl

theorem evalN_row {n : Nat} (hn : 1 ≤ n) (σ : Equiv.Perm (Fin n)) : evalN [n] (enc σ) 0 0 = 1 := by
  have h := dimOf_row hn
  rw [evalN_rho hn (isPartition_row hn) σ ⟨0, by rw [show (irrOf [n]).d = 1 from h]; omega⟩ ⟨0, by rw [show (irrOf [n]).d = 1 from h]; omega⟩, rho_row hn]

section step
variable {n : Nat} {eig : Eig} {Φ : Coef}

/-- the coefficients of a block turned by the product of the coefficients with themselves -/
theorem Gm_one_of (h : Inv n Φ) (he : EigOk eig) (hn : 1 ≤ n) {a b lam : List Nat} (ha : IsPartition (n + 1) a) (hb : IsPartition (n + 1) b)
    (hl : IsPartition (n + 1) lam) (hk : kronN (n + 1) a b lam = 1) (hK : ∀ mu ∈ subs lam, kmul n a b mu = 1)
    {s : ℝ} (hs : s * s = 1) (X : List Nat → XI a b)
    (hV : ∀ mu ∈ subs lam, ∀ x : XI a b, usg eig (topc lam mu) * psi n Φ a b mu 0 0 (fstIx x) (sndIx x) = if x = X mu then s else 0)
    (hA : ∀ mu ∈ subs lam, pm (n + 1) a b (adj (n + 1) (n - 1)) (X mu) (X (mu0 lam)) = Am n lam mu) {mu : List Nat} (hmu : mu ∈ subs lam) :
    Gm eig n Φ a b lam mu = 1 := by
  have VS : ∀ mu ∈ subs lam, ∀ x c, (Vm n Φ a b mu * Sm eig n Φ a b lam mu) x c = if x = X mu then s else 0 := by
    intro mu hmu x c
    rw [Matrix.mul_apply, Finset.sum_eq_single (⟨0, by rw [hK mu hmu]; omega⟩ : Fin (kmul n a b mu))
      (fun y _ hy => absurd (Fin.ext (by have := y.2; have := hK mu hmu; simp only; omega)) hy) (by simp),
      Sm_one h he hn ha hb hl hmu (hK mu hmu), ← hV mu hmu, mul_comm]
    rfl
  unfold Gm
  split_ifs with h1 h2
  · rfl
  · have hA0 : Am n lam mu ≠ 0 := by
      intro h0
      rw [h0, abs_zero] at h2
      norm_num at h2
    have hB : ∀ c d, Bm eig n Φ a b lam mu c d = Am n lam mu := by
      intro c d
      unfold Bm Tm
      rw [← Matrix.mul_assoc, ← Matrix.transpose_mul, Matrix.mul_apply]
      simp only [Matrix.transpose_apply, VS mu hmu, ite_mul, zero_mul, Finset.sum_ite_eq', Finset.mem_univ, if_true]
      rw [Matrix.mul_apply]
      simp only [VS _ (mu0_mem hn hl), mul_ite, mul_zero, Finset.sum_ite_eq', Finset.mem_univ, if_true, hA mu hmu]
      calc s * (Am n lam mu * s) = (s * s) * Am n lam mu := by ring
        _ = _ := by rw [hs, one_mul]
    ext c d
    have hcd : c = d := Fin.ext (by omega)
    rw [Matrix.smul_apply, Matrix.transpose_apply, hB, hcd, Matrix.one_apply_eq, smul_eq_mul, one_div, inv_mul_cancel₀ hA0]
  · rfl

end step

section
variable {eig : Eig}

theorem fuse_ext {a b : List Nat} {x y : XI a b} (h1 : (fstIx x : Nat) = fstIx y) (h2 : (sndIx x : Nat) = sndIx y) : x = y := by
  apply (fuseEquiv (irrOf a).d (irrOf b).d).injective
  exact Prod.ext (Fin.ext h1) (Fin.ext h2)

theorem exists_XI {a b : List Nat} {i j : Nat} (hi : i < dimOf a) (hj : j < dimOf b) : ∃ x : XI a b, (fstIx x : Nat) = i ∧ (sndIx x : Nat) = j := by
  obtain ⟨x, hx⟩ := (fuseEquiv (irrOf a).d (irrOf b).d).surjective (⟨i, hi⟩, ⟨j, hj⟩)
  have h1 := congrArg Prod.fst hx
  have h2 := congrArg Prod.snd hx
  exact ⟨x, congrArg Fin.val h1, congrArg Fin.val h2⟩

theorem chi_row_sq {n : Nat} (hn : 1 ≤ n) (σ : Equiv.Perm (Fin n)) : chi (isPartition_row hn) σ * chi (isPartition_row hn) σ = 1 := by
  rw [chi_row hn, one_mul]

/-- **the product with the trivial irrep on the left** -/
theorem phi_row_left (he : EigOk eig) {n : Nat} (hn : 1 ≤ n) {lam : List Nat} (hl : IsPartition n lam) {r j : Nat} (hr : r < dimOf lam) (hj : j < dimOf lam) :
    cgPhi eig n [n] lam lam r 0 0 j = if j = r then cgsg eig n lam else 0 := by
  induction n, hn using Nat.le_induction generalizing lam r j with
  | base =>
    obtain rfl := isPartition_one hl
    rw [dimOf_one] at hr hj
    rw [if_pos (by omega), cgsg_one he]
    rfl
  | succ n hn ih =>
    have ha := isPartition_row (n := n + 1) (by omega)
    have hk : kronN (n + 1) [n + 1] lam lam = 1 := by rw [kronN_row (by omega) hl hl, if_pos rfl]
    have hI := inv_cgPhi he hn
    have hK : ∀ mu ∈ subs lam, kmul n [n + 1] lam mu = 1 := fun mu hmu => kmul_one hn ha hl (chi_row_sq (by omega)) hl hk hmu
    have hpsi : ∀ mu ∈ subs lam, ∀ t < dimOf mu, ∀ j < dimOf lam,
        usg eig (topc lam mu) * psi n (cgPhi eig n) [n + 1] lam mu t 0 0 j = if j = offOf (subs lam) mu + t then cgsg eig (n + 1) lam else 0 := by
      intro mu hmu t ht j hj
      obtain ⟨⟨e1, e2⟩, h1, h2, h3⟩ := psi_one (Φ := cgPhi eig n) (hK mu hmu)
      obtain ⟨he1, he2⟩ := mem_sprs.1 h1
      simp only at he1 he2 h2 h3
      rw [subs_row hn, List.mem_singleton] at he1
      subst he1
      have hm := sub_part hl mu hmu
      rw [kronN_row hn (sub_part hl e2 he2) hm] at h2
      obtain rfl : e2 = mu := by by_contra hne; rw [if_neg hne] at h2; omega
      rw [h3, cgsg_add hl hmu]
      unfold embP
      simp only
      have hB : InBlk (subs [n + 1]) [n] 0 := by
        unfold InBlk
        rw [subs_row hn, dimOf_row hn]
        simp [offOf]
      by_cases hj' : InBlk (subs lam) e2 j
      · rw [if_pos ⟨hB, hj'⟩]
        have e0 : 0 - offOf (subs [n + 1]) [n] = 0 := by omega
        unfold InBlk at hj'
        rw [e0, ih hm ht (by omega), mul_ite, mul_zero]
        by_cases e : j = offOf (subs lam) e2 + t
        · rw [if_pos e, if_pos (by omega)]
        · rw [if_neg e, if_neg (by omega)]
      · rw [if_neg fun h => hj' h.2, mul_zero, if_neg]
        rintro rfl
        exact hj' ((InBlk_off hn hl hmu hmu ht).2 rfl)
    obtain ⟨mu, hmu, t, ht, rfl⟩ := exists_block hn hl hr
    obtain ⟨m, rfl⟩ : ∃ m, n = m + 1 := ⟨n - 1, by omega⟩
    rw [show cgPhi eig (m + 1 + 1) = nextPhi eig (m + 1) (cgPhi eig (m + 1)) from rfl, nextPhi_off hmu ht,
      nextB_one hI he hn ha hl hl hmu hk (hK mu hmu), hpsi mu hmu t ht j hj]
    have hX : ∀ mu, ∃ x : XI [m + 1 + 1] lam, mu ∈ subs lam → (fstIx x : Nat) = 0 ∧ (sndIx x : Nat) = offOf (subs lam) mu := by
      intro mu
      by_cases hmu : mu ∈ subs lam
      · obtain ⟨x, hx⟩ := exists_XI (a := [m + 1 + 1]) (b := lam) (i := 0) (j := offOf (subs lam) mu) (by rw [dimOf_row (by omega)]; omega)
          (by have := block_lt hn hl hmu (dimOf_pos hn (sub_part hl mu hmu)); simpa using this)
        exact ⟨x, fun _ => hx⟩
      · obtain ⟨x, -⟩ := exists_XI (a := [m + 1 + 1]) (b := lam) (dimOf_pos (by omega) ha) (dimOf_pos (by omega) hl)
        exact ⟨x, fun h => absurd h hmu⟩
    choose X hX using hX
    refine Gm_one_of hI he hn ha hl hl hk hK (cgsg_sq he (m + 1 + 1) lam) X (fun mu hmu x => ?_) (fun mu hmu => ?_) hmu
    · have h0 : (fstIx x : Nat) = 0 := by
        have := (fstIx (a := (irrOf [m + 1 + 1]).d) (b := (irrOf lam).d) x).2
        have h1 : (irrOf [m + 1 + 1]).d = 1 := dimOf_row (by omega)
        omega
      have := hpsi mu hmu 0 (dimOf_pos hn (sub_part hl mu hmu)) (sndIx x) (sndIx (a := (irrOf [m + 1 + 1]).d) (b := (irrOf lam).d) x).2
      rw [h0, this]
      refine if_congr ?_ rfl rfl
      constructor
      · intro h; exact fuse_ext (by rw [h0, (hX mu hmu).1]) (by rw [(hX mu hmu).2, h, add_zero])
      · rintro rfl; rw [(hX mu hmu).2, add_zero]
    · unfold pm Am
      rw [(hX mu hmu).1, (hX mu hmu).2, (hX _ (mu0_mem hn hl)).1, (hX _ (mu0_mem hn hl)).2, mu0_off (mu0_mem hn hl), evalN_row (by omega), one_mul]

/-- **the product with the trivial irrep on the right** -/
theorem phi_row_right (he : EigOk eig) {n : Nat} (hn : 1 ≤ n) {lam : List Nat} (hl : IsPartition n lam) {r j : Nat} (hr : r < dimOf lam) (hj : j < dimOf lam) :
    cgPhi eig n lam [n] lam r 0 j 0 = if j = r then cgsg eig n lam else 0 := by
  induction n, hn using Nat.le_induction generalizing lam r j with
  | base =>
    obtain rfl := isPartition_one hl
    rw [dimOf_one] at hr hj
    rw [if_pos (by omega), cgsg_one he]
    rfl
  | succ n hn ih =>
    have ha := isPartition_row (n := n + 1) (by omega)
    have hk : kronN (n + 1) lam [n + 1] lam = 1 := by rw [kronN_swap12, kronN_row (by omega) hl hl, if_pos rfl]
    have hI := inv_cgPhi he hn
    have hK : ∀ mu ∈ subs lam, kmul n lam [n + 1] mu = 1 := fun mu hmu => kmul_one_right hn hl ha (chi_row_sq (by omega)) hl hk hmu
    have hpsi : ∀ mu ∈ subs lam, ∀ t < dimOf mu, ∀ j < dimOf lam,
        usg eig (topc lam mu) * psi n (cgPhi eig n) lam [n + 1] mu t 0 j 0 = if j = offOf (subs lam) mu + t then cgsg eig (n + 1) lam else 0 := by
      intro mu hmu t ht j hj
      obtain ⟨⟨e2, e1⟩, h1, h2, h3⟩ := psi_one (Φ := cgPhi eig n) (hK mu hmu)
      obtain ⟨he2, he1⟩ := mem_sprs.1 h1
      simp only at he1 he2 h2 h3
      rw [subs_row hn, List.mem_singleton] at he1
      subst he1
      have hm := sub_part hl mu hmu
      rw [kronN_swap12, kronN_row hn (sub_part hl e2 he2) hm] at h2
      obtain rfl : e2 = mu := by by_contra hne; rw [if_neg hne] at h2; omega
      rw [h3, cgsg_add hl hmu]
      unfold embP
      simp only
      have hB : InBlk (subs [n + 1]) [n] 0 := by
        unfold InBlk
        rw [subs_row hn, dimOf_row hn]
        simp [offOf]
      by_cases hj' : InBlk (subs lam) e2 j
      · rw [if_pos ⟨hj', hB⟩]
        have e0 : 0 - offOf (subs [n + 1]) [n] = 0 := by omega
        unfold InBlk at hj'
        rw [e0, ih hm ht (by omega), mul_ite, mul_zero]
        by_cases e : j = offOf (subs lam) e2 + t
        · rw [if_pos e, if_pos (by omega)]
        · rw [if_neg e, if_neg (by omega)]
      · rw [if_neg fun h => hj' h.1, mul_zero, if_neg]
        rintro rfl
        exact hj' ((InBlk_off hn hl hmu hmu ht).2 rfl)
    obtain ⟨mu, hmu, t, ht, rfl⟩ := exists_block hn hl hr
    obtain ⟨m, rfl⟩ : ∃ m, n = m + 1 := ⟨n - 1, by omega⟩
    rw [show cgPhi eig (m + 1 + 1) = nextPhi eig (m + 1) (cgPhi eig (m + 1)) from rfl, nextPhi_off hmu ht,
      nextB_one hI he hn hl ha hl hmu hk (hK mu hmu), hpsi mu hmu t ht j hj]
    have hX : ∀ mu, ∃ x : XI lam [m + 1 + 1], mu ∈ subs lam → (fstIx x : Nat) = offOf (subs lam) mu ∧ (sndIx x : Nat) = 0 := by
      intro mu
      by_cases hmu : mu ∈ subs lam
      · obtain ⟨x, hx⟩ := exists_XI (a := lam) (b := [m + 1 + 1]) (i := offOf (subs lam) mu) (j := 0)
          (by have := block_lt hn hl hmu (dimOf_pos hn (sub_part hl mu hmu)); simpa using this) (by rw [dimOf_row (by omega)]; omega)
        exact ⟨x, fun _ => hx⟩
      · obtain ⟨x, -⟩ := exists_XI (a := lam) (b := [m + 1 + 1]) (dimOf_pos (by omega) hl) (dimOf_pos (by omega) ha)
        exact ⟨x, fun h => absurd h hmu⟩
    choose X hX using hX
    refine Gm_one_of hI he hn hl ha hl hk hK (cgsg_sq he (m + 1 + 1) lam) X (fun mu hmu x => ?_) (fun mu hmu => ?_) hmu
    · have h0 : (sndIx x : Nat) = 0 := by
        have := (sndIx (a := (irrOf lam).d) (b := (irrOf [m + 1 + 1]).d) x).2
        have h1 : (irrOf [m + 1 + 1]).d = 1 := dimOf_row (by omega)
        omega
      have := hpsi mu hmu 0 (dimOf_pos hn (sub_part hl mu hmu)) (fstIx x) (fstIx (a := (irrOf lam).d) (b := (irrOf [m + 1 + 1]).d) x).2
      rw [h0, this]
      refine if_congr ?_ rfl rfl
      constructor
      · intro h; exact fuse_ext (by rw [(hX mu hmu).1, h, add_zero]) (by rw [h0, (hX mu hmu).2])
      · rintro rfl; rw [(hX mu hmu).1, add_zero]
    · unfold pm Am
      rw [(hX mu hmu).1, (hX mu hmu).2, (hX _ (mu0_mem hn hl)).1, (hX _ (mu0_mem hn hl)).2, mu0_off (mu0_mem hn hl), evalN_row (by omega), mul_one]

end

end Snob
