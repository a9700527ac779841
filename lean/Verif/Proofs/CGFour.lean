import Verif.Proofs.CGSmall

/-! # Four letters: the sign of a block is left to the eigensolver -/

namespace Snob

open Matrix IP
open scoped Nat

/-! ## Multiplicities -/

theorem sum_Wd {n : Nat} {p : List Nat} (hp : IsPartition n p) (f : List Nat → ℝ) : ∑ u : Wd n p, f u.1 = ((words n p).map f).sum := by
  rw [← List.sum_toFinset _ (words_nodup hp)]
  exact (Finset.sum_subtype _ (fun x => List.mem_toFinset) f).symm

theorem chi_adj0 {n : Nat} {p : List Nat} (hp : IsPartition n p) (hn : 1 < n) :
    chi hp (adj n 0) = ((words n p).map fun u => 1 / ((contW u 2 - contW u 1 : Int) : ℝ)).sum := by
  rw [← sum_Wd hp fun u => 1 / ((contW u 2 - contW u 1 : Int) : ℝ)]
  unfold chi Matrix.trace
  rw [rho_adj hp (by omega)]
  refine Finset.sum_congr rfl fun u _ => ?_
  rw [Matrix.diag_apply]
  unfold yorM
  rw [if_pos rfl]
  rfl

/-- a product with a linear character is irreducible -/
theorem chi_lin {n : Nat} {a b x : List Nat} (ha : IsPartition n a) (hb : IsPartition n b) (hx : IsPartition n x)
    (h1 : ∀ σ, chi ha σ * chi ha σ = 1) (hk : kronN n a b x ≠ 0) (σ : Equiv.Perm (Fin n)) : chi hx σ = chi ha σ * chi hb σ := by
  have h := kron_sq_sum ha hb h1
  have hle := kron_le_of_sq ha hb hx h1
  have hk' : kronN n a b x = 1 := by omega
  have h0 : ∀ y : Pt n, y ≠ ⟨x, hx⟩ → kronN n a b y.1 = 0 := by
    intro y hy
    have := Finset.add_le_sum (f := fun y : Pt n => kronN n a b y.1 * kronN n a b y.1) (fun _ _ => Nat.zero_le _)
      (Finset.mem_univ y) (Finset.mem_univ (⟨x, hx⟩ : Pt n)) hy
    rw [h] at this
    dsimp only at this
    rw [hk'] at this
    have : kronN n a b y.1 * kronN n a b y.1 = 0 := by omega
    simpa using this
  rw [← sum_kron_chi ha hb σ, Finset.sum_eq_single (⟨x, hx⟩ : Pt n), hk', Nat.cast_one, one_mul]
  · intro y _ hy
    rw [h0 y hy]; simp
  · simp

theorem p2 : IsPartition 2 [2] := (mem_partitions 2 (by omega) _).1 (by decide)
theorem p11 : IsPartition 2 [1, 1] := (mem_partitions 2 (by omega) _).1 (by decide)
theorem p3 : IsPartition 3 [3] := (mem_partitions 3 (by omega) _).1 (by decide)
theorem p21 : IsPartition 3 [2, 1] := (mem_partitions 3 (by omega) _).1 (by decide)
theorem p111 : IsPartition 3 [1, 1, 1] := (mem_partitions 3 (by omega) _).1 (by decide)
theorem p31 : IsPartition 4 [3, 1] := (mem_partitions 4 (by omega) _).1 (by decide)
theorem p211 : IsPartition 4 [2, 1, 1] := (mem_partitions 4 (by omega) _).1 (by decide)
theorem p1111 : IsPartition 4 [1, 1, 1, 1] := (mem_partitions 4 (by omega) _).1 (by decide)

theorem kron2_le {a b c : List Nat} (ha : IsPartition 2 a) (hb : IsPartition 2 b) (hc : IsPartition 2 c) : kronN 2 a b c ≤ 1 := by
  refine kron_le_of_sq ha hb hc ?_
  rcases part_two ha with rfl | rfl
  · exact chi_row_sq (by omega)
  · exact chi_col_sq (n := 2) (by omega)

theorem kron2_111 : kronN 2 [1, 1] [1, 1] [1, 1] = 0 := by
  by_contra h
  have := chi_lin p11 p11 p11 (chi_col_sq (n := 2) (by omega)) h (adj 2 0)
  rw [chi_col_sq (n := 2) (by omega), chi_adj0 p11 (by omega), show words 2 [1, 1] = [[1, 0]] by decide] at this
  rw [List.map_singleton, List.sum_singleton, show (contW [1, 0] 2 - contW [1, 0] 1 : Int) = -1 by decide] at this
  norm_num at this

theorem kron3_col : kronN 3 [2, 1] [2, 1] [1, 1, 1] = 1 := by
  have hs := chi_col_sq (n := 3) (by omega)
  obtain ⟨x, hx, hk⟩ := kron_one_exists p111 p21 hs
  have := chi_lin p111 p21 hx hs (by omega) 1
  rw [chi_id, chi_id, chi_id, show (words 3 [1, 1, 1]).length = 1 by decide, show (words 3 [2, 1]).length = 2 by decide] at this
  rcases part_three hx with rfl | rfl | rfl
  · rw [show (words 3 [3]).length = 1 by decide] at this; norm_num at this
  · rw [kronN_swap23, kronN_swap12]; exact hk
  · rw [show (words 3 [1, 1, 1]).length = 1 by decide] at this; norm_num at this

theorem sum_Pt3 (f : List Nat → Nat) : ∑ r : Pt 3, f r.1 = f [3] + f [2, 1] + f [1, 1, 1] := by
  have : ∑ r : Pt 3, f r.1 = ∑ x ∈ (IP.partitions 3).toFinset, f x :=
    (Finset.sum_subtype _ (fun x => by rw [List.mem_toFinset]; exact mem_partitions 3 (by omega) x) f).symm
  rw [this, List.sum_toFinset _ (partitions_nodup 3), show IP.partitions 3 = [[3], [2, 1], [1, 1, 1]] by decide]
  simp [add_assoc]

theorem kron3_std : kronN 3 [2, 1] [2, 1] [2, 1] = 1 := by
  have h := sum_kron_chi p21 p21 1
  simp only [chi_id] at h
  have h' : ∑ r : Pt 3, kronN 3 [2, 1] [2, 1] r.1 * (words 3 r.1).length = 4 := by
    have e : (words 3 [2, 1]).length = 2 := by decide
    rw [e] at h
    have : ((∑ r : Pt 3, kronN 3 [2, 1] [2, 1] r.1 * (words 3 r.1).length : Nat) : ℝ) = 4 := by
      push_cast
      rw [h]; norm_num
    exact_mod_cast this
  rw [sum_Pt3 fun r => kronN 3 [2, 1] [2, 1] r * (words 3 r).length, kron3_col, show (words 3 [2, 1]).length = 2 by decide,
    show (words 3 [3]).length = 1 by decide, show (words 3 [1, 1, 1]).length = 1 by decide, kronN_swap23 3 [2, 1] [2, 1] [3],
    kronN_swap12 3 [2, 1] [3] [2, 1], kronN_row (by omega) p21 p21, if_pos rfl] at h'
  omega

theorem kmul1_ne {a b mu : List Nat} (ha : IsPartition 2 a) (hb : IsPartition 2 b) (hm : IsPartition 1 mu) : kmul 1 a b mu ≠ 3 := by
  obtain rfl := isPartition_one hm
  have h1 : kronN 1 [1] [1] [1] = 1 := by rw [kronN_row le_rfl hm hm, if_pos rfl]
  have e : sprs a b = [([1], [1])] := by rcases part_two ha with rfl | rfl <;> rcases part_two hb with rfl | rfl <;> decide
  unfold kmul tot
  rw [e]
  simp [h1]

theorem kmul2_ne {a b mu : List Nat} (ha : IsPartition 3 a) (hb : IsPartition 3 b) (hm : IsPartition 2 mu) : kmul 2 a b mu ≠ 3 := by
  have r : ∀ {x y : List Nat}, IsPartition 2 x → IsPartition 2 y → kronN 2 [2] x y = if x = y then 1 else 0 := fun hx hy => kronN_row (by omega) hx hy
  by_cases h : a = [2, 1] ∧ b = [2, 1]
  · obtain ⟨rfl, rfl⟩ := h
    have e : sprs [2, 1] [2, 1] = [([2], [2]), ([2], [1, 1]), ([1, 1], [2]), ([1, 1], [1, 1])] := by decide
    have l := kron2_le p11 p11 hm
    unfold kmul tot
    rw [e]
    simp only [List.map_cons, List.map_nil, List.sum_cons, List.sum_nil]
    rw [r p2 hm, r p11 hm, kronN_swap12 2 [1, 1] [2] mu, r p11 hm]
    rcases part_two hm with rfl | rfl
    · simp; omega
    · rw [kron2_111]; simp
  · have hl : (sprs a b).length ≤ 2 := by
      rcases part_three ha with rfl | rfl | rfl <;> rcases part_three hb with rfl | rfl | rfl <;> first | (exact absurd ⟨rfl, rfl⟩ h) | decide
    have hle : kmul 2 a b mu ≤ (sprs a b).length := by
      unfold kmul tot
      have hq : ∀ e ∈ sprs a b, kronN 2 e.1 e.2 mu ≤ 1 := fun e he => by
        obtain ⟨h1, h2⟩ := mem_sprs.1 he
        exact kron2_le (sub_part ha _ h1) (sub_part hb _ h2) hm
      generalize sprs a b = L at hq
      induction L with
      | nil => simp
      | cons e L ih =>
        rw [List.map_cons, List.sum_cons, List.length_cons]
        have := hq e (by simp)
        have := ih fun e he => hq e (List.mem_cons_of_mem _ he)
        omega
    omega

theorem sprs_31 : sprs [3, 1] [3, 1] = [([3], [3]), ([3], [2, 1]), ([2, 1], [3]), ([2, 1], [2, 1])] := by decide

theorem kmul3_std : kmul 3 [3, 1] [3, 1] [2, 1] = 3 := by
  have r : ∀ {x : List Nat}, IsPartition 3 x → kronN 3 [3] x [2, 1] = if x = [2, 1] then 1 else 0 := fun hx => kronN_row (by omega) hx p21
  unfold kmul tot
  rw [sprs_31]
  simp only [List.map_cons, List.map_nil, List.sum_cons, List.sum_nil]
  rw [r p3, r p21, kronN_swap12 3 [2, 1] [3], r p21, kron3_std]
  simp

theorem kmul3_col : kmul 3 [3, 1] [3, 1] [1, 1, 1] = 1 := by
  have r : ∀ {x : List Nat}, IsPartition 3 x → kronN 3 [3] x [1, 1, 1] = if x = [1, 1, 1] then 1 else 0 := fun hx => kronN_row (by omega) hx p111
  unfold kmul tot
  rw [sprs_31]
  simp only [List.map_cons, List.map_nil, List.sum_cons, List.sum_nil]
  rw [r p3, r p21, kronN_swap12 3 [2, 1] [3], r p21, kron3_col]
  simp

theorem kron4_sign : kronN 4 [3, 1] [3, 1] [1, 1, 1, 1] = 0 := by
  by_contra h
  rw [kronN_swap23, kronN_swap12] at h
  have := chi_lin p1111 p31 p31 (chi_col_sq (n := 4) (by omega)) h (adj 4 0)
  rw [chi_adj0 p31 (by omega), chi_adj0 p1111 (by omega), show words 4 [1, 1, 1, 1] = [[3, 2, 1, 0]] by decide,
    show words 4 [3, 1] = [[1, 0, 0, 0], [0, 1, 0, 0], [0, 0, 1, 0]] by decide] at this
  simp only [List.map_cons, List.map_nil, List.sum_cons, List.sum_nil] at this
  rw [show (contW [3, 2, 1, 0] 2 - contW [3, 2, 1, 0] 1 : Int) = -1 by decide, show (contW [1, 0, 0, 0] 2 - contW [1, 0, 0, 0] 1 : Int) = 1 by decide,
    show (contW [0, 1, 0, 0] 2 - contW [0, 1, 0, 0] 1 : Int) = 1 by decide, show (contW [0, 0, 1, 0] 2 - contW [0, 0, 1, 0] 1 : Int) = -1 by decide] at this
  norm_num at this

theorem kron4_pos : 0 < kronN 4 [3, 1] [3, 1] [2, 1, 1] := by
  by_contra h0
  have h := kmul_eq (n := 3) (by omega) p31 p31 p111
  rw [kmul3_col] at h
  have : ∀ x : Pt 4, (if [1, 1, 1] ∈ subs x.1 then kronN 4 [3, 1] [3, 1] x.1 else 0) = 0 := by
    rintro ⟨x, hx⟩
    have hm := (mem_partitions 4 (by omega) x).2 hx
    rw [show IP.partitions 4 = [[4], [3, 1], [2, 2], [2, 1, 1], [1, 1, 1, 1]] by decide] at hm
    dsimp only
    simp only [List.mem_cons, List.not_mem_nil, or_false] at hm
    rcases hm with rfl | rfl | rfl | rfl | rfl
    · rw [if_neg (by decide)]
    · rw [if_neg (by decide)]
    · rw [if_neg (by decide)]
    · rw [if_pos (by decide)]; omega
    · rw [if_pos (by decide), kron4_sign]
  rw [Finset.sum_eq_zero fun x _ => this x] at h
  omega

/-! ## A solver with other signs -/

/-- the solver with the opposite eigenvectors for matrices with three rows -/
noncomputable def flip3 (eig : Eig) : Eig := fun k M => if k = 3 then (-(eig k M).1, (eig k M).2) else eig k M

theorem flip3_ok {eig : Eig} (he : EigOk eig) : EigOk (flip3 eig) := by
  intro k M hM
  obtain ⟨h1, h2⟩ := he k M hM
  unfold flip3
  split_ifs with h
  · dsimp only
    rw [Matrix.transpose_neg, Matrix.neg_mul, Matrix.mul_neg, neg_neg, Matrix.mul_neg, Matrix.neg_mul, h2]
    exact ⟨h1, rfl⟩
  · exact ⟨h1, h2⟩

section
variable {eig : Eig} {n : Nat} {Φ : Coef} {a b lam mu : List Nat}

theorem flip3_ne (h : kmul n a b mu ≠ 3) : flip3 eig _ (Mm n Φ a b mu) = eig _ (Mm n Φ a b mu) := by
  unfold flip3
  rw [if_neg h]

/-- the eigenvectors taken, from what the solver returns -/
theorem Sm_of (eig : Eig) : Sm eig n Φ a b lam mu = (fun (p : Matrix (Fin (kmul n a b mu)) (Fin (kmul n a b mu)) ℝ × (Fin (kmul n a b mu) → ℝ)) k
    (c : Fin (kronN (n + 1) a b lam)) =>
    if h : (c : Nat) < ((List.finRange (kmul n a b mu)).filter fun i => decide (¬ |p.2 i - (topc lam mu : ℝ)| > 0.001)).length then
      p.1 k (((List.finRange (kmul n a b mu)).filter fun i => decide (¬ |p.2 i - (topc lam mu : ℝ)| > 0.001))[(c : Nat)]) else 0) (eig _ (Mm n Φ a b mu)) := rfl

theorem Sm_flip_ne (h : kmul n a b mu ≠ 3) : Sm (flip3 eig) n Φ a b lam mu = Sm eig n Φ a b lam mu := by
  rw [Sm_of, Sm_of, flip3_ne h]

theorem Sm_flip (h : kmul n a b mu = 3) (k c) : Sm (flip3 eig) n Φ a b lam mu k c = - Sm eig n Φ a b lam mu k c := by
  have e : flip3 eig _ (Mm n Φ a b mu) = (-(eig _ (Mm n Φ a b mu)).1, (eig _ (Mm n Φ a b mu)).2) := by
    unfold flip3
    rw [if_pos h]
  rw [Sm_of, Sm_of, e]
  dsimp only
  split_ifs
  · rfl
  · rw [neg_zero]

theorem nextB_flip_ne (h0 : kmul n a b (mu0 lam) ≠ 3) (h : kmul n a b mu ≠ 3) (t c i j : Nat) :
    nextB (flip3 eig) n Φ a b lam mu t c i j = nextB eig n Φ a b lam mu t c i j := by
  unfold nextB Fm Gm Bm Tm
  rw [Sm_flip_ne h, Sm_flip_ne h0]

end

theorem flip3_next {eig : Eig} {n : Nat} {Φ : Coef} (hn : 1 ≤ n) (h : ∀ a b mu, IsPartition (n + 1) a → IsPartition (n + 1) b → IsPartition n mu → kmul n a b mu ≠ 3) :
    nextPhi (flip3 eig) n Φ = nextPhi eig n Φ := by
  funext a b lam r c i j
  have key : ∀ x ∈ rowsOf (subs lam), nextB (flip3 eig) n Φ a b lam x.1 x.2 c i j = nextB eig n Φ a b lam x.1 x.2 c i j := by
    intro x hx
    by_cases hp : IsPartition (n + 1) a ∧ IsPartition (n + 1) b ∧ IsPartition (n + 1) lam
    · obtain ⟨ha, hb, hl⟩ := hp
      have hx : x.1 ∈ subs lam := by
        unfold rowsOf at hx
        obtain ⟨m, hm, hm'⟩ := List.mem_flatMap.1 hx
        obtain ⟨t, -, rfl⟩ := List.mem_map.1 hm'
        exact hm
      exact nextB_flip_ne (h a b _ ha hb (sub_part hl _ (mu0_mem hn hl))) (h a b _ ha hb (sub_part hl _ hx)) _ _ _ _
    · have : kronN (n + 1) a b lam = 0 := by unfold kronN; rw [dif_neg hp]
      unfold nextB
      rw [dif_neg (by omega), dif_neg (by omega)]
  unfold nextPhi
  generalize hR : (rowsOf (subs lam))[r]? = o
  match o, hR with
  | none, _ => exact Eq.refl (0 : ℝ)
  | some x, hR => exact key x (List.mem_of_getElem? hR)

theorem flip3_three (eig : Eig) : cgPhi (flip3 eig) 3 = cgPhi eig 3 := by
  have e2 : cgPhi (flip3 eig) 2 = cgPhi eig 2 := flip3_next le_rfl fun a b mu => kmul1_ne
  show nextPhi (flip3 eig) 2 (cgPhi (flip3 eig) 2) = nextPhi eig 2 (cgPhi eig 2)
  rw [e2]
  exact flip3_next (by omega) fun a b mu => kmul2_ne

theorem dim21 : dimOf [2, 1] = 2 := by rw [dimOf_eq (n := 3) (by omega) p21]; decide

theorem off_111 : offOf (subs [2, 1, 1]) [1, 1, 1] = 2 := by
  unfold offOf
  rw [show (subs [2, 1, 1]).takeWhile (fun z => decide (z ≠ [1, 1, 1])) = [[2, 1]] by decide]
  simp [dim21]

theorem mu0_211 : mu0 [2, 1, 1] = [2, 1] := by unfold mu0; decide

theorem Am_four : Am 3 [2, 1, 1] [1, 1, 1] = 0 := by
  have h : dimOf [2, 1, 1] = 3 := by rw [dimOf_eq (n := 4) (by omega) p211]; decide
  have l0 : 0 < (irrOf [2, 1, 1]).d := by have : (irrOf [2, 1, 1]).d = 3 := h; omega
  have l2 : 2 < (irrOf [2, 1, 1]).d := by have : (irrOf [2, 1, 1]).d = 3 := h; omega
  unfold Am
  rw [off_111, evalN_rho (by omega) p211 _ ⟨2, l2⟩ ⟨0, l0⟩, rho_adj p211 (by omega)]
  have a2 := ct_eq (by omega) p211 ⟨0, l0⟩ 1
  have b2 := ct_eq (by omega) p211 ⟨2, l2⟩ 1
  have c0 : ct 4 [2, 1, 1] 0 1 = 1 := by unfold ct; decide
  have c2 : ct 4 [2, 1, 1] 2 1 = -1 := by unfold ct; decide
  rw [show ((⟨0, l0⟩ : Fin (irrOf [2, 1, 1]).d) : Nat) = 0 from rfl, c0] at a2
  rw [show ((⟨2, l2⟩ : Fin (irrOf [2, 1, 1]).d) : Nat) = 2 from rfl, c2] at b2
  unfold yorM
  rw [if_neg, if_neg]
  · intro h
    have := congrFun h 2
    rw [sw_ne _ (by omega) (by omega), ← a2, ← b2] at this
    omega
  · intro h
    rw [h, ← b2] at a2
    omega

/-- **four letters**: of a solver and the one with the other signs at most one gives coefficients that are compatible with the action -/
theorem not_equi_four {eig : Eig} (he : EigOk eig) : ¬ (EquiPhi 4 (cgPhi eig 4) ∧ EquiPhi 4 (cgPhi (flip3 eig) 4)) := by
  rintro ⟨h1, h2⟩
  have hI := inv_cgPhi he (n := 4) (by omega)
  have hk := kron4_pos
  obtain ⟨Φ, hΦ⟩ : ∃ Φ, Φ = cgPhi eig 3 := ⟨_, rfl⟩
  have e1 : cgPhi eig 4 = nextPhi eig 3 Φ := by rw [hΦ]; rfl
  have e2 : cgPhi (flip3 eig) 4 = nextPhi (flip3 eig) 3 Φ := by rw [hΦ, ← flip3_three]; rfl
  rw [e1] at h1 hI
  rw [e2] at h2
  have s0 : ([2, 1] : List Nat) ∈ subs [2, 1, 1] := by decide
  have s1 : ([1, 1, 1] : List Nat) ∈ subs [2, 1, 1] := by decide
  have d0 : 0 < dimOf [2, 1] := dimOf_pos (by omega) p21
  have d1 : 0 < dimOf [1, 1, 1] := dimOf_pos (by omega) p111
  have o0 : offOf (subs [2, 1, 1]) [2, 1] = 0 := by rw [← mu0_211]; exact mu0_off (by rw [mu0_211]; exact s0)
  have dl : dimOf [2, 1, 1] = 3 := by rw [dimOf_eq (n := 4) (by omega) p211]; decide
  have G0 : ∀ eig : Eig, Gm eig 3 Φ [3, 1] [3, 1] [2, 1, 1] [2, 1] = 1 := fun eig => by unfold Gm; rw [if_pos mu0_211.symm]
  have G1 : ∀ eig : Eig, Gm eig 3 Φ [3, 1] [3, 1] [2, 1, 1] [1, 1, 1] = 1 := fun eig => by
    unfold Gm
    rw [Am_four, if_neg (c := |(0 : ℝ)| > 0.0001) (by rw [abs_zero]; norm_num), ite_self]
  have r0 : ∀ i j, nextPhi (flip3 eig) 3 Φ [3, 1] [3, 1] [2, 1, 1] 0 0 i j = - nextPhi eig 3 Φ [3, 1] [3, 1] [2, 1, 1] 0 0 i j := by
    intro i j
    have := fun eig => nextPhi_off (eig := eig) (n := 3) (Φ := Φ) (a := [3, 1]) (b := [3, 1]) s0 d0 0 i j
    rw [o0] at this
    rw [this, this, nextB_lt hk, nextB_lt hk, ← Finset.sum_neg_distrib]
    refine Finset.sum_congr rfl fun k _ => ?_
    unfold Fm
    rw [G0, G0, Matrix.mul_one, Matrix.mul_one, Sm_flip kmul3_std]
    ring
  have r2 : ∀ i j, nextPhi (flip3 eig) 3 Φ [3, 1] [3, 1] [2, 1, 1] 2 0 i j = nextPhi eig 3 Φ [3, 1] [3, 1] [2, 1, 1] 2 0 i j := by
    intro i j
    have := fun eig => nextPhi_off (eig := eig) (n := 3) (Φ := Φ) (a := [3, 1]) (b := [3, 1]) s1 d1 0 i j
    rw [off_111] at this
    rw [this, this, nextB_lt hk, nextB_lt hk]
    refine Finset.sum_congr rfl fun k _ => ?_
    unfold Fm
    rw [G1, G1, Matrix.mul_one, Matrix.mul_one, Sm_flip_ne (by rw [kmul3_col]; omega)]
  have hz : ∀ x : XI [3, 1] [3, 1], nextPhi eig 3 Φ [3, 1] [3, 1] [2, 1, 1] 2 0 (fstIx x) (sndIx x) = 0 := by
    intro x
    have := zero_of_first (n := 4) (by omega) p211 (fun s => nextPhi eig 3 Φ [3, 1] [3, 1] [2, 1, 1] s 0 (fstIx x) (sndIx x) +
      nextPhi (flip3 eig) 3 Φ [3, 1] [3, 1] [2, 1, 1] s 0 (fstIx x) (sndIx x)) (fun σ => by
        simp only [mul_add, Finset.sum_add_distrib]
        rw [← h1.equi (by omega) p31 p31 p211 hk (by omega) σ x, ← h2.equi (by omega) p31 p31 p211 hk (by omega) σ x, ← Finset.sum_add_distrib]
        exact Finset.sum_eq_zero fun y _ => by rw [r0]; ring) (t := 2) (by omega)
    rw [r2] at this
    linarith
  have := hI.orth p31 p31 p211 p211 hk hk (r := 2) (s := 2) (by omega) (by omega)
  rw [Finset.sum_eq_zero fun x _ => by rw [hz, zero_mul], if_pos ⟨rfl, rfl, rfl⟩] at this
  norm_num at this

end Snob
