import Verif.Proofs.FourierOnGroup

/-!
C92: Fourier transforms on cyclic and dihedral groups and on products. C93: translations and inversion of transforms.
-/

namespace Snob.Props

open Snob FG Finset

theorem ent_mat {d : Nat} (T : CTensor) {a b : Nat} (ha : a < d) (hb : b < d) : ent T (a * d + b) = T.mat d ⟨a, ha⟩ ⟨b, hb⟩ := rfl

theorem hom_of_mat {d : Nat} {X Y Z : CTensor} (h : Z.mat d = X.mat d * Y.mat d) {a b : Nat} (ha : a < d) (hb : b < d) :
    ent Z (a * d + b) = ∑ r ∈ range d, ent X (a * d + r) * ent Y (r * d + b) := by
  rw [ent_mat Z ha hb, h, Matrix.mul_apply, Finset.sum_range]
  rfl

theorem ent_cyc (n : Nat) (k i : Int) : ent (cyclicIrrepAt n k i) 0 = om n ^ (k * i) := by
  simpa [ent, cyclicIrrepAt] using cos_sin n k i

theorem cyclic_repsOf (n : Nat) [NeZero n] : RepsOf (cyclicGroup n) (cycEquiv n) (cycRep n) (cyclicReps n) where
  pos i _ := le_refl _
  at_elem i _ k := by
    have h1 := (cyclic_implements n).element k
    have h2 : (⟨n, ((k : Nat) : Int)⟩ : CycElem) = cycRep n (cycEquiv n k) := Option.some.inj h1
    rw [← h2]
    rfl
  sq i _ x := ⟨rfl, rfl⟩
  hom i _ x y a ha b hb := by
    refine hom_of_mat (d := 1) ?_ ha hb
    have hn : 1 ≤ n := Nat.one_le_iff_ne_zero.2 (NeZero.ne n)
    exact (C51_irreps n hn).2.2.1 i _ _ _ ((cycValid_iff n _).2 ⟨x, rfl⟩) ((cycValid_iff n _).2 ⟨y, rfl⟩)
      ((cyclic_implements n).mul x y)
  inv i _ x a ha b hb := by
    obtain rfl : a = 0 := Nat.lt_one_iff.1 ha
    obtain rfl : b = 0 := Nat.lt_one_iff.1 hb
    have h1 : ∀ y, ent ((cyclicReps n).elem i (cycRep n y)) (0 * (cyclicReps n).dim i + 0) = om n ^ ((i : Int) * (Multiplicative.toAdd y).val) := by
      intro y
      exact ent_cyc n i (Multiplicative.toAdd y).val
    rw [h1, h1, conj_om, ← mul_neg]
    refine om_congr_mul (NeZero.ne n) ?_
    push_cast
    simp

theorem cyclic_kernel (n : Nat) (hn : 1 ≤ n) : Kernel (cyclicReps n) n := by
  intro j hj k hk
  have hn0 : (n : ℂ) ≠ 0 := by exact_mod_cast (by omega : n ≠ 0)
  have e1 : ∀ i ∈ range (cyclicReps n).count.toNat, (∑ e ∈ range ((cyclicReps n).dim i * (cyclicReps n).dim i),
      ent ((cyclicReps n).at' i k) e * (starRingEnd ℂ) (ent ((cyclicReps n).at' i j) e)) * (((cyclicReps n).dim i : ℂ) / n) =
      om n ^ (((k : Int) - j) * (i : Int)) * (1 / n) := by
    intro i _
    have a1 := ent_cyc n i k
    have a2 := ent_cyc n i j
    simp only [cyclicReps, mul_one, range_one, sum_singleton, a1, a2, conj_om, Nat.cast_one]
    rw [← zpow_add₀ (om_ne_zero n)]
    congr 2
    ring
  rw [sum_congr rfl e1, ← sum_mul]
  have : (cyclicReps n).count.toNat = n := by simp [cyclicReps, cyclicIrreps]
  rw [this, sum_om_ne hn (by omega) (by omega)]
  by_cases h : j = k
  · subst h
    simp [hn0]
  · rw [if_neg (by omega), if_neg h, zero_mul]

/-! ### Dihedral groups with an odd number of rotations -/

theorem dih_count {n : Nat} (hn : n % 2 = 1) : (dihReps n).count.toNat = (n - 1) / 2 + 2 := by
  have h1 : Int.tmod n 2 ≠ 0 := by rw [Int.tmod_eq_emod_of_nonneg (by omega)]; omega
  have hdv' : Int.tdiv ((n : Int) - 1) 2 = ((n : Int) - 1) / 2 := Int.tdiv_eq_ediv_of_nonneg (by omega)
  show (dihIrreps n).toNat = _
  rw [dihIrreps, if_neg h1, hdv']
  omega

theorem dih_good {n : Nat} (hn : n % 2 = 1) {i : Nat} (hi : i < (dihReps n).count.toNat) : GoodIrrep n i := by
  refine ⟨by omega, ?_, by omega⟩
  have : (i : Int) < (dihReps n).count := by omega
  exact this

theorem index_r {n : Nat} (i : ZMod n) : (dihRep n (.r i)).index = (i.val : Int) := by simp [dihRep, DihElem.index]

theorem index_sr {n : Nat} (i : ZMod n) : (dihRep n (.sr i)).index = (n : Int) + ((-i).val : Int) := by
  simp [dihRep, DihElem.index]

theorem dih_repsOf (n : Nat) [NeZero n] (hn : n % 2 = 1) : RepsOf (dihedralGroup n) (dihEquiv n) (dihRep n) (dihReps n) where
  pos i hi := by
    show 1 ≤ dihDim n i
    unfold dihDim
    split_ifs <;> omega
  at_elem i _ k := by
    show dihIrrepAt n i _ = dihIrrepAt n i _
    congr 1
    have h1 := (dihedral_implements n).index (dihEquiv n k)
    rw [Equiv.symm_apply_apply] at h1
    have h2 : (dihRep n (dihEquiv n k)).i + n * (if (dihRep n (dihEquiv n k)).s = -1 then 1 else 0) = ((k : Nat) : Int) := Option.some.inj h1
    rw [← h2]
    rcases dihEquiv n k with x | x
    · simp [dihRep, DihElem.index]
    · simp [dihRep, DihElem.index, add_comm]
  sq i hi x := (C53_irreps_partial n (by omega) i (dih_good hn hi)).1 _ ((dihValid_iff n _).2 ⟨x, rfl⟩)
  hom i hi x y a ha b hb := by
    refine hom_of_mat ?_ ha hb
    exact (C53_irreps_partial n (by omega) i (dih_good hn hi)).2.2 _ _ _ ((dihValid_iff n _).2 ⟨x, rfl⟩)
      ((dihValid_iff n _).2 ⟨y, rfl⟩) ((dihedral_implements n).mul x y)
  inv i hi x a ha b hb := by
    have hn0 : n ≠ 0 := NeZero.ne n
    have hlt : ∀ z : ZMod n, (z.val : Int) < n := fun z => by exact_mod_cast ZMod.val_lt z
    have hidx : ∀ z : DihedralGroup n, (dihReps n).elem i (dihRep n z) = dihIrrepAt n i (dihRep n z).index := fun _ => rfl
    rcases classify (by omega) (dih_good hn hi) with ⟨q, ε, h, -⟩ | ⟨p, h, -⟩
    · have hd : (dihReps n).dim i = 1 := h.1
      rw [hd] at ha hb ⊢
      obtain rfl : a = 0 := Nat.lt_one_iff.1 ha
      obtain rfl : b = 0 := Nat.lt_one_iff.1 hb
      have hε : (starRingEnd ℂ) ε = ε := by rcases h.2.2.2.2.1 with rfl | rfl <;> simp
      have hq : q = 0 := by
        obtain ⟨c, hc⟩ := h.2.1
        have h0 := h.2.2.1
        have h1 := h.2.2.2.1
        have h2 : (0 : Int) < n := by omega
        have : c = 0 ∨ c = 1 := by
          have : 0 ≤ c := by nlinarith
          have : c ≤ 1 := by nlinarith
          omega
        rcases this with rfl | rfl <;> omega
      have hv : ∀ i' : Int, 0 ≤ i' → dihIrrepAt n i i' = ⟨[1], [if i' < n then 1 else ε]⟩ := by
        intro i' hi'
        rw [h.2.2.2.2.2 i' hi', hq]
        simp
      rw [hidx, hidx]
      rcases x with z | z
      · rw [DihedralGroup.inv_r, index_r, index_r, hv _ (by positivity), hv _ (by positivity),
          if_pos (hlt _), if_pos (hlt _)]
        simp [ent]
      · rw [DihedralGroup.inv_sr, index_sr, hv _ (by positivity), if_neg (by omega)]
        simp [ent, hε]
    · have hd : (dihReps n).dim i = 2 := h.1
      rw [hd] at ha hb ⊢
      have hv := h.2.2.2
      rw [hidx, hidx]
      rcases x with z | z
      · rw [DihedralGroup.inv_r, index_r, index_r, hv, hv, if_pos (hlt _), if_pos (hlt _)]
        have c1 : om n ^ (p * ((-z).val : Int)) = om n ^ (-(p * (z.val : Int))) := by
          rw [← mul_neg]
          exact om_congr_mul hn0 (by push_cast; simp)
        have c2 : om n ^ (-(p * ((-z).val : Int))) = om n ^ (p * (z.val : Int)) := by
          rw [← mul_neg]
          exact om_congr_mul hn0 (by push_cast; simp)
        rw [c1, c2]
        have : a = 0 ∨ a = 1 := by omega
        have : b = 0 ∨ b = 1 := by omega
        rcases ‹a = 0 ∨ a = 1› with rfl | rfl <;> rcases ‹b = 0 ∨ b = 1› with rfl | rfl <;> simp [ent, -map_zpow₀, conj_om]
      · rw [DihedralGroup.inv_sr, index_sr, hv, if_neg (by omega)]
        have : a = 0 ∨ a = 1 := by omega
        have : b = 0 ∨ b = 1 := by omega
        rcases ‹a = 0 ∨ a = 1› with rfl | rfl <;> rcases ‹b = 0 ∨ b = 1› with rfl | rfl <;> simp [ent, -map_zpow₀, conj_om]

theorem sum_halves (m : Nat) (a : Int) :
    ∑ p ∈ range (2 * m + 1), om (2 * m + 1) ^ (a * (p : Int)) =
      1 + ∑ p ∈ range m, (om (2 * m + 1) ^ (a * ((p : Int) + 1)) + om (2 * m + 1) ^ (-(a * ((p : Int) + 1)))) := by
  rw [sum_range_succ']
  have h1 : ∑ p ∈ range (2 * m), om (2 * m + 1) ^ (a * ((p + 1 : Nat) : Int)) =
      ∑ p ∈ range m, om (2 * m + 1) ^ (a * ((p : Int) + 1)) + ∑ p ∈ range m, om (2 * m + 1) ^ (-(a * ((p : Int) + 1))) := by
    rw [two_mul m, sum_range_add]
    congr 1
    rw [← sum_range_reflect]
    refine sum_congr rfl fun p hp => ?_
    have hp' := mem_range.1 hp
    rw [← two_mul m, ← mul_neg]
    refine om_congr_mul (by omega) ?_
    have e : ((m + (m - 1 - p) + 1 : Nat) : Int) = ((2 * m + 1 : Nat) : Int) + -((p : Int) + 1) := by omega
    rw [e, Int.cast_add, Int.cast_natCast, ZMod.natCast_self, zero_add]
  rw [h1, sum_add_distrib]
  simp only [Nat.cast_zero, mul_zero, zpow_zero]
  ring

theorem dih_kernel (n : Nat) (hn : n % 2 = 1) : Kernel (dihReps n) (2 * n) := by
  obtain ⟨m, rfl⟩ : ∃ m, n = 2 * m + 1 := ⟨n / 2, by omega⟩
  intro j hj k hk
  have om0 := om_ne_zero (2 * m + 1)
  have hc : (dihReps (2 * m + 1)).count.toNat = m + 2 := by rw [dih_count hn]; omega
  rw [hc, sum_range_succ', sum_range_succ']
  set n := 2 * m + 1 with hnd
  have hN : ((2 * n : Nat) : ℂ) ≠ 0 := by exact_mod_cast (by omega : 2 * n ≠ 0)
  have d0 : (dihReps n).dim ((0 : Nat) : Int) = 1 := by
    show dihDim n _ = 1
    unfold dihDim
    rw [if_pos]; split_ifs <;> decide
  have d1 : (dihReps n).dim ((0 + 1 : Nat) : Int) = 1 := by
    show dihDim n _ = 1
    unfold dihDim
    rw [if_pos]; split_ifs <;> decide
  have a0 : ∀ i : Nat, ent ((dihReps n).at' ((0 : Nat) : Int) i) 0 = 1 := by
    intro i
    show ent (dihIrrepAt n ((0 : Nat) : Int) i) 0 = 1
    rw [dihIrrepAt, if_pos (by simp)]
    simp [ent]
  have a1 : ∀ i : Nat, ent ((dihReps n).at' ((0 + 1 : Nat) : Int) i) 0 = if i < n then 1 else -1 := by
    intro i
    show ent (dihIrrepAt n ((0 + 1 : Nat) : Int) i) 0 = _
    rw [dihIrrepAt, if_neg (by decide), if_pos (by simp)]
    by_cases h : i < n
    · simp [ent, h, show ¬ n ≤ i by omega]
    · simp [ent, h, show n ≤ i by omega]; norm_num
  have a2 : ∀ p ∈ range m, (∑ e ∈ range ((dihReps n).dim ((p + 1 + 1 : Nat) : Int) * (dihReps n).dim ((p + 1 + 1 : Nat) : Int)),
      ent ((dihReps n).at' ((p + 1 + 1 : Nat) : Int) k) e * (starRingEnd ℂ) (ent ((dihReps n).at' ((p + 1 + 1 : Nat) : Int) j) e)) *
        (((dihReps n).dim ((p + 1 + 1 : Nat) : Int) : ℂ) / ((2 * n : Nat) : ℂ)) =
      (if (j < n ↔ k < n) then om n ^ (((k : Int) - j) * ((p : Int) + 1)) + om n ^ (-(((k : Int) - j) * ((p : Int) + 1))) else 0) * (2 / ((2 * n : Nat) : ℂ)) := by
    intro p hp
    have hp' := mem_range.1 hp
    have hg : GoodIrrep n ((p + 1 + 1 : Nat) : Int) := dih_good hn (by rw [hc]; omega)
    rcases classify (by omega) hg with ⟨q, ε, h, hh⟩ | ⟨q, h, hh⟩
    · exfalso
      have : n % 2 = 1 := hn
      omega
    · have hd : (dihReps n).dim ((p + 1 + 1 : Nat) : Int) = 2 := h.1
      have hq : q = (p : Int) + 1 := by
        rw [if_neg (by omega)] at hh
        push_cast at hh
        omega
      have hat : ∀ i : Nat, (dihReps n).at' ((p + 1 + 1 : Nat) : Int) i =
          if i < n then ⟨[2, 2], [om n ^ (q * i), 0, 0, om n ^ (-(q * i))]⟩
          else ⟨[2, 2], [0, om n ^ (q * i), om n ^ (-(q * i)), 0]⟩ := by
        intro i
        have := h.2.2.2 i
        simp only [Nat.cast_lt] at this
        exact this
      rw [hd, hat, hat]
      have s1 : om n ^ (q * (k : Int)) * om n ^ (-(q * (j : Int))) = om n ^ (((k : Int) - j) * ((p : Int) + 1)) := by
        rw [← zpow_add₀ om0, hq]; congr 1; ring
      have s2 : om n ^ (-(q * (k : Int))) * om n ^ (-(-(q * (j : Int)))) = om n ^ (-(((k : Int) - j) * ((p : Int) + 1))) := by
        rw [← zpow_add₀ om0, hq]; congr 1; ring
      rw [← s1, ← s2]
      congr 1
      by_cases hj' : j < n <;> by_cases hk' : k < n <;>
        simp [hj', hk', ent, sum_range_succ, -map_zpow₀, conj_om]
  rw [sum_congr rfl a2, ← sum_mul, d0, d1]
  simp only [mul_one, range_one, sum_singleton, a0, a1, map_one, Nat.cast_one]
  by_cases h : (j < n ↔ k < n)
  · simp only [h, if_true]
    have e1 := sum_halves m ((k : Int) - j)
    rw [← hnd, sum_om_ne (by omega) (by omega) (by omega)] at e1
    have e2 := eq_sub_of_add_eq' e1.symm
    rw [e2]
    have hs : (if k < n then (1 : ℂ) else -1) * (starRingEnd ℂ) (if k < n then (1 : ℂ) else -1) = 1 := by
      split_ifs <;> simp
    rw [hs]
    by_cases hjk : j = k
    · subst hjk
      push_cast at hN ⊢
      simp only [sub_self, if_true]
      have hN' : (n : ℂ) ≠ 0 := fun hh => hN (by rw [hh, mul_zero])
      have hcj : (starRingEnd ℂ) 1 = 1 := map_one _
      field_simp
      ring
    · rw [if_neg (by omega), if_neg hjk]
      field_simp
      ring
  · have hjk : j ≠ k := fun hh => h (by rw [hh])
    simp only [h, if_false, sum_const_zero, zero_mul, hjk]
    have hs : (if k < n then (1 : ℂ) else -1) * (starRingEnd ℂ) (if j < n then (1 : ℂ) else -1) = -1 := by
      by_cases hj' : j < n <;> by_cases hk' : k < n <;> simp [hj', hk'] <;> exact absurd (by simp [hj', hk']) h
    rw [hs]
    ring

/-! ## C92 -/

/-- **C92.** Full statement: on every group class of the library, every function has a Fourier transform and comes back from it.
This is false (`C92_dihedral_even_fails`, `C92_product_fails`). What holds: it is true of the cyclic groups, and of the dihedral
groups with an odd number of rotations. -/
theorem C92_inversion_partial (n : Nat) (hn : 1 ≤ n) :
    Inverts (cyclicReps n) (cyclicGroup n).size ∧ (n % 2 = 1 → Inverts (dihReps n) (dihedralGroup n).size) := by
  have : NeZero n := ⟨by omega⟩
  exact ⟨fun f hf => inversion (cyclic_repsOf n).sized (cyclic_kernel n hn) hf,
    fun h f hf => inversion (dih_repsOf n h).sized (dih_kernel n h) hf⟩

/-- **C92 (negation).** On a dihedral group with an even number of rotations no function has a transform: the assertion that
the matrices have as many entries as the part fails. -/
theorem C92_dihedral_even_fails (n : Nat) (hn : 1 ≤ n) (h2 : n % 2 = 0) (f : Cells ℂ) :
    fourier (dihReps n) (dihedralGroup n).size f = none ∧ ¬ Inverts (dihReps n) (dihedralGroup n).size := by
  have key : ∀ f : Cells ℂ, fourier (dihReps n) (dihedralGroup n).size f = none := by
    intro f
    by_contra hne
    obtain ⟨F, hF⟩ := Option.ne_none_iff_exists'.1 hne
    have hev : Int.tmod n 2 = 0 := by rw [Int.tmod_eq_emod_of_nonneg (by omega)]; omega
    have hdv : Int.tdiv n 2 = n / 2 := Int.tdiv_eq_ediv_of_nonneg (by omega)
    have hc : (dihReps n).count = n / 2 + 3 := by
      show dihIrreps n = _
      rw [dihIrreps, if_pos hev, hdv]
    unfold fourier at hF
    have hlen := forUp_pres (fun (j : Int) (_ : List CTensor) => j ≤ 3) (by omega : (0 : Int) ≤ (dihReps n).count) hF (by show (0 : Int) ≤ 3; decide) (by
      intro i l l' h0 h1 hi hb
      by_contra hcon
      have hi3 : i = 3 := by omega
      subst hi3
      have hd : (dihReps n).dim 3 = 1 := (C53_irrep_three n h2 ⟨0, 0, 0⟩).1
      simp only [hd, Option.bind_eq_bind, Option.bind_eq_some_iff] at hb
      obtain ⟨R, hR, -⟩ := hb
      have hlen := forUp_pres (fun (j : Int) (R : CTensor) => j ≤ 0 ∧ R.data.length = 1)
        (by omega : (0 : Int) ≤ ((dihedralGroup n).size : Int)) hR ⟨le_refl _, by simp⟩ (by
          intro j R R' g0 g1 ⟨gj, gl⟩ gb
          exfalso
          obtain ⟨v, -, hv⟩ := Option.bind_eq_some_iff.1 gb
          unfold CTensor.addScaled at hv
          split_ifs at hv with hl
          rw [gl] at hl
          have : ((dihReps n).at' 3 j).data.length = 4 := by
            show (dihIrrepAt n 3 j).data.length = 4
            rw [dihIrrepAt, if_neg (by decide), if_neg (by decide), if_neg (by simp)]
            simp only
            split_ifs <;> rfl
          omega)
      have : (dihedralGroup n).size = 2 * n := rfl
      omega)
    omega
  refine ⟨key f, fun h => ?_⟩
  obtain ⟨F, hF, -⟩ := h (List.replicate (dihedralGroup n).size (some 0)) ⟨by simp, fun c hc => by rw [List.eq_of_mem_replicate hc]; rfl⟩
  rw [key] at hF
  cases hF

/-- **C92 (negation).** On a product of two groups the function that comes back from the transform is zero, whatever it was. -/
theorem C92_product_fails {E₁ E₂ : Type} (P₁ : Irreps E₁) (P₂ : Irreps E₂) (N : Nat) (f : Cells ℂ) (hf : Written N f) :
    (fourier (productReps P₁ P₂) N f).bind (iFourier (productReps P₁ P₂) N) = some (List.replicate N (some 0)) ∧
      (1 ≤ N → ¬ Inverts (productReps P₁ P₂) N) := by
  have hP : Sized (productReps P₁ P₂) N := fun i hi j hj => by simp [productReps, productIrrepAt]
  have hz : ∀ i j e, ent ((productReps P₁ P₂).at' i j) e = 0 := by
    intro i j e
    simp only [ent, productReps, productIrrepAt, List.getD_eq_getElem?_getD, List.getElem?_replicate]
    split_ifs <;> rfl
  have key : ∀ f : Cells ℂ, Written N f →
      (fourier (productReps P₁ P₂) N f).bind (iFourier (productReps P₁ P₂) N) = some (List.replicate N (some 0)) := by
    intro f hf
    rw [fourier_eq hP (F := fun k => (f.getD k none).getD 0) (fun j hj => by
      have hj' : j < f.length := by rw [hf.1]; exact hj
      obtain ⟨v, hv⟩ := Option.isSome_iff_exists.1 (hf.2 f[j] (List.getElem_mem hj'))
      rw [rdC_ofNat]
      simp [hj', hv]), Option.bind_some,
      iFourier_eq hP _ (fun _ _ => 0) (fun i hi => ⟨⟨[(productReps P₁ P₂).dim i, (productReps P₁ P₂).dim i],
        (List.range ((productReps P₁ P₂).dim i * (productReps P₁ P₂).dim i)).map fun _ => 0⟩, by
          have : coef (productReps P₁ P₂) N (fun k => (f.getD k none).getD 0) i = fun _ => 0 := by
            funext e
            simp [coef, hz]
          simp only [parts, List.getElem?_map, List.getElem?_range hi, Option.map_some, this], rfl⟩)]
    congr 1
    refine List.ext_getElem (by simp) fun k h1 h2 => ?_
    simp [term]
  refine ⟨key f hf, fun hN h => ?_⟩
  have hw : Written N (List.replicate N (some (1 : ℂ))) := ⟨by simp, fun c hc => by rw [List.eq_of_mem_replicate hc]; rfl⟩
  obtain ⟨F, h1, h2⟩ := h _ hw
  have h3 := key _ hw
  rw [h1, Option.bind_some, h2] at h3
  have h4 := congrArg (fun l : List (Option ℂ) => l[0]?) (Option.some.inj h3)
  simp [show 0 < N by omega] at h4

/-- The function on the cyclic group of order 2 with values 1, 2 has the transform 3, -1. -/
example : (fourier (cyclicReps 2) 2 [some 1, some 2]).map (List.map CTensor.data) = some [[3], [-1]] := by
  have : NeZero 2 := ⟨by decide⟩
  rw [fourier_eq (N := 2) (cyclic_repsOf 2).sized (F := fun j => (j : ℂ) + 1) (fun j hj => by
    have : j = 0 ∨ j = 1 := by have : j < 2 := hj; omega
    rcases this with rfl | rfl <;> simp [rdC] <;> norm_num)]
  have hc : (cyclicReps 2).count.toNat = 2 := rfl
  have hd : ∀ i, (cyclicReps 2).dim i = 1 := fun _ => rfl
  have e : ∀ i j : Int, ent ((cyclicReps 2).at' i j) 0 = om 2 ^ (i * j) := ent_cyc 2
  have h1 : om 2 = -1 := by simpa using om_half 1 (le_refl _)
  simp [parts, hc, hd, coef, e, List.range_succ, sum_range_succ, h1]
  norm_num

/-- The functions on the symmetries of a triangle are covered. -/
example : Inverts (dihReps 3) 6 ∧ ¬ Inverts (dihReps 4) 8 :=
  ⟨(C92_inversion_partial 3 (by decide)).2 rfl, (C92_dihedral_even_fails 4 (by decide) rfl []).2⟩

/-! ## C93 -/

/-- **C93.** Full statement: on every group class of the library, `left(t)`, `right(t)` and `inv()` of a transform are what the
transform of `left_translate(t)`, `right_translate(t)` and `inv()` of the function is. This is false of `inv()` for functions
that are not real. What holds, on the cyclic groups and the dihedral groups with an odd number of rotations: the first two, and
the third for the functions with real values and for no others. (The dihedral groups with an even number of rotations and the
products have no transform worth the name, C92.) -/
theorem C93_translations_partial (n : Nat) (hn : 1 ≤ n) :
    (∀ f, Written (cyclicGroup n).size f →
      (∀ t, CycValid n t → Follows (cyclicReps n) (cyclicGroup n).size ((cyclicGroup n).leftTranslate · t) (fourierLeft (cyclicReps n) t) f ∧
        Follows (cyclicReps n) (cyclicGroup n).size ((cyclicGroup n).rightTranslate · t) (fourierRight (cyclicReps n) t) f) ∧
      (Follows (cyclicReps n) (cyclicGroup n).size (cyclicGroup n).invert (fourierInv (cyclicReps n)) f ↔ RealValued f)) ∧
    (n % 2 = 1 → ∀ f, Written (dihedralGroup n).size f →
      (∀ t, DihValid n t → Follows (dihReps n) (dihedralGroup n).size ((dihedralGroup n).leftTranslate · t) (fourierLeft (dihReps n) t) f ∧
        Follows (dihReps n) (dihedralGroup n).size ((dihedralGroup n).rightTranslate · t) (fourierRight (dihReps n) t) f) ∧
      (Follows (dihReps n) (dihedralGroup n).size (dihedralGroup n).invert (fourierInv (dihReps n)) f ↔ RealValued f)) := by
  have : NeZero n := ⟨by omega⟩
  constructor
  · intro f hf
    obtain ⟨g, rfl⟩ := (written_iff (e := cycEquiv n) f).1 hf
    refine ⟨fun t ht => ?_, inv_follows_iff (cyclic_implements n) (cyclic_repsOf n) (cyclic_kernel n hn) g⟩
    obtain ⟨x, rfl⟩ := (cycValid_iff n t).1 ht
    exact ⟨left_follows (cyclic_implements n) (cyclic_repsOf n) x g, right_follows (cyclic_implements n) (cyclic_repsOf n) x g⟩
  · intro h2 f hf
    obtain ⟨g, rfl⟩ := (written_iff (e := dihEquiv n) f).1 hf
    refine ⟨fun t ht => ?_, inv_follows_iff (dihedral_implements n) (dih_repsOf n h2) (dih_kernel n h2) g⟩
    obtain ⟨x, rfl⟩ := (dihValid_iff n t).1 ht
    exact ⟨left_follows (dihedral_implements n) (dih_repsOf n h2) x g, right_follows (dihedral_implements n) (dih_repsOf n h2) x g⟩

/-- **C93 (negation).** On every cyclic group there is a function whose inverted transform is not the transform of the inverted
function. -/
theorem C93_inv_fails (n : Nat) (hn : 1 ≤ n) :
    ∃ f, Written (cyclicGroup n).size f ∧
      ¬ Follows (cyclicReps n) (cyclicGroup n).size (cyclicGroup n).invert (fourierInv (cyclicReps n)) f := by
  have hs : (cyclicGroup n).size = n := rfl
  have hw : Written (cyclicGroup n).size (List.replicate n (some Complex.I)) :=
    ⟨by simp [hs], fun c hc => by rw [List.eq_of_mem_replicate hc]; rfl⟩
  refine ⟨_, hw, fun h => ?_⟩
  have h1 := (((C93_translations_partial n hn).1 _ hw).2.1 h) Complex.I (by simp; omega)
  simp at h1

/-- A function on the symmetries of a triangle that is not real, and one that is. -/
example : ¬ Follows (dihReps 3) 6 (dihedralGroup 3).invert (fourierInv (dihReps 3)) (List.replicate 6 (some Complex.I)) ∧
    Follows (dihReps 3) 6 (dihedralGroup 3).invert (fourierInv (dihReps 3)) [some 1, some 2, some 3, some 4, some 5, some 6] := by
  have h := (C93_translations_partial 3 (by decide)).2 rfl
  refine ⟨fun hh => ?_, ?_⟩
  · have h1 := ((h _ ⟨by rfl, fun c hc => by rw [List.eq_of_mem_replicate hc]; rfl⟩).2.1 hh) Complex.I (by simp)
    simp at h1
  · refine (h _ ⟨by rfl, by simp⟩).2.2 ?_
    intro v hv
    simp at hv
    rcases hv with rfl | rfl | rfl | rfl | rfl | rfl <;> simp

end Snob.Props
