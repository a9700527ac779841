import Verif.Proofs.FFTLin
import Verif.Proofs.FFTLift
import Verif.Spec.Plancherel

/-! # The Fourier transform keeps inner products -/

namespace Snob

open IP Snob.Perm
open scoped Nat

/-- sums over the rows and columns of a part -/
theorem sum_idx (L : List (List Nat)) (hL : L.Nodup) (g : Nat → ℝ) :
    ∑ i ∈ Finset.range L.length, g i = ∑ u ∈ L.toFinset, g (L.idxOf u) := by
  symm
  refine Finset.sum_bij (fun u _ => L.idxOf u) (fun u hu => ?_) (fun u hu v _ h => ?_) (fun i hi => ?_) (fun _ _ => rfl)
  · exact Finset.mem_range.2 (List.idxOf_lt_length_of_mem (List.mem_toFinset.1 hu))
  · exact idxOf_inj (List.mem_toFinset.1 hu) h
  · have hi' := Finset.mem_range.1 hi
    exact ⟨L[i], List.mem_toFinset.2 (List.getElem_mem hi'), List.Nodup.idxOf_getElem hL i hi'⟩

theorem sum_rowIx {n : Nat} {p : List Nat} (hp : IsPartition n p) (g : Nat → ℝ) :
    ∑ i ∈ Finset.range (dimW n p), g i = ∑ u : Wd n p, g (rowIx n p u.1) := by
  unfold dimW rowIx
  rw [sum_idx _ (words_nodup hp) g]
  refine (Finset.sum_subtype (words n p).toFinset (fun x => List.mem_toFinset) fun u => g ((words n p).idxOf u))

theorem sum_colIx {m n : Nat} {p : List Nat} (hp : IsPartition n p) (g : Nat → ℝ) :
    ∑ k ∈ Finset.range (colW m n p).length, g k = ∑ w : Wd n p, if goodW m w.1 = true then g (colIx m n p w.1) else 0 := by
  unfold colIx
  rw [sum_idx (colW m n p) ((words_nodup hp).filter _) g]
  have e : (colW m n p).toFinset = (words n p).toFinset.filter fun w => goodW m w = true := by
    unfold colW
    rw [List.toFinset_filter]
  rw [e, Finset.sum_filter]
  exact Finset.sum_subtype (words n p).toFinset (fun x => List.mem_toFinset) fun u => if goodW m u = true then g ((colW m n p).idxOf u) else 0

/-- the inner product of the columns with `1..m` in the first row -/
noncomputable def goodDot (m : Nat) {n : Nat} {p : List Nat} (A B : Wd n p → Wd n p → ℝ) : ℝ :=
  ∑ w : Wd n p, if goodW m w.1 = true then ∑ u : Wd n p, A u w * B u w else 0

theorem FOk.dot {m n : Nat} (hn : 0 < n) {F G : (p : List Nat) → IsPartition n p → Wd n p → Wd n p → ℝ} {ws vs : List VPart}
    (h : FOk m n F ws) (h' : FOk m n G vs) :
    fourierDot ws vs = ∑ p : Pt n, if m ≤ row p.1 0 then (dimW n p.1 : ℝ) * goodDot m (F p.1 p.2) (G p.1 p.2) else 0 := by
  classical
  let g : List Nat → ℝ := fun p => if hp : IsPartition n p then (dimW n p : ℝ) * goodDot m (F p hp) (G p hp) else 0
  have e : List.zipWith (fun W V => (W.d : ℝ) * partDot W V) ws vs = (PL m n).map g := by
    refine List.ext_getElem? fun i => ?_
    rw [List.getElem?_zipWith, List.getElem?_map]
    cases hi : (PL m n)[i]? with
    | none =>
      have h1 : ws[i]? = none := by
        rw [List.getElem?_eq_none_iff] at hi ⊢
        rw [h.len]; exact hi
      rw [h1]; rfl
    | some p =>
      have hp := ((mem_PL hn _).1 (List.mem_of_getElem? hi)).1
      obtain ⟨W, a1, a2, a3, a4⟩ := h.part i p hp hi
      obtain ⟨V, b1, -, -, b4⟩ := h'.part i p hp hi
      rw [a1, b1]
      show some _ = some (g p)
      congr 1
      show _ = dite _ _ _
      rw [dif_pos hp]
      unfold partDot goodDot
      rw [a2, a3, sum_rowIx hp]
      congr 1
      rw [Finset.sum_congr rfl fun u _ => sum_colIx (m := m) hp fun k => W.data (rowIx n p u.1) k * V.data (rowIx n p u.1) k,
        Finset.sum_comm]
      refine Finset.sum_congr rfl fun w _ => ?_
      by_cases hw : goodW m w.1 = true
      · simp only [if_pos hw]
        exact Finset.sum_congr rfl fun u _ => by rw [a4 u w hw, b4 u w hw]
      · simp only [if_neg hw, Finset.sum_const_zero]
  unfold fourierDot
  rw [e, ← List.sum_toFinset g (PL_nodup m n), ← Finset.sum_filter]
  symm
  refine Finset.sum_bij (fun q _ => q.1) (fun q hq => ?_) (fun a _ b _ h => Subtype.ext h) (fun q hq => ?_) (fun q _ => ?_)
  · rw [List.mem_toFinset, mem_PL hn]
    exact ⟨q.2, (Finset.mem_filter.1 hq).2⟩
  · obtain ⟨h1, h2⟩ := (mem_PL hn q).1 (List.mem_toFinset.1 hq)
    exact ⟨⟨q, h1⟩, Finset.mem_filter.2 ⟨Finset.mem_univ _, h2⟩, rfl⟩
  · show _ = dite _ _ _
    rw [dif_pos q.2]

theorem sum_comm4 {ι κ : Type} [Fintype ι] [Fintype κ] (t : ι → ι → κ → κ → ℝ) :
    ∑ w, ∑ u, ∑ σ, ∑ τ, t w u σ τ = ∑ σ, ∑ τ, ∑ w, ∑ u, t w u σ τ := by
  have e1 : ∀ w, ∑ u, ∑ σ, ∑ τ, t w u σ τ = ∑ σ, ∑ τ, ∑ u, t w u σ τ := by
    intro w
    rw [Finset.sum_comm]
    exact Finset.sum_congr rfl fun σ _ => Finset.sum_comm
  simp only [e1]
  rw [Finset.sum_comm]
  exact Finset.sum_congr rfl fun σ _ => Finset.sum_comm

/-- the transform on the group keeps inner products -/
theorem plancherel_group {n : Nat} (f g : Equiv.Perm (Fin n) → ℝ) :
    ∑ p : Pt n, (dimW n p.1 : ℝ) * ∑ w : Wd n p.1, ∑ u, (∑ σ, f σ * rho p.2 σ⁻¹ u w) * (∑ τ, g τ * rho p.2 τ⁻¹ u w) =
      n ! * ∑ σ, f σ * g σ := by
  classical
  have hn : (n ! : ℝ) ≠ 0 := by exact_mod_cast (Nat.factorial_pos n).ne'
  have e : ∀ p : Pt n, (dimW n p.1 : ℝ) * ∑ w : Wd n p.1, ∑ u, (∑ σ, f σ * rho p.2 σ⁻¹ u w) * (∑ τ, g τ * rho p.2 τ⁻¹ u w) =
      ∑ σ, ∑ τ, f σ * g τ * (n ! * ((dimW n p.1 : ℝ) / n ! * ∑ a, ∑ b, rho p.2 σ⁻¹ a b * rho p.2 τ⁻¹ a b)) := by
    intro p
    have e1 : ∀ σ τ : Equiv.Perm (Fin n), f σ * g τ * (n ! * ((dimW n p.1 : ℝ) / n ! * ∑ a, ∑ b, rho p.2 σ⁻¹ a b * rho p.2 τ⁻¹ a b)) =
        (dimW n p.1 : ℝ) * ∑ w : Wd n p.1, ∑ u, (f σ * rho p.2 σ⁻¹ u w) * (g τ * rho p.2 τ⁻¹ u w) := by
      intro σ τ
      rw [Finset.sum_comm (f := fun a b => rho p.2 σ⁻¹ a b * rho p.2 τ⁻¹ a b)]
      have : ∑ w : Wd n p.1, ∑ u, (f σ * rho p.2 σ⁻¹ u w) * (g τ * rho p.2 τ⁻¹ u w) =
          f σ * g τ * ∑ w : Wd n p.1, ∑ u, rho p.2 σ⁻¹ u w * rho p.2 τ⁻¹ u w := by
        rw [Finset.mul_sum]
        refine Finset.sum_congr rfl fun w _ => ?_
        rw [Finset.mul_sum]
        exact Finset.sum_congr rfl fun u _ => by ring
      rw [this]
      field_simp
    simp only [e1, ← Finset.mul_sum]
    congr 1
    simp only [Finset.sum_mul_sum]
    exact sum_comm4 _
  rw [Finset.sum_congr rfl fun p _ => e p, Finset.sum_comm, Finset.mul_sum]
  refine Finset.sum_congr rfl fun σ _ => ?_
  rw [Finset.sum_comm]
  have e2 : ∀ τ : Equiv.Perm (Fin n), ∑ p : Pt n, f σ * g τ * (n ! * ((dimW n p.1 : ℝ) / n ! * ∑ a, ∑ b, rho p.2 σ⁻¹ a b * rho p.2 τ⁻¹ a b)) =
      if σ = τ then n ! * (f σ * g τ) else 0 := by
    intro τ
    rw [← Finset.mul_sum, ← Finset.mul_sum, completeness]
    by_cases h : σ = τ
    · rw [if_pos (by rw [h]), if_pos h]; ring
    · rw [if_neg (fun h' => h (inv_injective h')), if_neg h]; ring
  simp only [e2, Finset.sum_ite_eq, Finset.mem_univ, if_true]

/-- the transform on the cosets keeps inner products -/
theorem plancherel_coset {m n : Nat} (hm : 0 < m) (hn : m ≤ n) (f g : Nat → ℝ) :
    ∑ p : Pt n, (dimW n p.1 : ℝ) * goodDot m (tF m f n p.1 p.2 0) (tF m g n p.1 p.2 0) =
      (n ! / m ! : ℕ) * ∑ c ∈ Finset.range (n ! / m !), f c * g c := by
  classical
  have hm0 : (m ! : ℝ) ≠ 0 := by exact_mod_cast (Nat.factorial_pos m).ne'
  have key := plancherel_group (fun σ => f (((elemEquiv n).symm σ : Nat) / m !)) (fun σ => g (((elemEquiv n).symm σ : Nat) / m !))
  have sumE : ∀ h : Nat → Equiv.Perm (Fin n) → ℝ, ∑ σ, h ((elemEquiv n).symm σ : Nat) σ = ∑ e ∈ Finset.range (n !), h e (elem n e) := by
    intro h
    rw [← (elemEquiv n).sum_comp, Finset.sum_range]
    refine Finset.sum_congr rfl fun e _ => ?_
    rw [Equiv.symm_apply_apply]
    rfl
  have t1 : ∀ (h : Nat → ℝ) (p : Pt n) (u w : Wd n p.1), ∑ σ, h (((elemEquiv n).symm σ : Nat) / m !) * rho p.2 σ⁻¹ u w =
      if goodW m w.1 = true then m ! * tF m h n p.1 p.2 0 u w else 0 := by
    intro h p u w
    rw [sumE fun e σ => h (e / m !) * rho p.2 σ⁻¹ u w]
    by_cases hw : goodW m w.1 = true
    · rw [if_pos hw, lift_good hm hn p.2 h u w hw]
      unfold tF
      simp only [Nat.zero_mul, Nat.zero_add]
    · rw [if_neg hw, lift_bad hm hn p.2 h u w (by simpa using hw)]
  have t2 : ∑ σ : Equiv.Perm (Fin n), f (((elemEquiv n).symm σ : Nat) / m !) * g (((elemEquiv n).symm σ : Nat) / m !) =
      m ! * ∑ c ∈ Finset.range (n ! / m !), f c * g c := by
    rw [sumE fun e _ => f (e / m !) * g (e / m !)]
    conv_lhs => rw [← quot_mul hn]
    rw [sum_range_mul', Finset.mul_sum]
    refine Finset.sum_congr rfl fun c hc => ?_
    rw [Finset.sum_congr rfl fun j hj => by
      rw [show (c * m ! + j) / m ! = c by
          rw [Nat.add_comm, Nat.add_mul_div_right _ _ (Nat.factorial_pos m), Nat.div_eq_of_lt (Finset.mem_range.1 hj), Nat.zero_add]]]
    rw [Finset.sum_const, Finset.card_range, nsmul_eq_mul]
  simp only [t1, t2] at key
  have t3 : ∀ p : Pt n, ∑ w : Wd n p.1, ∑ u, (if goodW m w.1 = true then m ! * tF m f n p.1 p.2 0 u w else 0) *
      (if goodW m w.1 = true then m ! * tF m g n p.1 p.2 0 u w else 0) =
      (m ! * m !) * goodDot m (tF m f n p.1 p.2 0) (tF m g n p.1 p.2 0) := by
    intro p
    unfold goodDot
    rw [Finset.mul_sum]
    refine Finset.sum_congr rfl fun w _ => ?_
    by_cases hw : goodW m w.1 = true
    · simp only [if_pos hw]
      rw [Finset.mul_sum]
      exact Finset.sum_congr rfl fun u _ => by ring
    · simp only [if_neg hw, mul_zero, Finset.sum_const_zero]
  simp only [t3] at key
  have t4 : (n ! : ℝ) = (n ! / m ! : ℕ) * m ! := by exact_mod_cast (quot_mul hn).symm
  rw [t4] at key
  have t5 : ∀ p : Pt n, (dimW n p.1 : ℝ) * (m ! * m ! * goodDot m (tF m f n p.1 p.2 0) (tF m g n p.1 p.2 0)) =
      (m ! * m !) * ((dimW n p.1 : ℝ) * goodDot m (tF m f n p.1 p.2 0) (tF m g n p.1 p.2 0)) := fun p => by ring
  simp only [t5] at key
  rw [← Finset.mul_sum] at key
  refine mul_left_cancel₀ (mul_ne_zero hm0 hm0) ?_
  rw [key]; ring

theorem goodDot_zero {m n : Nat} {p : List Nat} (hp : IsPartition n p) (hn : m ≤ n) (h : ¬ m ≤ row p 0) (A B : Wd n p → Wd n p → ℝ) :
    goodDot m A B = 0 := by
  unfold goodDot
  refine Finset.sum_eq_zero fun w _ => if_neg fun hw => h (good_row hp hn w hw)

theorem FOk.plancherel {m n : Nat} (hm : 0 < m) (hn : m ≤ n) {f g : Nat → ℝ} {ws vs : List VPart}
    (h : FOk m n (fun p hp u w => tF m f n p hp 0 u w) ws) (h' : FOk m n (fun p hp u w => tF m g n p hp 0 u w) vs) :
    fourierDot ws vs = (n ! / m ! : ℕ) * ∑ c ∈ Finset.range (n ! / m !), f c * g c := by
  rw [h.dot (by omega) h', ← plancherel_coset hm hn]
  refine Finset.sum_congr rfl fun p _ => ?_
  by_cases hr : m ≤ row p.1 0
  · rw [if_pos hr]
  · rw [if_neg hr, goodDot_zero p.2 hn hr, mul_zero]

theorem rho_col_norm {n : Nat} {p : List Nat} (hp : IsPartition n p) (σ : Equiv.Perm (Fin n)) (w : Wd n p) :
    ∑ u, rho hp σ⁻¹ u w * rho hp σ⁻¹ u w = 1 := by
  have h2 := congrFun (congrFun (rho_orthogonal hp σ) w) w
  rw [Matrix.mul_apply, Matrix.one_apply_eq] at h2
  rw [← h2]
  refine Finset.sum_congr rfl fun u _ => ?_
  rw [rho_inv]
  rfl

/-- the columns of the transform of the function that is one at a single coset -/
theorem tF_delta {m n c : Nat} (hc : c < n ! / m !) {p : List Nat} (hp : IsPartition n p) (u w : Wd n p) :
    tF m (fun e => if e = c then 1 else 0) n p hp 0 u w = rho hp (elem n (c * m !))⁻¹ u w := by
  unfold tF
  simp only [Nat.zero_mul, Nat.zero_add, ite_mul, one_mul, zero_mul, Finset.sum_ite_eq', Finset.mem_range, if_pos hc]

/-- columns of length at most one, one of which is shorter, are too short -/
theorem goodDot_loss {m l0 : Nat} (hm : 0 < m) (hml : m ≤ l0 + 1) {F : (p : List Nat) → IsPartition (l0 + 1) p → Wd (l0 + 1) p → Wd (l0 + 1) p → ℝ}
    (hT : TopOk m l0 F) {ws : List VPart} (h : FOk m (l0 + 1) F ws) : fourierDot ws ws < ((l0 + 1)! / m ! : ℕ) := by
  classical
  have hN : 0 < (l0 + 1)! / m ! := Nat.div_pos (Nat.factorial_le hml) (Nat.factorial_pos _)
  have hex := plancherel_coset hm hml (fun e => if e = 0 then 1 else 0) (fun e => if e = 0 then 1 else 0)
  have h1 : ∑ c ∈ Finset.range ((l0 + 1)! / m !), (if c = 0 then (1 : ℝ) else 0) * (if c = 0 then 1 else 0) = 1 := by
    rw [Finset.sum_eq_single 0]
    · simp
    · intro b _ hb; simp [hb]
    · intro hb; exact absurd (Finset.mem_range.2 hN) hb
  rw [h1, mul_one] at hex
  rw [← hex, h.dot (by omega) h]
  have hcol : ∀ p : Pt (l0 + 1), goodDot m (tF m (fun e => if e = 0 then 1 else 0) (l0 + 1) p.1 p.2 0) (tF m (fun e => if e = 0 then 1 else 0) (l0 + 1) p.1 p.2 0) =
      ∑ w : Wd (l0 + 1) p.1, if goodW m w.1 = true then 1 else 0 := by
    intro p
    unfold goodDot
    refine Finset.sum_congr rfl fun w _ => ?_
    simp only [tF_delta hN, rho_col_norm]
  simp only [hcol]
  have hle : ∀ (p : List Nat) (hp : IsPartition (l0 + 1) p), m ≤ row p 0 → ∀ w : Wd (l0 + 1) p,
      (if goodW m w.1 = true then ∑ u, F p hp u w * F p hp u w else 0) ≤ if goodW m w.1 = true then (1 : ℝ) else 0 := by
    intro p hp hr w
    by_cases hw : goodW m w.1 = true
    · rw [if_pos hw, if_pos hw]; exact hT.le p hp hr w hw
    · rw [if_neg hw, if_neg hw]
  refine Finset.sum_lt_sum (fun p _ => ?_) ?_
  · by_cases hr : m ≤ row p.1 0
    · rw [if_pos hr]
      exact mul_le_mul_of_nonneg_left (Finset.sum_le_sum fun w _ => hle p.1 p.2 hr w) (Nat.cast_nonneg _)
    · rw [if_neg hr]
      exact mul_nonneg (Nat.cast_nonneg _) (Finset.sum_nonneg fun w _ => by split_ifs <;> norm_num)
  · obtain ⟨p, hp, hr, w, hw, hlt⟩ := hT.lt
    refine ⟨⟨p, hp⟩, Finset.mem_univ _, ?_⟩
    rw [if_pos hr]
    refine mul_lt_mul_of_pos_left (Finset.sum_lt_sum (fun w _ => hle p hp hr w) ⟨w, Finset.mem_univ _, ?_⟩) (by exact_mod_cast dimW_pos hp)
    rw [if_pos hw, if_pos hw]
    exact hlt

/-- a transform is determined by the function -/
theorem IsTransform.same {K : Nat} {x : Nat → Option Arr} {f : Nat → ℝ} {sel : IrrepObj → List Nat} {shapes : List (List Nat)}
    {ws vs : List VPart} (hs : HasShape sel shapes ws) (hs' : HasShape sel shapes vs) (h : IsTransform K x f sel ws)
    (h' : IsTransform K x f sel vs) : SameVec ws vs := by
  refine ⟨hs.1.trans hs'.1.symm, fun i W V hi hi' => ?_⟩
  have hlt : i < shapes.length := by rw [← hs.1]; exact (List.getElem?_eq_some_iff.1 hi).1
  obtain ⟨a1, a2, a3⟩ := hs.2 i _ W (List.getElem?_eq_getElem hlt) hi
  obtain ⟨b1, b2, b3⟩ := hs'.2 i _ V (List.getElem?_eq_getElem hlt) hi'
  have e : W.irrep = V.irrep := Option.some.inj (a1.symm.trans b1)
  refine ⟨e, by rw [a2, b2, e], by rw [a3, b3, e], fun a ha b hb => ?_⟩
  obtain ⟨ρ, c1, c2⟩ := h W (List.mem_of_getElem? hi)
  obtain ⟨ρ', d1, d2⟩ := h' V (List.mem_of_getElem? hi')
  rw [a3] at hb
  rw [c2 a ha b _ (List.getElem?_eq_getElem hb), d2 a (by rw [b2, ← e, ← a2]; exact ha) b _ (by rw [← e]; exact List.getElem?_eq_getElem hb)]
  refine Finset.sum_congr rfl fun c hc => ?_
  obtain ⟨s, t, e1, e2, e3⟩ := c1 c (Finset.mem_range.1 hc)
  obtain ⟨s', t', f1, f2, f3⟩ := d1 c (Finset.mem_range.1 hc)
  obtain rfl := Option.some.inj (e1.symm.trans f1)
  obtain rfl := Option.some.inj (e2.symm.trans f2)
  rw [← e] at f3
  rw [Option.some.inj (e3.symm.trans f3)]

theorem SameVec.dot {ws ws' vs vs' : List VPart} (h : SameVec ws ws') (h' : SameVec vs vs') (hd : ∀ (i : Nat) (W V : VPart), ws[i]? = some W → vs[i]? = some V →
    V.d = W.d ∧ V.m = W.m) : fourierDot ws vs = fourierDot ws' vs' := by
  unfold fourierDot
  congr 1
  refine List.ext_getElem? fun i => ?_
  rw [List.getElem?_zipWith, List.getElem?_zipWith]
  have l1 := h.1
  have l2 := h'.1
  cases hi : ws[i]? with
  | none =>
    have : ws'[i]? = none := by rw [List.getElem?_eq_none_iff] at hi ⊢; omega
    rw [this]
  | some W =>
    have w1 : i < ws'.length := by rw [← l1]; exact (List.getElem?_eq_some_iff.1 hi).1
    obtain ⟨-, a1, a2, a3⟩ := h.2 i W _ hi (List.getElem?_eq_getElem w1)
    rw [List.getElem?_eq_getElem w1]
    cases hj : vs[i]? with
    | none =>
      have : vs'[i]? = none := by rw [List.getElem?_eq_none_iff] at hj ⊢; omega
      rw [this]
    | some V =>
      have w2 : i < vs'.length := by rw [← l2]; exact (List.getElem?_eq_some_iff.1 hj).1
      obtain ⟨-, b1, b2, b3⟩ := h'.2 i V _ hj (List.getElem?_eq_getElem w2)
      obtain ⟨d1, d2⟩ := hd i W V hi hj
      rw [List.getElem?_eq_getElem w2]
      simp only [Option.some.injEq]
      unfold partDot
      rw [← a1, ← a2]
      congr 1
      refine Finset.sum_congr rfl fun a ha => Finset.sum_congr rfl fun b hb => ?_
      rw [a3 a (Finset.mem_range.1 ha) b (Finset.mem_range.1 hb), b3 a (by rw [d1]; exact Finset.mem_range.1 ha) b (by rw [d2]; exact Finset.mem_range.1 hb)]

theorem HasShape.dims {sel : IrrepObj → List Nat} {shapes : List (List Nat)} {ws vs : List VPart} (hs : HasShape sel shapes ws)
    (hs' : HasShape sel shapes vs) (i : Nat) (W V : VPart) (hi : ws[i]? = some W) (hi' : vs[i]? = some V) : V.d = W.d ∧ V.m = W.m := by
  have hlt : i < shapes.length := by rw [← hs.1]; exact (List.getElem?_eq_some_iff.1 hi).1
  obtain ⟨a1, a2, a3⟩ := hs.2 i _ W (List.getElem?_eq_getElem hlt) hi
  obtain ⟨b1, b2, b3⟩ := hs'.2 i _ V (List.getElem?_eq_getElem hlt) hi'
  have e : W.irrep = V.irrep := Option.some.inj (a1.symm.trans b1)
  exact ⟨by rw [a2, b2, e], by rw [a3, b3, e]⟩

end Snob
