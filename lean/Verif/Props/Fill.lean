import Verif.Model.Fill
import Verif.Props.Symmetry
import Verif.Proofs.ViewSpec
import Verif.Spec.SnVec

/-! # Property C123: vectors and functions filled with zeros, ones or the identity, and their transforms -/

namespace Snob

open IP Perm
open scoped Nat

variable {n : Nat} {p : List Nat}

theorem chi_mul_of_card_one (hp : IsPartition n p) (h1 : Fintype.card (Wd n p) = 1) (σ τ : Equiv.Perm (Fin n)) :
    chi hp (σ * τ) = chi hp σ * chi hp τ := by
  have hs : ∀ u v : Wd n p, u = v := Fintype.card_le_one_iff.1 h1.le
  obtain ⟨u⟩ := Fintype.card_pos_iff.1 (by omega : 0 < Fintype.card (Wd n p))
  have e : ∀ A : Matrix (Wd n p) (Wd n p) ℝ, Matrix.trace A = A u u := fun A => sum_subsingleton hs (fun v => A v v) u
  unfold chi
  rw [e, e, e, map_mul, Matrix.mul_apply, sum_subsingleton hs _ u]

/-- The irreps of dimension one are the trivial one and the sign. -/
theorem card_one_iff (hn : 1 ≤ n) (hp : IsPartition n p) : Fintype.card (Wd n p) = 1 ↔ p = [n] ∨ p = List.replicate n 1 := by
  have row1 : Fintype.card (Wd n [n]) = 1 := by
    refine le_antisymm (Fintype.card_le_one_iff.2 ?_) (card_Wd_pos (isPartition_row hn))
    exact wd_subsingleton_of_cont (isPartition_row hn) _ (fun u m h1 h2 => cont_row hn u h1 h2)
  have col1 : Fintype.card (Wd n (List.replicate n 1)) = 1 := by
    refine le_antisymm (Fintype.card_le_one_iff.2 ?_) (card_Wd_pos (isPartition_col n))
    exact wd_subsingleton_of_cont (isPartition_col n) _ (fun u m h1 h2 => cont_col u h1 h2)
  refine ⟨fun h1 => ?_, by rintro (rfl | rfl) <;> assumption⟩
  have hmul := chi_mul_of_card_one hp h1
  have hone : chi hp 1 = 1 := by
    unfold chi
    rw [map_one, Matrix.trace_one, h1, Nat.cast_one]
  have hfac : (n ! : ℝ) ≠ 0 := by exact_mod_cast (Nat.factorial_pos n).ne'
  have hcard : (Fintype.card (Equiv.Perm (Fin n)) : ℝ) = n ! := by rw [Fintype.card_perm, Fintype.card_fin]
  by_cases hall : ∀ x y : Fin n, x ≠ y → chi hp (Equiv.swap x y) = 1
  · left
    have hchi : ∀ σ, chi hp σ = 1 := fun σ => by
      induction σ using Equiv.Perm.swap_induction_on with
      | one => exact hone
      | swap_mul f x y hxy ih => rw [hmul, hall x y hxy, ih, one_mul]
    have hrow : ∀ σ, chi (isPartition_row hn) σ = 1 := fun σ => by
      unfold chi Matrix.trace
      rw [Finset.sum_congr rfl fun u _ => show Matrix.diag (rho (isPartition_row hn) σ) u = 1 from rho_row hn σ u u]
      rw [Finset.sum_const, Finset.card_univ, row1, one_smul]
    by_contra hne
    have := chi_orthogonality hp (isPartition_row hn)
    rw [if_neg hne, Finset.sum_congr rfl fun σ _ => by rw [hchi, hrow, one_mul], Finset.sum_const, Finset.card_univ, nsmul_eq_mul, hcard,
      mul_one] at this
    exact hfac this
  · right
    push Not at hall
    obtain ⟨x, y, hxy, hc⟩ := hall
    have hm1 : chi hp (Equiv.swap x y) = -1 := by
      have := hmul (Equiv.swap x y) (Equiv.swap x y)
      rw [Equiv.swap_mul_self, hone] at this
      rcases mul_self_eq_one_iff.1 this.symm with h | h
      · exact absurd h hc
      · exact h
    have hchi : ∀ σ, chi hp σ = ((Equiv.Perm.sign σ : Int) : ℝ) := fun σ => by
      induction σ using Equiv.Perm.swap_induction_on with
      | one => rw [hone]; simp
      | swap_mul f a b hab ih =>
        rw [hmul, ih, chi_conj hp (Equiv.Perm.isConj_swap hab hxy), hm1, Equiv.Perm.sign_mul, Equiv.Perm.sign_swap hab]
        simp
    have hcol : ∀ σ, chi (isPartition_col n) σ = ((Equiv.Perm.sign σ : Int) : ℝ) := fun σ => by
      unfold chi Matrix.trace
      rw [Finset.sum_congr rfl fun u _ => show Matrix.diag (rho (isPartition_col n) σ) u = _ from rho_col σ u u]
      rw [Finset.sum_const, Finset.card_univ, col1, one_smul]
    by_contra hne
    have := chi_orthogonality hp (isPartition_col n)
    have hsq : ∀ σ : Equiv.Perm (Fin n), ((Equiv.Perm.sign σ : Int) : ℝ) * ((Equiv.Perm.sign σ : Int) : ℝ) = 1 := fun σ => by
      rcases Int.units_eq_one_or (Equiv.Perm.sign σ) with h | h <;> simp [h]
    rw [if_neg hne, Finset.sum_congr rfl fun σ _ => by rw [hchi, hcol, hsq], Finset.sum_const, Finset.card_univ, nsmul_eq_mul, hcard,
      mul_one] at this
    exact hfac this

theorem hat_delta (hp : IsPartition n p) (τ : Equiv.Perm (Fin n)) : hat hp (fun σ => if σ = τ then 1 else 0) = rho hp τ⁻¹ := by
  rw [hat_eq, Finset.sum_eq_single τ]
  · rw [if_pos rfl, one_smul]
  · intro σ _ h
    rw [if_neg h, zero_smul]
  · exact fun h => absurd (Finset.mem_univ _) h

theorem hat_ones (hn : 1 ≤ n) (hp : IsPartition n p) (hne : p ≠ [n]) (a b : Wd n p) : hat hp (fun _ => 1) a b = 0 := by
  obtain ⟨u⟩ := Fintype.card_pos_iff.1 (card_Wd_pos (isPartition_row hn))
  have := orthogonality_ne hp (isPartition_row hn) hne a b u u
  rw [Finset.sum_congr rfl fun σ _ => by rw [rho_row hn, mul_one]] at this
  unfold hat
  rw [← this]
  exact Fintype.sum_equiv (Equiv.inv _) _ _ fun σ => by simp

namespace Props

/-- the type of the Fourier transforms on `Sn`: every irrep as often as its dimension, in the order of the partitions -/
def IsRegular (n : Nat) (t : SnType) : Prop := t.map (·.1) = partitions n ∧ ∀ q ∈ t, ∃ R, mkIrrep q.1 = some R ∧ q.2 = (R.d : Int)

theorem filled_regular {n : Nat} (hn : 1 ≤ n) {t : SnType} (ht : IsRegular n t) (c : Fill) :
    ∃ v, SnVec.filled c t = some v ∧ v.length = (partitions n).length ∧ ∀ (i : Nat) (q : List Nat) (P : VPart), (partitions n)[i]? = some q → v[i]? = some P →
      mkIrrep q = some P.irrep ∧ P.d = P.irrep.d ∧ P.m = P.irrep.d ∧ ∀ a b, P.data a b = c.entry a b := by
  have h1 : ∀ q ∈ t, ∃ P : VPart, VPart.filled c q.1 q.2 = some P ∧ mkIrrep q.1 = some P.irrep ∧ P.d = P.irrep.d ∧ P.m = P.irrep.d ∧
      ∀ a b, P.data a b = c.entry a b := by
    intro q hq
    obtain ⟨R, hR, hd⟩ := ht.2 q hq
    refine ⟨⟨R.d, R.d, R, fun i j => c.entry i j⟩, ?_, hR, rfl, rfl, fun _ _ => rfl⟩
    unfold VPart.filled
    rw [hR]
    simp [hd]
  have : Nonempty VPart := by
    obtain ⟨R, -⟩ := exists_repr hn (isPartition_row hn)
    exact ⟨⟨0, 0, R, fun _ _ => 0⟩⟩
  choose! P hP using h1
  have hv : SnVec.filled c t = some (t.map P) := by
    unfold SnVec.filled
    refine (mapM_some_iff _ _ _).2 ⟨by simp, fun i x hx => ⟨P x, by rw [List.getElem?_map, hx]; rfl, ?_⟩⟩
    exact (hP x (List.mem_of_getElem? hx)).1
  refine ⟨_, hv, ?_, ?_⟩
  · rw [List.length_map, ← ht.1, List.length_map]
  · intro i q Q hi hQ
    rw [List.getElem?_map] at hQ
    rw [← ht.1, List.getElem?_map] at hi
    obtain ⟨x, hx, rfl⟩ := Option.map_eq_some_iff.1 hQ
    rw [hx] at hi
    obtain rfl := Option.some.inj hi
    exact (hP x (List.mem_of_getElem? hx)).2

/-- there is such a type -/
theorem exists_regular (n : Nat) (hn : 1 ≤ n) : ∃ t, IsRegular n t := by
  have h : ∀ q : List Nat, ∃ d : Int, q ∈ partitions n → ∃ R, mkIrrep q = some R ∧ d = (R.d : Int) := by
    intro q
    by_cases hq : q ∈ partitions n
    · obtain ⟨R, hR, -⟩ := exists_repr hn ((mem_partitions n hn q).1 hq)
      exact ⟨R.d, fun _ => ⟨R, hR, rfl⟩⟩
    · exact ⟨0, fun h => absurd h hq⟩
  choose d hd using h
  refine ⟨(partitions n).map fun q => (q, d q), by simp [Function.comp_def], ?_⟩
  intro x hx
  obtain ⟨q, hq, rfl⟩ := List.mem_map.1 hx
  exact hd q hq

theorem same_of_entries {n : Nat} (hn : 1 ≤ n) {t : SnType} (ht : IsRegular n t) (c : Fill) (f : Equiv.Perm (Fin n) → ℝ) (ws : List VPart)
    (h : TransformOf n (cellsOf (I := snGroup n) (elemEquiv n) f) ws)
    (he : ∀ q : Pt n, hat q.2 f = fun a b => if c = .identity then (if a = b then 1 else 0) else c.entry 0 0) :
    ∃ v, SnVec.filled c t = some v ∧ SameVec ws v := by
  obtain ⟨v, hv, hl, hP⟩ := filled_regular hn ht c
  refine ⟨v, hv, ?_, ?_⟩
  · obtain ⟨F, -, hs, -⟩ := h
    rw [hl, hs.1]
  · intro i W V hi hV
    obtain ⟨q, hr, hq, d1, m1, k⟩ := entry_hat hn h hi
    obtain ⟨k1, k2, k3, k4⟩ := hP i q.1 V hq hV
    have hmk : mkIrrep q.1 = some W.irrep := by
      obtain ⟨F, -, hs, -⟩ := h
      exact (hs.2 i _ W hq hi).1
    have e : W.irrep = V.irrep := Option.some.inj (hmk.symm.trans k1)
    refine ⟨e, by rw [d1, k2, e], by rw [m1, k3, e], fun a ha b hb => ?_⟩
    rw [k4, k ⟨a, by rwa [← d1]⟩ ⟨b, by rwa [← m1]⟩, he q]
    simp only [EmbeddingLike.apply_eq_iff_eq, Fin.mk.injEq]
    cases c <;> simp [Fill.entry]

section
variable (n : Nat) (hn : 1 ≤ n)
include hn

/-- **C123.** `SnVec::identity` of the type of the Fourier transforms is the transform of the function that is one at the identity and zero elsewhere. -/
theorem C123_identity (t : SnType) (ht : IsRegular n t) (ι : Arr) (hι : identity n = some ι) :
    ∃ f v, (snGroup n).setValue (fnFilled .zero n) ι 1 = some f ∧ SnVec.filled .identity t = some v ∧ ∀ ws, TransformOf n f ws → SameVec ws v := by
  have hI := snGroup_implements n hn
  have e0 : fnFilled .zero n = cellsOf (I := snGroup n) (elemEquiv n) (fun _ => 0) := by
    unfold fnFilled cellsOf
    exact (List.ofFn_const _ _).symm
  have hid : ι = enc (1 : Equiv.Perm (Fin n)) := Option.some.inj (hι.symm.trans (identity_eq n))
  subst hid
  obtain ⟨f, hf, hw, h1, h0⟩ := C55_set_value hI (fnFilled .zero n) (by rw [e0]; exact (written_iff (I := snGroup n) (e := elemEquiv n) _).2 ⟨_, rfl⟩) 1 1
  obtain ⟨g, rfl⟩ := (written_iff (I := snGroup n) (e := elemEquiv n) f).1 hw
  have hg : g = fun σ => if σ = 1 then 1 else 0 := by
    funext σ
    by_cases hσ : σ = 1
    · subst hσ
      rw [hI.value_eq] at h1
      rw [if_pos rfl, Option.some.inj h1]
    · have := h0 σ hσ
      rw [hI.value_eq, e0, hI.value_eq] at this
      rw [if_neg hσ, Option.some.inj this]
  obtain ⟨v, hv, -⟩ := filled_regular hn ht .identity
  refine ⟨_, v, hf, hv, fun ws h => ?_⟩
  obtain ⟨v', hv', hs⟩ := same_of_entries hn ht .identity g ws h fun q => by
    rw [hg, hat_delta, inv_one, map_one]
    funext a b
    simp [Matrix.one_apply]
  obtain rfl := Option.some.inj (hv.symm.trans hv')
  exact hs

/-- **C123.** The transform of `SnFunction::zero` is `SnVec::zero` of that type. -/
theorem C123_zero (t : SnType) (ht : IsRegular n t) :
    ∃ v, SnVec.filled .zero t = some v ∧ ∀ ws, TransformOf n (fnFilled .zero n) ws → SameVec ws v := by
  have e0 : fnFilled .zero n = cellsOf (I := snGroup n) (elemEquiv n) (fun _ => 0) := by
    unfold fnFilled cellsOf
    exact (List.ofFn_const _ _).symm
  obtain ⟨v, hv, -⟩ := filled_regular hn ht .zero
  refine ⟨v, hv, fun ws h => ?_⟩
  rw [e0] at h
  obtain ⟨v', hv', hs⟩ := same_of_entries hn ht .zero _ ws h fun q => by
    funext a b
    simp [hat, Fill.entry]
  obtain rfl := Option.some.inj (hv.symm.trans hv')
  exact hs

/-- **C123.** The transform of `SnFunction::ones` has `n!` at `[n]` and vanishes at all other partitions. -/
theorem C123_ones (ws : List VPart) (h : TransformOf n (fnFilled .ones n) ws) (i : Nat) (q : List Nat) (W : VPart)
    (hq : (partitions n)[i]? = some q) (hi : ws[i]? = some W) :
    ∀ a < W.d, ∀ b < W.m, W.data a b = if q = [n] then (n ! : ℝ) else 0 := by
  have e0 : fnFilled .ones n = cellsOf (I := snGroup n) (elemEquiv n) (fun _ => 1) := by
    unfold fnFilled cellsOf
    exact (List.ofFn_const _ _).symm
  rw [e0] at h
  obtain ⟨q', hr, hq', d1, m1, k⟩ := entry_hat hn h hi
  obtain rfl : q'.1 = q := Option.some.inj (hq'.symm.trans hq)
  intro a ha b hb
  rw [k ⟨a, by rwa [← d1]⟩ ⟨b, by rwa [← m1]⟩]
  split_ifs with hc
  · obtain ⟨q', hq2⟩ := q'
    simp only at hc
    subst hc
    unfold hat
    rw [Finset.sum_congr rfl fun σ _ => by rw [rho_row hn, mul_one], Finset.sum_const, Finset.card_univ, Fintype.card_perm, Fintype.card_fin,
      nsmul_eq_mul, mul_one]
  · exact hat_ones hn q'.2 hc _ _

/-- **C123 (negation).** `SnPart.ones(lambda,d)` in Python does not give a matrix of ones, except for the two irreps of dimension one. -/
theorem C123_python_ones (p : List Nat) (hp : IsPartition n p) :
    ∃ R P, mkIrrep p = some R ∧ pyPart "ones" p R.d = some P ∧ P.d = R.d ∧ P.m = R.d ∧
      ((∀ a < P.d, ∀ b < P.m, P.data a b = 1) ↔ p = [n] ∨ p = List.replicate n 1) := by
  obtain ⟨R, hR, -, hr⟩ := exists_repr hn hp
  have hd : R.d = Fintype.card (Wd n p) := by rw [hr.d_eq, card_Wd hp]
  refine ⟨R, ⟨R.d, R.d, R, fun i j => Fill.identity.entry i j⟩, hR, ?_, rfl, rfl, ?_⟩
  · simp [pyPart, pyFill, VPart.filled, hR]
  · rw [← card_one_iff hn hp, ← hd]
    have hpos := card_Wd_pos hp
    constructor
    · intro h
      by_contra hne
      have := h 0 (show 0 < R.d by omega) 1 (show 1 < R.d by omega)
      simp [Fill.entry] at this
    · intro h a ha b hb
      have ha : a < R.d := ha
      have hb : b < R.d := hb
      obtain rfl : a = 0 := by omega
      obtain rfl : b = 0 := by omega
      simp [Fill.entry]

/-- **C123 (negation).** The same for `SnVec.ones`: for `n≥3` what Python returns for the type of the Fourier transforms is not filled with ones. -/
theorem C123_python_vec_ones (h3 : 3 ≤ n) (t : SnType) (ht : IsRegular n t) :
    ∃ v w, pyVec "ones" t = some v ∧ SnVec.filled .ones t = some w ∧ ¬ SameVec v w := by
  obtain ⟨v, hv, hl, hP⟩ := filled_regular hn ht .identity
  obtain ⟨w, hw, hl', hP'⟩ := filled_regular hn ht .ones
  refine ⟨v, w, by simp [pyVec, pyFill, hv], hw, fun hs => ?_⟩
  have hp : IsPartition n [n - 1, 1] := ⟨by simp; omega, by simp; omega, by simp; omega⟩
  obtain ⟨i, hi, e⟩ := List.getElem_of_mem ((mem_partitions n hn _).2 hp)
  have hq : (partitions n)[i]? = some [n - 1, 1] := by rw [List.getElem?_eq_getElem hi, e]
  have h1 : v[i]? = some (v[i]'(by rw [hl]; exact hi)) := List.getElem?_eq_getElem _
  have h2 : w[i]? = some (w[i]'(by rw [hl']; exact hi)) := List.getElem?_eq_getElem _
  obtain ⟨a1, a2, a3, a4⟩ := hP i _ _ hq h1
  obtain ⟨b1, b2, b3, b4⟩ := hP' i _ _ hq h2
  obtain ⟨-, -, -, hd⟩ := hs.2 i _ _ h1 h2
  obtain ⟨R, hR, -, hr⟩ := exists_repr hn hp
  have hc : (v[i]'(by rw [hl]; exact hi)).irrep.d = Fintype.card (Wd n [n - 1, 1]) := by
    rw [← Option.some.inj (hR.symm.trans a1), hr.d_eq, card_Wd hp]
  have hpos := card_Wd_pos hp
  have hne : Fintype.card (Wd n [n - 1, 1]) ≠ 1 := by
    rw [Ne, card_one_iff hn hp]
    rintro (h | h)
    · simp at h
    · have := congrArg List.length h
      simp at this
      omega
  have := hd 0 (by rw [a2, hc]; omega) 1 (by rw [a3, hc]; omega)
  rw [a4, b4] at this
  simp [Fill.entry] at this

end

/-! ### examples -/

/-- the hypotheses can be met at `n=5` -/
example : ∃ (t : SnType) (ι : Arr), IsRegular 5 t ∧ identity 5 = some ι :=
  let ⟨t, ht⟩ := exists_regular 5 (by omega)
  ⟨t, _, ht, identity_eq 5⟩

/-- as coded, for `n≤4`: the FFT of the function with the value one everywhere -/
theorem C123_fft_partial (n : Nat) (hn : 1 ≤ n) (h4 : n ≤ 4) (t : SnType) (ht : IsRegular n t) :
    (∃ ws v, fft n (fun _ => 0) = some ws ∧ SnVec.filled .zero t = some v ∧ SameVec ws v) ∧
    (∃ ws v, fft n (fun c => if c = 0 then 1 else 0) = some ws ∧ SnVec.filled .identity t = some v ∧ SameVec ws v) ∧
    ∃ ws, fft n (fun _ => 1) = some ws ∧ ∀ (i : Nat) (q : List Nat) (W : VPart), (partitions n)[i]? = some q → ws[i]? = some W →
      ∀ a < W.d, ∀ b < W.m, W.data a b = if q = [n] then (n ! : ℝ) else 0 := by
  have rd : ∀ (c : Fill) (k : Nat), k < snSize n → rdC (fnFilled c n) (k : Int) = some (c.entry 0 0) := by
    intro c k hk
    rw [rdC_ofNat]
    unfold fnFilled
    rw [List.getElem?_replicate, if_pos hk]
    rfl
  refine ⟨?_, ?_, ?_⟩
  · obtain ⟨ws, h1, h2⟩ := C39_fft_partial n hn h4 (fnFilled .zero n) (fun _ => 0) (rd .zero)
    obtain ⟨v, hv, hs⟩ := C123_zero n hn t ht
    exact ⟨ws, v, h1, hv, hs ws h2⟩
  · obtain ⟨f, v, hf, hv, hs⟩ := C123_identity n hn t ht _ (identity_eq n)
    have hI := snGroup_implements n hn
    have hpos : 0 < snSize n := Nat.factorial_pos n
    have h0 : (elemEquiv n).symm 1 = ⟨0, hpos⟩ := by
      rw [Equiv.symm_apply_eq]
      exact (elem_zero n).symm
    have hx : (snGroup n).index (enc (1 : Equiv.Perm (Fin n))) = some ((0 : Nat) : Int) := by
      rw [hI.index]
      exact congrArg (fun k : Fin (n !) => some (((k : Nat) : Int))) h0
    rw [GroupI.setValue, hx, Option.bind_some, wrC_ofNat _ _ _ (by simp [fnFilled, hpos])] at hf
    obtain ⟨ws, h1, h2⟩ := C39_fft_partial n hn h4 f (fun c => if c = 0 then 1 else 0) (fun c hc => by
      rw [← Option.some.inj hf, rdC_ofNat, List.getElem?_set]
      by_cases h : c = 0
      · subst h
        simp [fnFilled, hpos]
      · have := rd .zero c hc
        rw [rdC_ofNat] at this
        rw [if_neg (fun h' => h h'.symm), this, if_neg h]
        rfl)
    exact ⟨ws, v, h1, hv, hs ws h2⟩
  · obtain ⟨ws, h1, h2⟩ := C39_fft_partial n hn h4 (fnFilled .ones n) (fun _ => 1) (rd .ones)
    exact ⟨ws, h1, C123_ones n hn ws h2⟩

/-- **C123.** A vector made with `zero` or `ones` has exactly the type asked for, whatever the multiplicities, with every entry the one asked for. -/
theorem C123_filled {n : Nat} (hn : 1 ≤ n) {t : SnType} (ht : ∀ q ∈ t, IsPartition n q.1 ∧ 0 ≤ q.2) (hs : (t.map (·.1)).Pairwise LexGreater) {c : Fill} {z : ℝ}
    (hc : (c = .zero ∧ z = 0) ∨ (c = .ones ∧ z = 1)) :
    ∃ v, SnVec.filled c t = some v ∧ SnVec.Ok n v ∧ (v.map fun P => (P.irrep.lambda, (P.m : Int))) = t ∧
      ∀ P ∈ v, ∀ i < P.d, ∀ j < P.m, P.data i j = z := by
  have h1 : ∀ q ∈ t, ∃ P : VPart, VPart.filled c q.1 q.2 = some P ∧ mkIrrep q.1 = some P.irrep ∧ P.irrep.lambda = q.1 ∧ P.d = P.irrep.d ∧
      (P.m : Int) = q.2 ∧ ∀ i j, P.data i j = z := by
    intro q hq
    obtain ⟨R, hR, hl, -⟩ := exists_repr hn (ht q hq).1
    refine ⟨⟨R.d, q.2.toNat, R, fun i j => c.entry i j⟩, ?_, hR, hl, rfl, Int.toNat_of_nonneg (ht q hq).2, fun i j => ?_⟩
    · unfold VPart.filled
      rw [hR]
      rcases hc with ⟨rfl, -⟩ | ⟨rfl, -⟩ <;> simp [(ht q hq).2]
    · rcases hc with ⟨rfl, rfl⟩ | ⟨rfl, rfl⟩ <;> rfl
  have : Nonempty VPart := by
    obtain ⟨R, -⟩ := exists_repr hn (isPartition_row hn)
    exact ⟨⟨0, 0, R, fun _ _ => 0⟩⟩
  choose! P hP using h1
  have hv : SnVec.filled c t = some (t.map P) := by
    unfold SnVec.filled
    refine (mapM_some_iff _ _ _).2 ⟨by simp, fun i x hx => ⟨P x, by rw [List.getElem?_map, hx]; rfl, ?_⟩⟩
    exact (hP x (List.mem_of_getElem? hx)).1
  refine ⟨_, hv, ⟨fun Q hQ => ?_, ?_⟩, ?_, fun Q hQ => ?_⟩
  · obtain ⟨q, hq, rfl⟩ := List.mem_map.1 hQ
    obtain ⟨-, g1, g2, g3, -⟩ := hP q hq
    rw [g2]
    exact ⟨(ht q hq).1, g1, g3⟩
  · have e : ((t.map P).map fun Q => Q.irrep.lambda) = t.map (·.1) := by
      rw [List.map_map]
      exact List.map_congr_left fun q hq => (hP q hq).2.2.1
    rw [e]
    exact hs
  · rw [List.map_map]
    conv_rhs => rw [← List.map_id t]
    exact List.map_congr_left fun q hq => Prod.ext (hP q hq).2.2.1 (hP q hq).2.2.2.2.1
  · obtain ⟨q, hq, rfl⟩ := List.mem_map.1 hQ
    exact fun i _ j _ => (hP q hq).2.2.2.2.2 i j

/-- two columns of ones for one irrep of dimension two, and one for the sign -/
example : ∃ v, SnVec.filled .ones [([2, 1], 2), ([1, 1, 1], 1)] = some v ∧ SnVec.Ok 3 v ∧
    (v.map fun P => (P.irrep.lambda, (P.m : Int))) = [([2, 1], 2), ([1, 1, 1], 1)] ∧ ∀ P ∈ v, ∀ i < P.d, ∀ j < P.m, P.data i j = 1 :=
  C123_filled (by norm_num) (by
    intro q hq
    simp only [List.mem_cons, List.not_mem_nil, or_false] at hq
    rcases hq with rfl | rfl <;> exact ⟨⟨by decide, by decide, by decide⟩, by decide⟩) (by
      simp only [List.map_cons, List.map_nil, List.pairwise_cons, List.mem_singleton, forall_eq, List.not_mem_nil, false_imp_iff, implies_true, List.Pairwise.nil, and_true]
      exact ⟨0, by omega, by decide⟩) (Or.inr ⟨rfl, rfl⟩)

end Props

end Snob
