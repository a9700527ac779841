import Mathlib.Algebra.Order.BigOperators.Group.Finset
import Verif.Proofs.Function
import Verif.Props.FFT

/-! # Properties C39, C41, C42, C55: functions on groups -/

namespace Snob.Props

open Snob Snob.Perm Snob.IP
open scoped Nat

theorem rdC_sn {α : Type} {n : Nat} (f : Equiv.Perm (Fin n) → α) {c : Nat} (hc : c < snSize n) :
    rdC (cellsOf (I := snGroup n) (elemEquiv n) f) (c : Int) = some (f (elem n c)) :=
  rdC_cellsOf (I := snGroup n) f ⟨c, hc⟩

/-! ## C55: functions on any group -/

section
variable {E G α : Type} [Group G] {I : GroupI E} {e : Fin I.size ≃ G} {rep : G → E}

/-- **C55.** For a class that implements a group, `left_translate(t)`, `right_translate(t)` and `inv()` of a function
are defined and written everywhere, and their values at `x` are those of `f` at `t⁻¹x`, `xt⁻¹` and `x⁻¹`. -/
theorem C55_functions (h : Implements I e rep) (f : Cells α) (hf : Written I.size f) (t : G) :
    ∃ L R V, I.leftTranslate f (rep t) = some L ∧ I.rightTranslate f (rep t) = some R ∧ I.invert f = some V ∧
      Written I.size L ∧ Written I.size R ∧ Written I.size V ∧
      ∀ x, (∃ v, I.value f (rep x) = some v) ∧ I.value L (rep x) = I.value f (rep (t⁻¹ * x)) ∧
        I.value R (rep x) = I.value f (rep (x * t⁻¹)) ∧ I.value V (rep x) = I.value f (rep x⁻¹) := by
  obtain ⟨g, rfl⟩ := (written_iff (e := e) f).1 hf
  exact ⟨_, _, _, leftTranslate_eq h g t, rightTranslate_eq h g t, invert_eq h g, (written_iff (e := e) _).2 ⟨_, rfl⟩,
    (written_iff (e := e) _).2 ⟨_, rfl⟩, (written_iff (e := e) _).2 ⟨_, rfl⟩, fun x => ⟨⟨_, h.value_eq g x⟩,
    by rw [h.value_eq, h.value_eq], by rw [h.value_eq, h.value_eq], by rw [h.value_eq, h.value_eq]⟩⟩

/-- **C55.** `set_value(x,v)` changes the value at `x` and no other. -/
theorem C55_set_value (h : Implements I e rep) (f : Cells α) (hf : Written I.size f) (x : G) (v : α) :
    ∃ f', I.setValue f (rep x) v = some f' ∧ Written I.size f' ∧ I.value f' (rep x) = some v ∧
      ∀ y, y ≠ x → I.value f' (rep y) = I.value f (rep y) := by
  have hlt : ((e.symm x : Fin I.size) : Nat) < f.length := by rw [hf.1]; exact Fin.is_lt _
  have h1 : I.setValue f (rep x) v = some (f.set (e.symm x : Fin I.size) (some v)) := by
    rw [GroupI.setValue, h.index, Option.bind_some, wrC_ofNat _ _ _ hlt]
  refine ⟨_, h1, ⟨by rw [List.length_set, hf.1], fun c hc => ?_⟩, ?_, fun y hy => ?_⟩
  · rcases List.mem_or_eq_of_mem_set hc with h2 | h2
    · exact hf.2 c h2
    · rw [h2]; rfl
  · rw [GroupI.value, h.index, Option.bind_some, rdC_ofNat, List.getElem?_set_self hlt]
    rfl
  · rw [GroupI.value, GroupI.value, h.index, Option.bind_some, Option.bind_some, rdC_ofNat, rdC_ofNat,
      List.getElem?_set_ne]
    intro hh
    exact hy (e.symm.injective (Fin.ext hh.symm))

end

/-- `Sn` is such a class, for every `n`. -/
example (n : Nat) (hn : 1 ≤ n) : Implements (snGroup n) (elemEquiv n) enc := snGroup_implements n hn

/-- A function on `S3` meets the hypothesis of C55, and its left translate by (1 2) permutes the values. -/
example : Written (snGroup 3).size [some 1, some 2, some 3, some 4, some 5, some 6] ∧
    (snGroup 3).leftTranslate [some 1, some 2, some 3, some 4, some 5, some 6] [some 2, some 1, some 3] =
      some [some 2, some 1, some 4, some 3, some 6, some 5] := ⟨⟨by decide, by decide⟩, by decide +kernel⟩

/-! ## C41: translations of functions on `Sn` -/

section
variable {α : Type} (n : Nat) (hn : 1 ≤ n) (f : Cells α) (hf : Written (snSize n) f)
include hn hf

/-- **C41.** The translates and the inversion of a function on `Sn` are defined and written everywhere;
`left_translate(t)` has at `s` the value of `f` at `t.inv()*s`, `right_translate(t)` at `s*t.inv()`, `inv()` at
`s.inv()`. -/
theorem C41_translations (t : Arr) (ht : IsPerm n t) :
    ∃ u L R V, Perm.inverse t = some u ∧ (snGroup n).leftTranslate f t = some L ∧
      (snGroup n).rightTranslate f t = some R ∧ (snGroup n).invert f = some V ∧
      Written (snSize n) L ∧ Written (snSize n) R ∧ Written (snSize n) V ∧
      ∀ s, IsPerm n s → ∃ a b c va vb vc, mul u s = some a ∧ mul s u = some b ∧ Perm.inverse s = some c ∧
        (snGroup n).value f a = some va ∧ (snGroup n).value L s = some va ∧
        (snGroup n).value f b = some vb ∧ (snGroup n).value R s = some vb ∧
        (snGroup n).value f c = some vc ∧ (snGroup n).value V s = some vc := by
  obtain ⟨τ, rfl⟩ := ht
  have h := snGroup_implements n hn
  obtain ⟨L, R, V, h1, h2, h3, h4, h5, h6, h7⟩ := C55_functions h f hf τ
  refine ⟨_, L, R, V, inverse_eq τ, h1, h2, h3, h4, h5, h6, ?_⟩
  rintro s ⟨σ, rfl⟩
  obtain ⟨va, ha⟩ := (h7 (τ⁻¹ * σ)).1
  obtain ⟨vb, hb⟩ := (h7 (σ * τ⁻¹)).1
  obtain ⟨vc, hc⟩ := (h7 σ⁻¹).1
  exact ⟨_, _, _, va, vb, vc, mul_eq _ _, mul_eq _ _, inverse_eq σ, ha, (h7 σ).2.1.trans ha, hb, (h7 σ).2.2.1.trans hb, hc,
    (h7 σ).2.2.2.trans hc⟩

/-- **C41.** Translating by `t` and then by `u` is translating by `u*t` on the left, by `t*u` on the right; left and
right translations commute; `inv()` is its own inverse and exchanges the two. -/
theorem C41_laws (t u : Arr) (ht : IsPerm n t) (hu : IsPerm n u) :
    ((snGroup n).leftTranslate f t).bind ((snGroup n).leftTranslate · u) =
        (mul u t).bind ((snGroup n).leftTranslate f ·) ∧
      ((snGroup n).rightTranslate f t).bind ((snGroup n).rightTranslate · u) =
        (mul t u).bind ((snGroup n).rightTranslate f ·) ∧
      ((snGroup n).leftTranslate f t).bind ((snGroup n).rightTranslate · u) =
        ((snGroup n).rightTranslate f u).bind ((snGroup n).leftTranslate · t) ∧
      ((snGroup n).invert f).bind (snGroup n).invert = some f ∧
      (((snGroup n).leftTranslate f t).bind (snGroup n).invert =
        ((snGroup n).invert f).bind fun V => (Perm.inverse t).bind ((snGroup n).rightTranslate V ·)) := by
  obtain ⟨τ, rfl⟩ := ht
  obtain ⟨υ, rfl⟩ := hu
  have h := snGroup_implements n hn
  obtain ⟨g, rfl⟩ := (written_iff (I := snGroup n) (e := elemEquiv n) f).1 hf
  refine ⟨?_, ?_, ?_, ?_, ?_⟩
  · rw [leftTranslate_eq h, Option.bind_some, leftTranslate_eq h, mul_eq, Option.bind_some, leftTranslate_eq h]
    simp [mul_assoc]
  · rw [rightTranslate_eq h, Option.bind_some, rightTranslate_eq h, mul_eq, Option.bind_some, rightTranslate_eq h]
    simp [mul_assoc]
  · rw [leftTranslate_eq h, Option.bind_some, rightTranslate_eq h, rightTranslate_eq h, Option.bind_some, leftTranslate_eq h]
    simp [mul_assoc]
  · rw [invert_eq h, Option.bind_some, invert_eq h]
    simp
  · rw [leftTranslate_eq h, Option.bind_some, invert_eq h, invert_eq h, Option.bind_some, inverse_eq, Option.bind_some,
      rightTranslate_eq h]
    simp

end

/-- Translation on the left and on the right differ. -/
example : (snGroup 3).rightTranslate [some 1, some 2, some 3, some 4, some 5, some 6] [some 2, some 1, some 3] =
      some [some 2, some 1, some 5, some 6, some 3, some 4] := by decide +kernel

/-! ## C42: convolution -/

section
variable (n : Nat) (hn : 1 ≤ n)
include hn

/-- **C42.** The convolution is defined and written everywhere, and its value at `s` is the sum of `f(s*t.inv()) g(t)`
over all elements `t`. -/
theorem C42_convolve (f g : Cells ℝ) (hf : Written (snSize n) f) (hg : Written (snSize n) g) :
    ∃ h, (snGroup n).convolve f g = some h ∧ Written (snSize n) h ∧ ∀ s, IsPerm n s → ∃ F K : Nat → ℝ,
      (∀ j < snSize n, ∃ t u v, element n j = some t ∧ Perm.inverse t = some u ∧ mul s u = some v ∧
        (snGroup n).value f v = some (F j) ∧ (snGroup n).value g t = some (K j)) ∧
      (snGroup n).value h s = some (∑ j ∈ Finset.range (snSize n), F j * K j) := by
  have hI := snGroup_implements n hn
  obtain ⟨f, rfl⟩ := (written_iff (I := snGroup n) (e := elemEquiv n) f).1 hf
  obtain ⟨g, rfl⟩ := (written_iff (I := snGroup n) (e := elemEquiv n) g).1 hg
  refine ⟨_, convolve_eq hI f g, (written_iff (I := snGroup n) (e := elemEquiv n) _).2 ⟨_, rfl⟩, ?_⟩
  rintro s ⟨σ, rfl⟩
  refine ⟨fun j => f (σ * (elem n j)⁻¹), fun j => g (elem n j), fun j hj => ⟨_, _, _, element_eq n j hj, inverse_eq _,
    mul_eq _ _, hI.value_eq f _, hI.value_eq g _⟩, ?_⟩
  rw [hI.value_eq]
  congr 1
  exact (sum_elem fun τ => f (σ * τ⁻¹) * g τ).symm

/-- **C42.** Convolution is associative. -/
theorem C42_associative (f g h : Cells ℝ) (hf : Written (snSize n) f) (hg : Written (snSize n) g)
    (hh : Written (snSize n) h) :
    ((snGroup n).convolve f g).bind ((snGroup n).convolve · h) = ((snGroup n).convolve g h).bind ((snGroup n).convolve f ·) ∧
      (((snGroup n).convolve f g).bind ((snGroup n).convolve · h)).isSome := by
  have hI := snGroup_implements n hn
  obtain ⟨f, rfl⟩ := (written_iff (I := snGroup n) (e := elemEquiv n) f).1 hf
  obtain ⟨g, rfl⟩ := (written_iff (I := snGroup n) (e := elemEquiv n) g).1 hg
  obtain ⟨h, rfl⟩ := (written_iff (I := snGroup n) (e := elemEquiv n) h).1 hh
  rw [convolve_eq hI, convolve_eq hI, Option.bind_some, Option.bind_some, convolve_eq hI, convolve_eq hI]
  refine ⟨?_, rfl⟩
  congr 2
  funext x
  simp only [Finset.sum_mul, Finset.mul_sum]
  rw [Finset.sum_comm]
  refine Eq.trans ?_ Finset.sum_comm
  rw [Finset.sum_comm]
  refine Finset.sum_congr rfl fun z _ => ?_
  refine Fintype.sum_equiv (Equiv.mulRight z) _ _ fun y => ?_
  simp [mul_assoc]

/-- **C42.** Convolution is linear in either argument. -/
theorem C42_bilinear (f f₁ f₂ g : Cells ℝ) (a b : ℝ) (hf : Written (snSize n) f) (hf₁ : Written (snSize n) f₁)
    (hf₂ : Written (snSize n) f₂) (hg : Written (snSize n) g)
    (hlin : ∀ i < snSize n, ∃ x y, rdC f₁ i = some x ∧ rdC f₂ i = some y ∧ rdC f i = some (a * x + b * y)) :
    (∃ h h₁ h₂, (snGroup n).convolve f g = some h ∧ (snGroup n).convolve f₁ g = some h₁ ∧
        (snGroup n).convolve f₂ g = some h₂ ∧
        ∀ i < snSize n, ∃ x y, rdC h₁ i = some x ∧ rdC h₂ i = some y ∧ rdC h i = some (a * x + b * y)) ∧
      (∃ h h₁ h₂, (snGroup n).convolve g f = some h ∧ (snGroup n).convolve g f₁ = some h₁ ∧
        (snGroup n).convolve g f₂ = some h₂ ∧
        ∀ i < snSize n, ∃ x y, rdC h₁ i = some x ∧ rdC h₂ i = some y ∧ rdC h i = some (a * x + b * y)) := by
  have hI := snGroup_implements n hn
  obtain ⟨f, rfl⟩ := (written_iff (I := snGroup n) (e := elemEquiv n) f).1 hf
  obtain ⟨f₁, rfl⟩ := (written_iff (I := snGroup n) (e := elemEquiv n) f₁).1 hf₁
  obtain ⟨f₂, rfl⟩ := (written_iff (I := snGroup n) (e := elemEquiv n) f₂).1 hf₂
  obtain ⟨g, rfl⟩ := (written_iff (I := snGroup n) (e := elemEquiv n) g).1 hg
  have key : ∀ x, f x = a * f₁ x + b * f₂ x := by
    intro x
    obtain ⟨i, hi, rfl⟩ := exists_elem n x
    obtain ⟨x, y, h1, h2, h3⟩ := hlin i hi
    rw [Option.some.inj ((rdC_sn f hi).symm.trans h3), Option.some.inj ((rdC_sn f₁ hi).symm.trans h1),
      Option.some.inj ((rdC_sn f₂ hi).symm.trans h2)]
  refine ⟨⟨_, _, _, convolve_eq hI _ _, convolve_eq hI _ _, convolve_eq hI _ _, fun i hi => ⟨_, _,
      rdC_sn _ hi, rdC_sn _ hi, (rdC_sn _ hi).trans ?_⟩⟩,
    ⟨_, _, _, convolve_eq hI _ _, convolve_eq hI _ _, convolve_eq hI _ _, fun i hi => ⟨_, _,
      rdC_sn _ hi, rdC_sn _ hi, (rdC_sn _ hi).trans ?_⟩⟩⟩
  · congr 1
    simp only [key, Finset.mul_sum, ← Finset.sum_add_distrib]
    exact Finset.sum_congr rfl fun y _ => by ring
  · congr 1
    simp only [key, Finset.mul_sum, ← Finset.sum_add_distrib]
    exact Finset.sum_congr rfl fun y _ => by ring

/-- **C42.** The function that is 1 at the identity and 0 elsewhere is neutral on both sides. -/
theorem C42_delta (f δ : Cells ℝ) (hf : Written (snSize n) f) (hδ : Written (snSize n) δ) (ι : Arr)
    (hι : identity n = some ι) (h1 : (snGroup n).value δ ι = some 1)
    (h0 : ∀ s, IsPerm n s → s ≠ ι → (snGroup n).value δ s = some 0) :
    (snGroup n).convolve f δ = some f ∧ (snGroup n).convolve δ f = some f := by
  have hI := snGroup_implements n hn
  obtain ⟨f, rfl⟩ := (written_iff (I := snGroup n) (e := elemEquiv n) f).1 hf
  obtain ⟨δ, rfl⟩ := (written_iff (I := snGroup n) (e := elemEquiv n) δ).1 hδ
  rw [identity_eq] at hι
  obtain rfl := Option.some.inj hι
  rw [hI.value_eq] at h1
  have k1 : δ 1 = 1 := Option.some.inj h1
  have k0 : ∀ x, x ≠ 1 → δ x = 0 := fun x hx => by
    have := h0 (enc x) ⟨x, rfl⟩ fun hh => hx (enc_injective hh)
    rw [hI.value_eq] at this
    exact Option.some.inj this
  rw [convolve_eq hI, convolve_eq hI]
  constructor
  · congr 2
    funext x
    rw [Finset.sum_eq_single 1 (fun y _ hy => by rw [k0 y hy, mul_zero]) (by simp), k1]
    simp
  · congr 2
    funext x
    rw [Finset.sum_eq_single x (fun y _ hy => by rw [k0 _ (by rw [Ne, mul_inv_eq_one]; exact fun h => hy h.symm), zero_mul])
      (by simp), mul_inv_cancel, k1, one_mul]

end

/-- The hypotheses of `C42_delta` are met at `n=2`. -/
example : Written (snSize 2) [some 1, some (0 : ℝ)] ∧ identity 2 = some [some 1, some 2] ∧
    (snGroup 2).value [some 1, some (0 : ℝ)] [some 1, some 2] = some 1 ∧
    (snGroup 2).value [some 1, some (0 : ℝ)] [some 2, some 1] = some 0 := by
  have i1 : (snGroup 2).index [some 1, some 2] = some 0 := by decide +kernel
  have i2 : (snGroup 2).index [some 2, some 1] = some 1 := by decide +kernel
  refine ⟨⟨by decide, by simp⟩, by decide, ?_, ?_⟩
  · simp [GroupI.value, i1, rdC]
  · simp [GroupI.value, i2, rdC]

/-! ## C39: the transform of translates and convolutions -/

/-- `ws` is the Fourier transform of the function with cells `f` -/
def TransformOf (n : Nat) (f : Cells ℝ) (ws : List VPart) : Prop :=
  ∃ F : Nat → ℝ, (∀ c < snSize n, rdC f c = some (F c)) ∧ HasShape allCols (partitions n) ws ∧
    IsTransform (snSize n) (fun c => element n c) F allCols ws

/-- every function has a Fourier transform -/
theorem exists_transform (n : Nat) (hn : 1 ≤ n) (f : Cells ℝ) (hf : Written (snSize n) f) : ∃ ws, TransformOf n f ws := by
  have hget : ∀ c : Nat, ∃ v, c < snSize n → rdC f c = some v := by
    intro c
    by_cases hc : c < snSize n
    · have hc' : c < f.length := by rw [hf.1]; exact hc
      obtain ⟨v, hv⟩ := Option.isSome_iff_exists.1 (hf.2 _ (List.getElem_mem hc'))
      exact ⟨v, fun _ => by rw [rdC_ofNat, List.getElem?_eq_getElem hc', hv]; rfl⟩
    · exact ⟨0, fun h => absurd h hc⟩
  choose F hF using hget
  obtain ⟨Ls, ws, -, -, h3, h4⟩ := C37_fft_reference n hn F
  exact ⟨ws, F, hF, h3, h4⟩

theorem TransformOf.entry {n : Nat} (hn : 1 ≤ n) {f : Equiv.Perm (Fin n) → ℝ} {ws : List VPart}
    (h : TransformOf n (cellsOf (I := snGroup n) (elemEquiv n) f) ws) {i : Nat} {W : VPart} (hi : ws[i]? = some W) :
    ∃ (p : List Nat) (hp : IsPartition n p) (hrep : Repr' hp W.irrep), (partitions n)[i]? = some p ∧ W.d = W.irrep.d ∧
      W.m = W.irrep.d ∧ ∀ a b : Fin W.irrep.d, W.data a b = ∑ σ, f σ * rho hp σ⁻¹ (hrep.eqv a) (hrep.eqv b) := by
  obtain ⟨F, hF, hs, ht⟩ := h
  have hi' : i < (partitions n).length := by rw [← hs.1]; exact (List.getElem?_eq_some_iff.1 hi).1
  obtain ⟨hmk, hd, hm⟩ := hs.2 i _ W (List.getElem?_eq_getElem hi') hi
  have hp := (mem_partitions n hn _).1 (List.getElem_mem hi')
  obtain ⟨R, hR, -, hr⟩ := exists_repr hn hp
  obtain rfl : R = W.irrep := Option.some.inj (hR.symm.trans hmk)
  refine ⟨_, hp, hr, List.getElem?_eq_getElem hi', hd, by simpa using hm, fun a b => ?_⟩
  have hk : (allCols W.irrep)[(b : Nat)]? = some (b : Nat) := List.getElem?_range b.2
  rw [ht.entry (g := fun c => elem n c) (fun c hc => element_eq n c hc) (List.mem_of_getElem? hi) hr
    (by rw [hd]; exact a.2) a.2 hk b.2]
  rw [← sum_elem]
  refine Finset.sum_congr rfl fun c hc => ?_
  have hc' : c < snSize n := Finset.mem_range.1 hc
  rw [← Option.some.inj ((rdC_sn f hc').symm.trans (hF c hc'))]

/-- the same part of two transforms has the same irrep, and its entries are sums over the group -/
theorem TransformOf.pair {n : Nat} (hn : 1 ≤ n) {f f' : Equiv.Perm (Fin n) → ℝ} {ws ws' : List VPart}
    (h : TransformOf n (cellsOf (I := snGroup n) (elemEquiv n) f) ws)
    (h' : TransformOf n (cellsOf (I := snGroup n) (elemEquiv n) f') ws') {i : Nat} {W W' : VPart} (hi : ws[i]? = some W)
    (hi' : ws'[i]? = some W') :
    W'.irrep = W.irrep ∧ ∃ (p : List Nat) (hp : IsPartition n p) (hrep : Repr' hp W.irrep),
      (partitions n)[i]? = some p ∧ W.d = W.irrep.d ∧ W.m = W.irrep.d ∧ W'.d = W.irrep.d ∧ W'.m = W.irrep.d ∧
      (∀ a b : Fin W.irrep.d, W.data a b = ∑ σ, f σ * rho hp σ⁻¹ (hrep.eqv a) (hrep.eqv b)) ∧
      (∀ a b : Fin W.irrep.d, W'.data a b = ∑ σ, f' σ * rho hp σ⁻¹ (hrep.eqv a) (hrep.eqv b)) := by
  have e : W'.irrep = W.irrep := by
    obtain ⟨F, hF, hs, ht⟩ := h
    obtain ⟨F', hF', hs', ht'⟩ := h'
    have hlt : i < (partitions n).length := by rw [← hs.1]; exact (List.getElem?_eq_some_iff.1 hi).1
    obtain ⟨hmk, -, -⟩ := hs.2 i _ W (List.getElem?_eq_getElem hlt) hi
    obtain ⟨hmk', -, -⟩ := hs'.2 i _ W' (List.getElem?_eq_getElem hlt) hi'
    exact Option.some.inj (hmk'.symm.trans hmk)
  obtain ⟨p, hp, hr, hpi, d1, m1, k1⟩ := h.entry hn hi
  obtain ⟨p', hp', hr', hpi', d2, m2, k2⟩ := h'.entry hn hi'
  obtain rfl : p = p' := Option.some.inj (hpi.symm.trans hpi')
  refine ⟨e, p, hp, hr, hpi, d1, m1, by rw [d2, e], by rw [m2, e], k1, ?_⟩
  clear hi' d2 m2
  revert hr' k2
  obtain ⟨irr, d, m, data⟩ := W'
  simp only at e
  subst e
  intro hr' k2
  exact k2

section
variable (n : Nat) (hn : 1 ≤ n)
include hn

/-- **C39.** The transform of `right_translate(t)` is obtained by multiplying every part from the left by the matrix
that the irrep has at `t.inv()`. -/
theorem C39_right_translate (f f' : Cells ℝ) (t : Arr) (hf : Written (snSize n) f) (ht : IsPerm n t)
    (hR : (snGroup n).rightTranslate f t = some f') (ws ws' : List VPart) (h : TransformOf n f ws)
    (h' : TransformOf n f' ws') (i : Nat) (W W' : VPart) (hi : ws[i]? = some W) (hi' : ws'[i]? = some W') :
    W'.irrep = W.irrep ∧ W'.d = W.d ∧ W'.m = W.m ∧ ∃ u A, Perm.inverse t = some u ∧ W.irrep.eval u = some A ∧
      ∀ a < W.d, ∀ b < W.m, W'.data a b = ∑ c ∈ Finset.range W.d, A a c * W.data c b := by
  obtain ⟨τ, rfl⟩ := ht
  obtain ⟨f, rfl⟩ := (written_iff (I := snGroup n) (e := elemEquiv n) f).1 hf
  rw [rightTranslate_eq (snGroup_implements n hn)] at hR
  obtain rfl := Option.some.inj hR
  obtain ⟨e, p, hp, hr, -, d1, m1, d2, m2, k1, k2⟩ := h.pair hn h' hi hi'
  obtain ⟨A, hA, hA'⟩ := hr.eval_eq τ⁻¹
  refine ⟨e, by rw [d1, d2], by rw [m1, m2], _, A, inverse_eq τ, hA, ?_⟩
  rw [d1, m1]
  intro a ha b hb
  rw [Finset.sum_range, k2 ⟨a, ha⟩ ⟨b, hb⟩]
  have e2 : ∀ c : Fin W.irrep.d, A a c * W.data c b =
      ∑ σ, f σ * (rho hp τ⁻¹ (hr.eqv ⟨a, ha⟩) (hr.eqv c) * rho hp σ⁻¹ (hr.eqv c) (hr.eqv ⟨b, hb⟩)) := by
    intro c
    have h3 := hA' ⟨a, ha⟩ c
    rw [hr.rep_apply] at h3
    rw [show A a c = rho hp τ⁻¹ (hr.eqv ⟨a, ha⟩) (hr.eqv c) from h3, k1 c ⟨b, hb⟩, Finset.mul_sum]
    exact Finset.sum_congr rfl fun σ _ => by ring
  simp only [e2]
  rw [Finset.sum_comm]
  refine Fintype.sum_equiv (Equiv.mulRight τ⁻¹) _ _ fun σ => ?_
  simp only [Equiv.coe_mulRight, mul_inv_rev, inv_inv]
  rw [← Finset.mul_sum, hr.eqv.sum_comp (fun c => rho hp τ⁻¹ (hr.eqv ⟨a, ha⟩) c * rho hp (τ * σ⁻¹) c (hr.eqv ⟨b, hb⟩)),
    ← Matrix.mul_apply, ← map_mul, inv_mul_cancel_left]

/-- **C39.** The transform of `left_translate(t)` is obtained by multiplying every part from the right by the matrix
that the irrep has at `t.inv()`. -/
theorem C39_left_translate (f f' : Cells ℝ) (t : Arr) (hf : Written (snSize n) f) (ht : IsPerm n t)
    (hR : (snGroup n).leftTranslate f t = some f') (ws ws' : List VPart) (h : TransformOf n f ws)
    (h' : TransformOf n f' ws') (i : Nat) (W W' : VPart) (hi : ws[i]? = some W) (hi' : ws'[i]? = some W') :
    W'.irrep = W.irrep ∧ W'.d = W.d ∧ W'.m = W.m ∧ ∃ u A, Perm.inverse t = some u ∧ W.irrep.eval u = some A ∧
      ∀ a < W.d, ∀ b < W.m, W'.data a b = ∑ c ∈ Finset.range W.d, W.data a c * A c b := by
  obtain ⟨τ, rfl⟩ := ht
  obtain ⟨f, rfl⟩ := (written_iff (I := snGroup n) (e := elemEquiv n) f).1 hf
  rw [leftTranslate_eq (snGroup_implements n hn)] at hR
  obtain rfl := Option.some.inj hR
  obtain ⟨e, p, hp, hr, -, d1, m1, d2, m2, k1, k2⟩ := h.pair hn h' hi hi'
  obtain ⟨A, hA, hA'⟩ := hr.eval_eq τ⁻¹
  refine ⟨e, by rw [d1, d2], by rw [m1, m2], _, A, inverse_eq τ, hA, ?_⟩
  rw [d1, m1]
  intro a ha b hb
  rw [Finset.sum_range, k2 ⟨a, ha⟩ ⟨b, hb⟩]
  have e2 : ∀ c : Fin W.irrep.d, W.data a c * A c b =
      ∑ σ, f σ * (rho hp σ⁻¹ (hr.eqv ⟨a, ha⟩) (hr.eqv c) * rho hp τ⁻¹ (hr.eqv c) (hr.eqv ⟨b, hb⟩)) := by
    intro c
    have h3 := hA' c ⟨b, hb⟩
    rw [hr.rep_apply] at h3
    rw [show A c b = rho hp τ⁻¹ (hr.eqv c) (hr.eqv ⟨b, hb⟩) from h3, k1 ⟨a, ha⟩ c, Finset.sum_mul]
    exact Finset.sum_congr rfl fun σ _ => by ring
  simp only [e2]
  rw [Finset.sum_comm]
  refine Fintype.sum_equiv (Equiv.mulLeft τ⁻¹) _ _ fun σ => ?_
  simp only [Equiv.coe_mulLeft, mul_inv_rev, inv_inv]
  rw [← Finset.mul_sum, hr.eqv.sum_comp (fun c => rho hp (σ⁻¹ * τ) (hr.eqv ⟨a, ha⟩) c * rho hp τ⁻¹ c (hr.eqv ⟨b, hb⟩)),
    ← Matrix.mul_apply, ← map_mul, mul_inv_cancel_right]

/-- **C39.** The transform of `f.convolve(g)` consists of the products of the parts of `g` and `f`, in this order. -/
theorem C39_convolve (f g h : Cells ℝ) (hf : Written (snSize n) f) (hg : Written (snSize n) g)
    (hc : (snGroup n).convolve f g = some h) (fs gs hs : List VPart) (Tf : TransformOf n f fs) (Tg : TransformOf n g gs)
    (Th : TransformOf n h hs) (i : Nat) (F G H : VPart) (hF : fs[i]? = some F) (hG : gs[i]? = some G)
    (hH : hs[i]? = some H) :
    H.irrep = F.irrep ∧ H.irrep = G.irrep ∧ H.d = H.irrep.d ∧ H.m = H.irrep.d ∧
      ∀ a < H.d, ∀ b < H.d, H.data a b = ∑ c ∈ Finset.range H.d, G.data a c * F.data c b := by
  obtain ⟨f, rfl⟩ := (written_iff (I := snGroup n) (e := elemEquiv n) f).1 hf
  obtain ⟨g, rfl⟩ := (written_iff (I := snGroup n) (e := elemEquiv n) g).1 hg
  rw [convolve_eq (snGroup_implements n hn)] at hc
  obtain rfl := Option.some.inj hc
  obtain ⟨e1, p, hp, hr, hpi, d1, m1, d2, m2, k1, k2⟩ := Th.pair hn Tf hH hF
  obtain ⟨e2, p', hp', hr', hpi', d1', m1', d2', m2', k1', k2'⟩ := Th.pair hn Tg hH hG
  obtain rfl : p = p' := Option.some.inj (hpi.symm.trans hpi')
  refine ⟨e1.symm, e2.symm, d1, m1, ?_⟩
  rw [d1]
  intro a ha b hb
  rw [Finset.sum_range, k1 ⟨a, ha⟩ ⟨b, hb⟩]
  have e3 : ∀ c : Fin H.irrep.d, G.data a c * F.data c b =
      ∑ τ, ∑ σ, f σ * g τ * (rho hp τ⁻¹ (hr.eqv ⟨a, ha⟩) (hr.eqv c) * rho hp σ⁻¹ (hr.eqv c) (hr.eqv ⟨b, hb⟩)) := by
    intro c
    rw [k2 c ⟨b, hb⟩, k2' ⟨a, ha⟩ c, Finset.sum_mul_sum]
    exact Finset.sum_congr rfl fun τ _ => Finset.sum_congr rfl fun σ _ => by ring
  simp only [e3, Finset.sum_mul]
  rw [Finset.sum_comm]
  conv_rhs => rw [Finset.sum_comm]
  refine Finset.sum_congr rfl fun τ _ => ?_
  rw [Finset.sum_comm]
  refine Fintype.sum_equiv (Equiv.mulRight τ⁻¹) _ _ fun σ => ?_
  simp only [Equiv.coe_mulRight, mul_inv_rev, inv_inv]
  rw [← Finset.mul_sum, hr.eqv.sum_comp (fun c => rho hp τ⁻¹ (hr.eqv ⟨a, ha⟩) c * rho hp (τ * σ⁻¹) c (hr.eqv ⟨b, hb⟩)),
    ← Matrix.mul_apply, ← map_mul, inv_mul_cancel_left]

omit hn in
/-- **C39.** Full statement: what `ClausenFFT(n)` returns for a translate or a convolution is related to what it
returns for the functions by `C39_right_translate`, `C39_left_translate` and `C39_convolve`. Missing: `n≥5`, where the
code does not return the transform (`C37_fft_wrong`, `C37_fft_undefined`). What holds: for `n≤4` it returns the
transform of every function, so that the three theorems apply to its results. -/
theorem C39_fft_partial (hn : 1 ≤ n) (h4 : n ≤ 4) (f : Cells ℝ) (F : Nat → ℝ) (hF : ∀ c < snSize n, rdC f c = some (F c)) :
    ∃ ws, fft n F = some ws ∧ TransformOf n f ws := by
  obtain ⟨ws, h1, h2, h3⟩ := C37_fft_partial n hn h4 F
  exact ⟨ws, h1, F, hF, h2, h3⟩

end

/-- The hypotheses of the three theorems can be met for every function and every `t`. -/
example (n : Nat) (hn : 1 ≤ n) (f g : Cells ℝ) (t : Arr) (hf : Written (snSize n) f) (hg : Written (snSize n) g)
    (ht : IsPerm n t) :
    ∃ l r c fs gs ls rs cs, (snGroup n).leftTranslate f t = some l ∧ (snGroup n).rightTranslate f t = some r ∧
      (snGroup n).convolve f g = some c ∧ TransformOf n f fs ∧ TransformOf n g gs ∧ TransformOf n l ls ∧
      TransformOf n r rs ∧ TransformOf n c cs := by
  obtain ⟨-, l, r, -, -, h1, h2, -, w1, w2, -, -⟩ := C41_translations n hn f hf t ht
  obtain ⟨c, h3, w3, -⟩ := C42_convolve n hn f g hf hg
  obtain ⟨fs, k1⟩ := exists_transform n hn f hf
  obtain ⟨gs, k2⟩ := exists_transform n hn g hg
  obtain ⟨ls, k3⟩ := exists_transform n hn l w1
  obtain ⟨rs, k4⟩ := exists_transform n hn r w2
  obtain ⟨cs, k5⟩ := exists_transform n hn c w3
  exact ⟨l, r, c, fs, gs, ls, rs, cs, h1, h2, h3, k1, k2, k3, k4, k5⟩

end Snob.Props
