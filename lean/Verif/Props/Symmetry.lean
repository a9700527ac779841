import Verif.Props.CharFn
import Verif.Proofs.TrivSign

/-! # Property C119: symmetries of a function show in its Fourier transform -/

namespace Snob

open IP Perm
open scoped Nat

variable {n : Nat} {p : List Nat}

/-- the Fourier transform as a matrix -/
noncomputable def hat (hp : IsPartition n p) (f : Equiv.Perm (Fin n) → ℝ) : Matrix (Wd n p) (Wd n p) ℝ := fun a b => ∑ σ, f σ * rho hp σ⁻¹ a b

theorem hat_eq (hp : IsPartition n p) (f : Equiv.Perm (Fin n) → ℝ) : hat hp f = ∑ σ, f σ • rho hp σ⁻¹ := by
  ext a b
  rw [Matrix.sum_apply]
  rfl

theorem hat_inversion (f : Equiv.Perm (Fin n) → ℝ) (τ : Equiv.Perm (Fin n)) :
    ∑ q : Pt n, (dimW n q.1 : ℝ) * Matrix.trace (hat q.2 f * rho q.2 τ) = n ! * f τ := by
  have e : ∀ q : Pt n, (dimW n q.1 : ℝ) * Matrix.trace (hat q.2 f * rho q.2 τ) = ∑ σ, f σ * ((dimW n q.1 : ℝ) * Matrix.trace (rho q.2 (σ⁻¹ * τ))) := fun q => by
    rw [hat_eq, Finset.sum_mul, Matrix.trace_sum, Finset.mul_sum]
    refine Finset.sum_congr rfl fun σ _ => ?_
    rw [Matrix.smul_mul, Matrix.trace_smul, smul_eq_mul, map_mul]
    ring
  rw [Finset.sum_congr rfl fun q _ => e q, Finset.sum_comm]
  simp only [← Finset.mul_sum, completeness_trace]
  rw [Finset.sum_eq_single τ]
  · rw [if_pos (inv_mul_cancel τ), mul_comm]
  · intro σ _ hσ
    rw [if_neg fun h => hσ (inv_mul_eq_one.1 h), mul_zero]
  · exact fun h => absurd (Finset.mem_univ _) h

theorem hat_injective {f g : Equiv.Perm (Fin n) → ℝ} (h : ∀ q : Pt n, hat q.2 f = hat q.2 g) : f = g := by
  have hn0 : (n ! : ℝ) ≠ 0 := by exact_mod_cast (Nat.factorial_pos n).ne'
  funext τ
  have := hat_inversion f τ
  rw [Finset.sum_congr rfl fun q _ => by rw [h q], hat_inversion g τ] at this
  exact (mul_left_cancel₀ hn0 this).symm

theorem hat_conj (hp : IsPartition n p) (f : Equiv.Perm (Fin n) → ℝ) (τ : Equiv.Perm (Fin n)) :
    hat hp (fun σ => f (τ * σ * τ⁻¹)) = rho hp τ⁻¹ * hat hp f * rho hp τ := by
  rw [hat_eq, hat_eq, Finset.mul_sum, Finset.sum_mul]
  refine Fintype.sum_equiv (MulAut.conj τ).toEquiv _ _ fun σ => ?_
  show f (τ * σ * τ⁻¹) • rho hp σ⁻¹ = rho hp τ⁻¹ * (f (τ * σ * τ⁻¹) • rho hp (τ * σ * τ⁻¹)⁻¹) * rho hp τ
  rw [Matrix.mul_smul, Matrix.smul_mul, ← map_mul, ← map_mul]
  congr 2
  group

theorem hat_inv (hp : IsPartition n p) (f : Equiv.Perm (Fin n) → ℝ) : hat hp (fun σ => f σ⁻¹) = (hat hp f).transpose := by
  ext a b
  rw [Matrix.transpose_apply]
  refine Fintype.sum_equiv (Equiv.inv _) _ _ fun σ => ?_
  show f σ⁻¹ * rho hp σ⁻¹ a b = f σ⁻¹ * rho hp (σ⁻¹)⁻¹ b a
  rw [rho_inv hp σ⁻¹, Matrix.transpose_apply]

/-- a function is constant on the classes exactly if its transform consists of multiples of the identity -/
theorem hat_central (f : Equiv.Perm (Fin n) → ℝ) :
    (∀ σ τ, f (τ * σ * τ⁻¹) = f σ) ↔ ∀ q : Pt n, ∃ z : ℝ, hat q.2 f = z • 1 := by
  constructor
  · intro h q
    refine schur_eq q.2 _ fun σ => ?_
    have h1 := hat_conj q.2 f σ
    rw [funext fun x => h x σ] at h1
    have h1 : rho q.2 σ * hat q.2 f = hat q.2 f * rho q.2 σ := by
      conv_lhs => rw [h1]
      rw [← Matrix.mul_assoc, ← Matrix.mul_assoc, ← map_mul, mul_inv_cancel, map_one, Matrix.one_mul]
    first | exact h1 | exact h1.symm
  · intro h σ τ
    have : (fun σ => f (τ * σ * τ⁻¹)) = f := hat_injective fun q => by
      obtain ⟨z, hz⟩ := h q
      rw [hat_conj, hz, Matrix.mul_smul, Matrix.mul_one, Matrix.smul_mul, ← map_mul, inv_mul_cancel, map_one]
    exact congrFun this σ

namespace Props

theorem entry_hat {n : Nat} (hn : 1 ≤ n) {f : Equiv.Perm (Fin n) → ℝ} {ws : List VPart}
    (h : TransformOf n (cellsOf (I := snGroup n) (elemEquiv n) f) ws) {i : Nat} {W : VPart} (hi : ws[i]? = some W) :
    ∃ (q : Pt n) (hr : Repr' q.2 W.irrep), (partitions n)[i]? = some q.1 ∧ W.d = W.irrep.d ∧
      W.m = W.irrep.d ∧ ∀ a b : Fin W.irrep.d, W.data a b = hat q.2 f (hr.eqv a) (hr.eqv b) := by
  obtain ⟨p, hp, hr, h1, h2, h3, h4⟩ := h.entry hn hi
  exact ⟨⟨p, hp⟩, hr, h1, h2, h3, h4⟩

theorem transform_at {n : Nat} (hn : 1 ≤ n) {f : Cells ℝ} {ws : List VPart} (h : TransformOf n f ws) (q : Pt n) :
    ∃ (i : Nat) (W : VPart), ws[i]? = some W ∧ (partitions n)[i]? = some q.1 := by
  obtain ⟨F, _, hs, _⟩ := h
  have hm := (mem_partitions n hn q.1).2 q.2
  obtain ⟨i, hi, e⟩ := List.getElem_of_mem hm
  exact ⟨i, ws[i]'(by rw [hs.1]; exact hi), List.getElem?_eq_getElem _, by rw [List.getElem?_eq_getElem hi, e]⟩

section
variable (n : Nat) (hn : 1 ≤ n)
include hn

/-- **C119.** Functions with the same Fourier transform are the same. -/
theorem C119_unique (f g : Cells ℝ) (hf : Written (snSize n) f) (hg : Written (snSize n) g) (ws vs : List VPart)
    (h : TransformOf n f ws) (h' : TransformOf n g vs)
    (he : ∀ (i : Nat) (W V : VPart), ws[i]? = some W → vs[i]? = some V → ∀ a < W.d, ∀ b < W.d, W.data a b = V.data a b) : f = g := by
  obtain ⟨f, rfl⟩ := (written_iff (I := snGroup n) (e := elemEquiv n) f).1 hf
  obtain ⟨g, rfl⟩ := (written_iff (I := snGroup n) (e := elemEquiv n) g).1 hg
  congr 1
  refine hat_injective fun q => ?_
  obtain ⟨i, W, hi, hq⟩ := transform_at hn h q
  obtain ⟨i', V, hi', hq'⟩ := transform_at hn h' q
  obtain rfl : i = i' := by
    have := partitions_nodup n
    obtain ⟨l1, e1⟩ := List.getElem?_eq_some_iff.1 hq
    obtain ⟨l2, e2⟩ := List.getElem?_eq_some_iff.1 hq'
    exact (List.Nodup.getElem_inj_iff this).1 (e1.trans e2.symm)
  obtain ⟨e, p, hp, hr, hpi, d1, m1, d2, m2, k1, k2⟩ := h.pair hn h' hi hi'
  obtain rfl : q = ⟨p, hp⟩ := Subtype.ext (Option.some.inj (hq.symm.trans hpi))
  ext a b
  obtain ⟨a, rfl⟩ := hr.eqv.surjective a
  obtain ⟨b, rfl⟩ := hr.eqv.surjective b
  have := he i W V hi hi' a (by rw [d1]; exact a.2) b (by rw [d1]; exact b.2)
  rw [k1, k2] at this
  exact this

/-- **C119.** A function is constant on the conjugacy classes exactly if every part of its transform is a multiple of the identity matrix. -/
theorem C119_class_functions (f : Cells ℝ) (hf : Written (snSize n) f) (ws : List VPart) (h : TransformOf n f ws) :
    ConstantOnClasses n f ↔ ∀ W ∈ ws, ∃ z : ℝ, ∀ a < W.d, ∀ b < W.m, W.data a b = if a = b then z else 0 := by
  obtain ⟨f, rfl⟩ := (written_iff (I := snGroup n) (e := elemEquiv n) f).1 hf
  have hI := snGroup_implements n hn
  have e1 : ConstantOnClasses n (cellsOf (I := snGroup n) (elemEquiv n) f) ↔ ∀ σ τ, f (τ * σ * τ⁻¹) = f σ := by
    unfold ConstantOnClasses
    refine forall_congr' fun σ => forall_congr' fun τ => ?_
    rw [hI.value_eq, hI.value_eq, Option.some.injEq]
  rw [e1, hat_central]
  constructor
  · intro hc W hW
    obtain ⟨i, hi⟩ := List.getElem?_of_mem hW
    obtain ⟨q, hr, _, d1, m1, k⟩ := entry_hat hn h hi
    obtain ⟨z, hz⟩ := hc q
    refine ⟨z, fun a ha b hb => ?_⟩
    rw [d1] at ha
    rw [m1] at hb
    have := k ⟨a, ha⟩ ⟨b, hb⟩
    rw [hz, Matrix.smul_apply, Matrix.one_apply, smul_eq_mul] at this
    rw [this]
    by_cases hab : a = b
    · subst hab; simp
    · rw [if_neg hab, if_neg fun h => hab (by simpa using hr.eqv.injective h), mul_zero]
  · intro hc q
    obtain ⟨i, W, hi, hq⟩ := transform_at hn h q
    obtain ⟨q', hr, hq', d1, m1, k⟩ := entry_hat hn h hi
    obtain rfl : q = q' := Subtype.ext (Option.some.inj (hq.symm.trans hq'))
    obtain ⟨z, hz⟩ := hc W (List.mem_of_getElem? hi)
    refine ⟨z, ?_⟩
    ext a b
    obtain ⟨a, rfl⟩ := hr.eqv.surjective a
    obtain ⟨b, rfl⟩ := hr.eqv.surjective b
    rw [← k, hz a (by rw [d1]; exact a.2) b (by rw [m1]; exact b.2), Matrix.smul_apply, Matrix.one_apply, smul_eq_mul]
    by_cases hab : a = b
    · subst hab; simp
    · rw [if_neg fun h => hab (Fin.ext h), if_neg fun h => hab (hr.eqv.injective h), mul_zero]

/-- **C119.** The transform of `f.inv()` consists of the transposed matrices. -/
theorem C119_inverse (f g : Cells ℝ) (hf : Written (snSize n) f) (hg : (snGroup n).invert f = some g) (ws vs : List VPart)
    (h : TransformOf n f ws) (h' : TransformOf n g vs) (i : Nat) (W V : VPart) (hi : ws[i]? = some W) (hi' : vs[i]? = some V) :
    V.irrep = W.irrep ∧ V.d = W.d ∧ V.m = W.m ∧ W.m = W.d ∧ ∀ a < W.d, ∀ b < W.d, V.data a b = W.data b a := by
  obtain ⟨f, rfl⟩ := (written_iff (I := snGroup n) (e := elemEquiv n) f).1 hf
  rw [invert_eq (snGroup_implements n hn)] at hg
  obtain rfl := Option.some.inj hg
  obtain ⟨e, p, hp, hr, hpi, d1, m1, d2, m2, k1, k2⟩ := h.pair hn h' hi hi'
  refine ⟨e, by rw [d1, d2], by rw [m1, m2], by rw [d1, m1], fun a ha b hb => ?_⟩
  rw [d1] at ha hb
  rw [k2 ⟨a, ha⟩ ⟨b, hb⟩, k1 ⟨b, hb⟩ ⟨a, ha⟩]
  exact congrFun (congrFun (hat_inv hp f) (hr.eqv ⟨a, ha⟩)) (hr.eqv ⟨b, hb⟩)

/-- **C119.** `f` has the same value at every permutation and its inverse exactly if every part of its transform is a symmetric matrix. -/
theorem C119_symmetric (f : Cells ℝ) (hf : Written (snSize n) f) (ws : List VPart) (h : TransformOf n f ws) :
    (snGroup n).invert f = some f ↔ ∀ W ∈ ws, ∀ a < W.d, ∀ b < W.d, W.data a b = W.data b a := by
  constructor
  · intro hg W hW a ha b hb
    obtain ⟨i, hi⟩ := List.getElem?_of_mem hW
    exact (C119_inverse n hn f f hf hg ws ws h h i W W hi hi).2.2.2.2 a ha b hb
  · intro hs
    have hex : ∃ g, (snGroup n).invert f = some g ∧ Written (snSize n) g := by
      obtain ⟨f, rfl⟩ := (written_iff (I := snGroup n) (e := elemEquiv n) f).1 hf
      exact ⟨_, invert_eq (snGroup_implements n hn) f, (written_iff (I := snGroup n) (e := elemEquiv n) _).2 ⟨_, rfl⟩⟩
    obtain ⟨g, hg, hw⟩ := hex
    obtain ⟨vs, h'⟩ := exists_transform n hn g hw
    rw [hg]
    congr 1
    refine (C119_unique n hn f g hf hw ws vs h h' fun i W V hi hi' a ha b hb => ?_).symm
    obtain ⟨-, -, -, -, k⟩ := C119_inverse n hn f g hf hg ws vs h h' i W V hi hi'
    rw [k a ha b hb]
    exact hs W (List.mem_of_getElem? hi) a ha b hb

/-- **C119.** The parts of `convolve(g.inv(),g)` are positive semidefinite. -/
theorem C119_autocorrelation (g g' h : Cells ℝ) (hg : Written (snSize n) g) (hg' : (snGroup n).invert g = some g')
    (hc : (snGroup n).convolve g' g = some h) (ws : List VPart) (hT : TransformOf n h ws) (W : VPart) (hW : W ∈ ws) (x : Nat → ℝ) :
    0 ≤ ∑ a ∈ Finset.range W.d, ∑ b ∈ Finset.range W.d, x a * W.data a b * x b := by
  have hw : Written (snSize n) g' := by
    obtain ⟨g, rfl⟩ := (written_iff (I := snGroup n) (e := elemEquiv n) g).1 hg
    rw [invert_eq (snGroup_implements n hn)] at hg'
    obtain rfl := Option.some.inj hg'
    exact (written_iff (I := snGroup n) (e := elemEquiv n) _).2 ⟨_, rfl⟩
  obtain ⟨fs, Tf⟩ := exists_transform n hn g' hw
  obtain ⟨gs, Tg⟩ := exists_transform n hn g hg
  obtain ⟨i, hi⟩ := List.getElem?_of_mem hW
  have hlen : ∀ {f : Cells ℝ} {ws : List VPart}, TransformOf n f ws → ws.length = (partitions n).length := fun ⟨_, _, hs, _⟩ => hs.1
  have hil : i < (partitions n).length := by rw [← hlen hT]; exact (List.getElem?_eq_some_iff.1 hi).1
  have hF : fs[i]? = some (fs[i]'(by rw [hlen Tf]; exact hil)) := List.getElem?_eq_getElem _
  have hG : gs[i]? = some (gs[i]'(by rw [hlen Tg]; exact hil)) := List.getElem?_eq_getElem _
  generalize (fs[i]'(by rw [hlen Tf]; exact hil)) = F at hF
  generalize (gs[i]'(by rw [hlen Tg]; exact hil)) = G at hG
  obtain ⟨e1, e2, e3, e4, k⟩ := C39_convolve n hn g' g h hw hg hc fs gs ws Tf Tg hT i F G W hF hG hi
  obtain ⟨i1, i2, i3, i4, k2⟩ := C119_inverse n hn g g' hg hg' gs fs Tg Tf i G F hG hF
  have hd : G.d = W.d := by
    obtain ⟨F0, _, hs, _⟩ := Tg
    obtain ⟨_, hd, _⟩ := hs.2 i _ G (List.getElem?_eq_getElem hil) hG
    rw [hd, e3, e2]
  rw [hd] at k2
  have e : ∑ a ∈ Finset.range W.d, ∑ b ∈ Finset.range W.d, x a * W.data a b * x b =
      ∑ c ∈ Finset.range W.d, (∑ a ∈ Finset.range W.d, x a * G.data a c) ^ 2 := by
    have e5 : ∀ c ∈ Finset.range W.d, (∑ a ∈ Finset.range W.d, x a * G.data a c) ^ 2 =
        ∑ a ∈ Finset.range W.d, ∑ b ∈ Finset.range W.d, x a * G.data a c * (x b * G.data b c) := fun c _ => by
      rw [sq, Finset.sum_mul_sum]
    rw [Finset.sum_congr rfl e5]
    conv_rhs => rw [Finset.sum_comm]
    refine Finset.sum_congr rfl fun a ha => ?_
    conv_rhs => rw [Finset.sum_comm]
    refine Finset.sum_congr rfl fun b hb => ?_
    rw [k a (Finset.mem_range.1 ha) b (Finset.mem_range.1 hb), Finset.mul_sum, Finset.sum_mul]
    refine Finset.sum_congr rfl fun c hc => ?_
    rw [k2 c (Finset.mem_range.1 hc) b (Finset.mem_range.1 hb)]
    ring
  rw [e]
  exact Finset.sum_nonneg fun c _ => sq_nonneg _

/-- **C119.** The first part is the sum of the values, the last part the sum with the signs. -/
theorem C119_sums (f : Equiv.Perm (Fin n) → ℝ) (F : Cells ℝ) (hF : Written (snSize n) F) (hv : ∀ σ, (snGroup n).value F (enc σ) = some (f σ))
    (ws : List VPart) (h : TransformOf n F ws) :
    ∃ (i : Nat) (W : VPart), ws[i]? = some W ∧ (partitions n)[i]? = some [n] ∧ W.d = 1 ∧ W.m = 1 ∧ W.data 0 0 = ∑ σ, f σ ∧
    ∃ (j : Nat) (V : VPart), ws[j]? = some V ∧ (partitions n)[j]? = some (List.replicate n 1) ∧ V.d = 1 ∧ V.m = 1 ∧
      V.data 0 0 = ∑ σ, f σ * ((Equiv.Perm.sign σ : Int) : ℝ) := by
  obtain ⟨F, rfl⟩ := (written_iff (I := snGroup n) (e := elemEquiv n) F).1 hF
  have hI := snGroup_implements n hn
  obtain rfl : F = f := funext fun σ => Option.some.inj ((hI.value_eq F σ).symm.trans (hv σ))
  obtain ⟨i, W, hi, hq⟩ := transform_at hn h ⟨[n], isPartition_row hn⟩
  obtain ⟨j, V, hj, hq2⟩ := transform_at hn h ⟨List.replicate n 1, isPartition_col n⟩
  obtain ⟨q, hr, h1, d1, m1, k⟩ := entry_hat hn h hi
  obtain ⟨q', hr', h1', d1', m1', k'⟩ := entry_hat hn h hj
  obtain rfl : q = ⟨[n], isPartition_row hn⟩ := Subtype.ext (Option.some.inj (h1.symm.trans hq))
  obtain rfl : q' = ⟨List.replicate n 1, isPartition_col n⟩ := Subtype.ext (Option.some.inj (h1'.symm.trans hq2))
  have one : W.irrep.d = 1 := by
    rw [hr.d_eq]
    rw [words_self hn]; rfl
  have one' : V.irrep.d = 1 := by
    have h3 := card_Wd (isPartition_col n)
    have hs := wd_subsingleton_of_cont (isPartition_col n) _ (fun u m h1 h2 => cont_col u h1 h2)
    have h4 : Fintype.card (Wd n (List.replicate n 1)) ≤ 1 := Fintype.card_le_one_iff.2 hs
    have h5 := card_Wd_pos (isPartition_col n)
    rw [hr'.d_eq]
    exact h3.symm.trans (by omega)
  refine ⟨i, W, hi, hq, d1.trans one, m1.trans one, ?_, j, V, hj, hq2, d1'.trans one', m1'.trans one', ?_⟩
  · have := k ⟨0, by omega⟩ ⟨0, by omega⟩
    rw [this]
    exact Finset.sum_congr rfl fun σ _ => by rw [rho_row hn, mul_one]
  · have := k' ⟨0, by omega⟩ ⟨0, by omega⟩
    rw [this]
    exact Finset.sum_congr rfl fun σ _ => by rw [rho_col, Equiv.Perm.sign_inv]

end

/-- the hypotheses can be met, for every function -/
example (n : Nat) (hn : 1 ≤ n) (f : Cells ℝ) (hf : Written (snSize n) f) : ∃ ws, TransformOf n f ws := exists_transform n hn f hf

/-- As coded, for `n≤4`: the transform of a class function consists of multiples of the identity. -/
theorem C119_fft_partial (n : Nat) (hn : 1 ≤ n) (h4 : n ≤ 4) (f : Cells ℝ) (hf : Written (snSize n) f) (F : Nat → ℝ)
    (hF : ∀ c < snSize n, rdC f c = some (F c)) :
    ∃ ws, fft n F = some ws ∧ (ConstantOnClasses n f ↔ ∀ W ∈ ws, ∃ z : ℝ, ∀ a < W.d, ∀ b < W.m, W.data a b = if a = b then z else 0) ∧
      ((snGroup n).invert f = some f ↔ ∀ W ∈ ws, ∀ a < W.d, ∀ b < W.d, W.data a b = W.data b a) := by
  obtain ⟨ws, h1, h2⟩ := C39_fft_partial n hn h4 f F hF
  exact ⟨ws, h1, C119_class_functions n hn f hf ws h2, C119_symmetric n hn f hf ws h2⟩

end Props

end Snob
