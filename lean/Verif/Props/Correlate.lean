import Verif.Proofs.Correlate
import Verif.Props.Kernels

/-! # Property C130: correlations and translations -/

namespace Snob

open IP Perm
open scoped Nat

/-- `v` holds the values of the function `f` on `Sn`. -/
def ValuesOf (n : Nat) (f : Cells ℝ) (v : Equiv.Perm (Fin n) → ℝ) : Prop := ∀ σ, (snGroup n).value f (enc σ) = some (v σ)

/-- Equal autocorrelations: the sums over `x` of `f(x)*f(x*s)`. -/
def SameAuto (n : Nat) (v v' : Equiv.Perm (Fin n) → ℝ) : Prop := ∀ s, ∑ x, v x * v (x * s) = ∑ x, v' x * v' (x * s)

/-- Equal triple correlations: the sums over `x` of `f(x)*f(x*s)*f(x*t)`. -/
def SameTriple (n : Nat) (v v' : Equiv.Perm (Fin n) → ℝ) : Prop :=
  ∀ s t, ∑ x, v x * v (x * s) * v (x * t) = ∑ x, v' x * v' (x * s) * v' (x * t)

/-- The inner products of the rows of a part. -/
noncomputable def VPart.gram (W : VPart) (a b : Nat) : ℝ := ∑ c ∈ Finset.range W.m, W.data a c * W.data b c

namespace Props

variable {n : Nat} (hn : 1 ≤ n)
include hn

theorem valuesOf_cells {f : Cells ℝ} (hf : Written (snSize n) f) {v : Equiv.Perm (Fin n) → ℝ} (hv : ValuesOf n f v) :
    f = cellsOf (I := snGroup n) (elemEquiv n) v := by
  obtain ⟨u, rfl⟩ := (written_iff (I := snGroup n) (e := elemEquiv n) f).1 hf
  congr 1
  exact funext fun σ => Option.some.inj (((snGroup_implements n hn).value_eq u σ).symm.trans (hv σ))

/-- **C130.** Two functions have the same autocorrelation exactly if the inner products of the rows of each part of their Fourier transforms
are the same. -/
theorem C130_power_spectrum (f f' : Cells ℝ) (hf : Written (snSize n) f) (hf' : Written (snSize n) f') (v v' : Equiv.Perm (Fin n) → ℝ)
    (hv : ValuesOf n f v) (hv' : ValuesOf n f' v') (ws vs : List VPart) (h : TransformOf n f ws) (h' : TransformOf n f' vs) :
    SameAuto n v v' ↔ ∀ (i : Nat) (W V : VPart), ws[i]? = some W → vs[i]? = some V → ∀ a < W.d, ∀ b < W.d, W.gram a b = V.gram a b := by
  obtain rfl := valuesOf_cells hn hf hv
  obtain rfl := valuesOf_cells hn hf' hv'
  have hg : ∀ (i : Nat) (W V : VPart), ws[i]? = some W → vs[i]? = some V → ∃ (q : Pt n) (hr : Repr' q.2 W.irrep), (partitions n)[i]? = some q.1 ∧
      W.d = W.irrep.d ∧ ∀ a b : Fin W.irrep.d, W.gram a b = hat q.2 (fun s => ∑ x, v x * v (x * s)) (hr.eqv a) (hr.eqv b) ∧
        V.gram a b = hat q.2 (fun s => ∑ x, v' x * v' (x * s)) (hr.eqv a) (hr.eqv b) := by
    intro i W V hW hV
    obtain ⟨e, p, hp, hr, hpi, d1, m1, d2, m2, k1, k2⟩ := h.pair hn h' hW hV
    refine ⟨⟨p, hp⟩, hr, hpi, d1, fun a b => ⟨?_, ?_⟩⟩
    · rw [hat_auto, Matrix.mul_apply, ← hr.eqv.sum_comp, VPart.gram, m1, Finset.sum_range]
      exact Finset.sum_congr rfl fun c _ => congrArg₂ _ (k1 a c) (k1 b c)
    · rw [hat_auto, Matrix.mul_apply, ← hr.eqv.sum_comp, VPart.gram, m2, Finset.sum_range]
      exact Finset.sum_congr rfl fun c _ => congrArg₂ _ (k2 a c) (k2 b c)
  constructor
  · intro hs i W V hW hV a ha b hb
    obtain ⟨q, hr, -, d1, k⟩ := hg i W V hW hV
    obtain ⟨e1, e2⟩ := k ⟨a, by omega⟩ ⟨b, by omega⟩
    have : (fun s => ∑ x, v x * v (x * s)) = fun s => ∑ x, v' x * v' (x * s) := funext hs
    rw [this] at e1
    exact e1.trans e2.symm
  · intro hs
    refine congrFun (hat_injective fun q => ?_)
    obtain ⟨i, W, hi, hq⟩ := transform_at hn h q
    have hlen : ∀ {f : Cells ℝ} {ws : List VPart}, TransformOf n f ws → ws.length = (partitions n).length := fun ⟨_, _, hs, _⟩ => hs.1
    have hi' : i < vs.length := by
      rw [hlen h', ← hlen h]
      exact (List.getElem?_eq_some_iff.1 hi).1
    obtain ⟨q', hr, hq', d1, k⟩ := hg i W _ hi (List.getElem?_eq_getElem hi')
    obtain rfl : q = q' := Subtype.ext (Option.some.inj (hq.symm.trans hq'))
    ext x y
    obtain ⟨a, rfl⟩ := hr.eqv.surjective x
    obtain ⟨b, rfl⟩ := hr.eqv.surjective y
    obtain ⟨e1, e2⟩ := k a b
    rw [← e1, ← e2]
    exact hs i W _ hi (List.getElem?_eq_getElem hi') a (by omega) b (by omega)

/-- **C130.** If all parts of the Fourier transform of `f` are invertible matrices, then the functions with the same triple correlation as `f`
are exactly the translates `f.left_translate(t)`. -/
theorem C130_triple_correlation (f f' : Cells ℝ) (hf : Written (snSize n) f) (hf' : Written (snSize n) f') (v v' : Equiv.Perm (Fin n) → ℝ)
    (hv : ValuesOf n f v) (hv' : ValuesOf n f' v') (ws : List VPart) (h : TransformOf n f ws) (hr : ∀ W ∈ ws, W.Regular) :
    SameTriple n v v' ↔ ∃ t : Equiv.Perm (Fin n), (snGroup n).leftTranslate f (enc t) = some f' := by
  have hI := snGroup_implements n hn
  obtain rfl := valuesOf_cells hn hf hv
  obtain rfl := valuesOf_cells hn hf' hv'
  rw [parts_iff hn h _ (fun q => IsUnit (hat q.2 v)) fun q W hr d1 m1 k => regular_iff hr d1 k] at hr
  obtain ⟨e, h1, h2⟩ := exists_conv_inverse v hr
  constructor
  · intro hs
    obtain ⟨g, hg⟩ := triple_translate v v' e h1 h2 fun b c => by
      have := hs b c
      simpa [triple] using this
    refine ⟨g, ?_⟩
    rw [leftTranslate_eq hI]
    congr 2
    exact (funext hg).symm
  · rintro ⟨g, hg⟩
    rw [leftTranslate_eq hI] at hg
    obtain rfl : (fun x => v (g⁻¹ * x)) = v' := by
      funext σ
      have := hv' σ
      rw [← Option.some.inj hg, hI.value_eq] at this
      exact Option.some.inj this
    intro s t
    have := triple_of_translate v g s t
    simpa [triple] using this.symm

/-- **C130** for the transform as coded. Full statement: the statements above hold of what `ClausenFFT` returns, for all `n`. What is proved: for
`n≤4`. For larger `n` the coded transform is not the Fourier transform (C37). -/
theorem C130_fft_partial (h4 : n ≤ 4) (f f' : Cells ℝ) (hf : Written (snSize n) f) (hf' : Written (snSize n) f') (v v' : Equiv.Perm (Fin n) → ℝ)
    (hv : ValuesOf n f v) (hv' : ValuesOf n f' v') (F F' : Nat → ℝ) (hF : ∀ c < snSize n, rdC f c = some (F c))
    (hF' : ∀ c < snSize n, rdC f' c = some (F' c)) : ∃ ws vs, fft n F = some ws ∧ fft n F' = some vs ∧
      (SameAuto n v v' ↔ ∀ (i : Nat) (W V : VPart), ws[i]? = some W → vs[i]? = some V → ∀ a < W.d, ∀ b < W.d, W.gram a b = V.gram a b) ∧
      ((∀ W ∈ ws, W.Regular) → (SameTriple n v v' ↔ ∃ t : Equiv.Perm (Fin n), (snGroup n).leftTranslate f (enc t) = some f')) := by
  obtain ⟨ws, h1, h2⟩ := C39_fft_partial n hn h4 f F hF
  obtain ⟨vs, h3, h4⟩ := C39_fft_partial n hn h4 f' F' hF'
  exact ⟨ws, vs, h1, h3, C130_power_spectrum hn f f' hf hf' v v' hv hv' ws vs h2 h4,
    C130_triple_correlation hn f f' hf hf' v v' hv hv' ws h2⟩

omit hn

/-- **C130.** The condition on the parts cannot be dropped, for any `n≥2`: the sign has the triple correlation of the function zero, but is not a
translate of it. -/
theorem C130_regular_needed (n : Nat) (hn : 2 ≤ n) : ∃ f f' v v', Written (snSize n) f ∧ Written (snSize n) f' ∧ ValuesOf n f v ∧ ValuesOf n f' v' ∧
    SameTriple n v v' ∧ ∀ t : Equiv.Perm (Fin n), (snGroup n).leftTranslate f (enc t) ≠ some f' := by
  have hI := snGroup_implements n (by omega)
  have hz : ∑ x : Equiv.Perm (Fin n), ((Equiv.Perm.sign x : Int) : ℝ) = 0 := by
    have hne : (⟨0, by omega⟩ : Fin n) ≠ ⟨1, by omega⟩ := by simp
    have e : ∑ x : Equiv.Perm (Fin n), ((Equiv.Perm.sign x : Int) : ℝ) = -∑ x : Equiv.Perm (Fin n), ((Equiv.Perm.sign x : Int) : ℝ) := by
      rw [← Finset.sum_neg_distrib]
      refine Fintype.sum_equiv (Equiv.mulRight (Equiv.swap (⟨0, by omega⟩ : Fin n) ⟨1, by omega⟩)) _ _ fun x => ?_
      rw [Equiv.coe_mulRight, Equiv.Perm.sign_mul, Equiv.Perm.sign_swap hne]
      simp
    linarith
  refine ⟨_, _, fun x => ((Equiv.Perm.sign x : Int) : ℝ), fun _ => 0, (written_iff (I := snGroup n) (e := elemEquiv n) _).2 ⟨_, rfl⟩,
    (written_iff (I := snGroup n) (e := elemEquiv n) _).2 ⟨_, rfl⟩, fun σ => hI.value_eq _ σ, fun σ => hI.value_eq _ σ, fun s t => ?_, fun t ht => ?_⟩
  · have hsq : ∀ x : Equiv.Perm (Fin n), ((Equiv.Perm.sign x : Int) : ℝ) * ((Equiv.Perm.sign x : Int) : ℝ) = 1 := fun x => by
      rcases Int.units_eq_one_or (Equiv.Perm.sign x) with h | h <;> simp [h]
    have e : ∀ x : Equiv.Perm (Fin n), ((Equiv.Perm.sign x : Int) : ℝ) * ((Equiv.Perm.sign (x * s) : Int) : ℝ) * ((Equiv.Perm.sign (x * t) : Int) : ℝ) =
        ((Equiv.Perm.sign s : Int) : ℝ) * ((Equiv.Perm.sign t : Int) : ℝ) * ((Equiv.Perm.sign x : Int) : ℝ) := fun x => by
      rw [Equiv.Perm.sign_mul, Equiv.Perm.sign_mul]
      push_cast
      have := hsq x
      linear_combination (((Equiv.Perm.sign s : Int) : ℝ) * ((Equiv.Perm.sign t : Int) : ℝ) * ((Equiv.Perm.sign x : Int) : ℝ)) * this
    simp only [e]
    rw [← Finset.mul_sum, hz]
    simp
  · rw [leftTranslate_eq hI] at ht
    have h1 := congrArg (fun f => (snGroup n).value f (enc t)) (Option.some.inj ht)
    simp only [hI.value_eq] at h1
    simp at h1

/-- The function that is one at the unit satisfies the hypotheses, for every `n`. -/
example (n : Nat) (hn : 1 ≤ n) : ∃ (f : Cells ℝ) (v : Equiv.Perm (Fin n) → ℝ) (ws : List VPart), Written (snSize n) f ∧ ValuesOf n f v ∧
    TransformOf n f ws ∧ ∀ W ∈ ws, W.Regular := by
  have hI := snGroup_implements n hn
  have hw : Written (snSize n) (cellsOf (I := snGroup n) (elemEquiv n) fun σ => if σ = 1 then (1 : ℝ) else 0) :=
    (written_iff (I := snGroup n) (e := elemEquiv n) _).2 ⟨_, rfl⟩
  obtain ⟨ws, h⟩ := exists_transform n hn _ hw
  refine ⟨_, _, ws, hw, fun σ => hI.value_eq _ σ, h, ?_⟩
  rw [parts_iff hn h _ (fun q => IsUnit (hat q.2 fun σ => if σ = 1 then (1 : ℝ) else 0)) fun q W hr d1 m1 k => regular_iff hr d1 k]
  intro q
  rw [hat_delta, inv_one, map_one]
  exact isUnit_one

end Props

end Snob
