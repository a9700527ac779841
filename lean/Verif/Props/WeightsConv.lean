import Verif.Proofs.WeightsConv

/-! # Property C135 (weights multiplying a Fourier transform are convolutions) -/

namespace Snob

open IP Perm

/-- Multiplying the Fourier transform of a function by `W` gives the Fourier transform of its image under `L`. -/
def Weights.ActsAs (n : Nat) (W : Weights) (L : Cells ℝ → Option (Cells ℝ)) : Prop :=
  ∀ f ws, Written (snSize n) f → Props.TransformOf n f ws →
    ∃ h ws', W.mulVec ws = some ws' ∧ L f = some h ∧ Written (snSize n) h ∧ Props.TransformOf n h ws'

namespace Props

open SnVec Weights
open scoped Nat

section
variable (n : Nat) (hn : 1 ≤ n)
include hn

theorem conv_written (g f : Equiv.Perm (Fin n) → ℝ) :
    (snGroup n).convolve (cellsOf (I := snGroup n) (elemEquiv n) g) (cellsOf (I := snGroup n) (elemEquiv n) f) =
      some (cellsOf (I := snGroup n) (elemEquiv n) fun x => ∑ y, g (x * y⁻¹) * f y) := convolve_eq (snGroup_implements n hn) g f

theorem wHat_actsAs {W : Weights} {e : List Nat → Nat → Nat → ℝ} {g : Equiv.Perm (Fin n) → ℝ} (h : WHat n W e g) :
    W.ActsAs n ((snGroup n).convolve (cellsOf (I := snGroup n) (elemEquiv n) g)) := by
  intro f ws hf hws
  obtain ⟨f, rfl⟩ := (written_iff (I := snGroup n) (e := elemEquiv n) f).1 hf
  obtain ⟨ws', h1, h2⟩ := wHat_acts hn h hws
  exact ⟨_, ws', h1, conv_written n hn g f, (written_iff (I := snGroup n) (e := elemEquiv n) _).2 ⟨_, rfl⟩, h2⟩

/-- two maps that the same weights stand for agree -/
theorem actsAs_unique {W : Weights} {L M : Cells ℝ → Option (Cells ℝ)} (hL : W.ActsAs n L) (hM : W.ActsAs n M) (f : Cells ℝ)
    (hf : Written (snSize n) f) : L f = M f := by
  obtain ⟨ws, hws⟩ := exists_transform n hn f hf
  obtain ⟨h, ws1, a1, a2, a3, a4⟩ := hL f ws hf hws
  obtain ⟨k, ws2, b1, b2, b3, b4⟩ := hM f ws hf hws
  obtain rfl : ws1 = ws2 := Option.some.inj (a1.symm.trans b1)
  obtain ⟨h, rfl⟩ := (written_iff (I := snGroup n) (e := elemEquiv n) h).1 a3
  obtain ⟨k, rfl⟩ := (written_iff (I := snGroup n) (e := elemEquiv n) k).1 b3
  rw [a2, b2, transform_inj hn a4 b4]

/-- **C135.** For every `n≥1`: if the matrices of `W` are the transposes of the parts of the Fourier transform of `g`, then multiplying the Fourier
transform of any `f` by `W` is defined and gives the Fourier transform of `g.convolve(f)`. -/
theorem C135_convolution (g : Cells ℝ) (hg : Written (snSize n) g) (gs : List VPart) (h : TransformOf n g gs) (W : Weights) (hW : W.TransposeOf gs) :
    W.ActsAs n ((snGroup n).convolve g) := by
  obtain ⟨g, rfl⟩ := (written_iff (I := snGroup n) (e := elemEquiv n) g).1 hg
  exact wHat_actsAs n hn (transpose_hat hn h hW)

/-- **C135.** Such `W` exist for every `g`, with square matrices. -/
theorem C135_weights (g : Cells ℝ) (hg : Written (snSize n) g) : ∃ W : Weights, W.Square n ∧ W.ActsAs n ((snGroup n).convolve g) := by
  obtain ⟨gs, hgs⟩ := exists_transform n hn g hg
  obtain ⟨W, hW⟩ := transposeOf_exists (hgs.ok hn).1
  refine ⟨W, fun p R hp hR => ?_, C135_convolution n hn g hg gs hgs W hW⟩
  obtain ⟨g, rfl⟩ := (written_iff (I := snGroup n) (e := elemEquiv n) g).1 hg
  obtain ⟨R', hR', -, hr⟩ := exists_repr hn hp
  obtain rfl : R' = R := Option.some.inj (hR'.symm.trans hR)
  exact ⟨_, (transpose_hat hn hgs hW ⟨p, hp⟩ R' hr hR).1⟩

/-- **C135.** Conversely, whatever square matrices `W` has, there is exactly one `g` such that multiplication by `W` is `g.convolve(·)`. -/
theorem C135_only_convolutions (W : Weights) (hW : W.Square n) :
    ∃! g, Written (snSize n) g ∧ W.ActsAs n ((snGroup n).convolve g) := by
  obtain ⟨g, hg⟩ := square_hat hn hW
  refine ⟨cellsOf (I := snGroup n) (elemEquiv n) g, ⟨(written_iff (I := snGroup n) (e := elemEquiv n) _).2 ⟨_, rfl⟩, wHat_actsAs n hn hg⟩, ?_⟩
  rintro k ⟨hk, hk'⟩
  obtain ⟨k, rfl⟩ := (written_iff (I := snGroup n) (e := elemEquiv n) k).1 hk
  have h := actsAs_unique n hn hk' (wHat_actsAs n hn hg) (cellsOf (I := snGroup n) (elemEquiv n) fun σ => if σ = 1 then 1 else 0)
    ((written_iff (I := snGroup n) (e := elemEquiv n) _).2 ⟨_, rfl⟩)
  rw [conv_written n hn, conv_written n hn] at h
  have h' := cellsOf_inj hn (Option.some.inj h)
  congr 1
  funext σ
  simpa using congrFun h' σ

omit hn in
theorem isCombF_iff (s : ℝ) (f g h : Equiv.Perm (Fin n) → ℝ) :
    IsCombF n s (cellsOf (I := snGroup n) (elemEquiv n) f) (cellsOf (I := snGroup n) (elemEquiv n) g) (cellsOf (I := snGroup n) (elemEquiv n) h) ↔
      h = fun σ => f σ + s * g σ := by
  constructor
  · intro hc
    funext σ
    obtain ⟨c, hc', rfl⟩ := exists_elem n σ
    obtain ⟨x, y, h1, h2, h3⟩ := hc c hc'
    rw [rdC_sn _ hc'] at h1 h2 h3
    rw [Option.some.inj h3, Option.some.inj h1, Option.some.inj h2]
  · rintro rfl c hc
    exact ⟨_, _, rdC_sn _ hc, rdC_sn _ hc, rdC_sn _ hc⟩

/-- **C135.** Among the maps of functions to functions, exactly those that are linear and commute with `right_translate` are multiplications of the
Fourier transform by square weights. -/
theorem C135_commuting (L : Cells ℝ → Option (Cells ℝ)) (hL : ∀ f, Written (snSize n) f → ∃ h, L f = some h ∧ Written (snSize n) h) :
    (LinearF n L ∧ CommutesF n L) ↔ ∃ W : Weights, W.Square n ∧ W.ActsAs n L := by
  have hI := snGroup_implements n hn
  have hw : ∀ f : Equiv.Perm (Fin n) → ℝ, Written (snSize n) (cellsOf (I := snGroup n) (elemEquiv n) f) := fun f =>
    (written_iff (I := snGroup n) (e := elemEquiv n) _).2 ⟨_, rfl⟩
  constructor
  · rintro ⟨hl, hc⟩
    have hM : ∀ f : Equiv.Perm (Fin n) → ℝ, ∃ h : Equiv.Perm (Fin n) → ℝ, L (cellsOf (I := snGroup n) (elemEquiv n) f) =
        some (cellsOf (I := snGroup n) (elemEquiv n) h) := by
      intro f
      obtain ⟨h, h1, h2⟩ := hL _ (hw f)
      obtain ⟨h, rfl⟩ := (written_iff (I := snGroup n) (e := elemEquiv n) h).1 h2
      exact ⟨h, h1⟩
    choose M hM using hM
    have m1 : ∀ s f g, M (fun σ => f σ + s * g σ) = fun σ => M f σ + s * M g σ := by
      intro s f g
      obtain ⟨h', a1, a2⟩ := hl s _ _ _ _ _ (hw f) (hw g) (hw fun σ => f σ + s * g σ) ((isCombF_iff n s _ _ _).2 rfl) (hM f) (hM g)
      rw [hM] at a1
      obtain rfl := Option.some.inj a1
      exact (isCombF_iff n s _ _ _).1 a2
    have m2 : ∀ t f, M (fun x => f (x * t⁻¹)) = fun x => M f (x * t⁻¹) := by
      intro t f
      have := hc _ (enc t) (hw f) ⟨t, rfl⟩
      rw [hM, Option.bind_some] at this
      rw [show (snGroup n).rightTranslate (cellsOf (I := snGroup n) (elemEquiv n) f) (enc t) = _ from rightTranslate_eq hI f t, Option.bind_some, hM,
        show (snGroup n).rightTranslate (cellsOf (I := snGroup n) (elemEquiv n) (M f)) (enc t) = _ from rightTranslate_eq hI (M f) t] at this
      exact cellsOf_inj hn (Option.some.inj this)
    obtain ⟨W, h1, h2⟩ := C135_weights n hn _ (hw (M fun σ => if σ = 1 then 1 else 0))
    refine ⟨W, h1, fun f ws hf hws => ?_⟩
    obtain ⟨h, ws', a1, a2, a3, a4⟩ := h2 f ws hf hws
    refine ⟨h, ws', a1, ?_, a3, a4⟩
    obtain ⟨f, rfl⟩ := (written_iff (I := snGroup n) (e := elemEquiv n) f).1 hf
    rw [← a2, conv_written n hn, hM, commuting_conv M m1 m2 f]
  · rintro ⟨W, h1, h2⟩
    obtain ⟨g, ⟨hg, hg'⟩, -⟩ := C135_only_convolutions n hn W h1
    obtain ⟨g, rfl⟩ := (written_iff (I := snGroup n) (e := elemEquiv n) g).1 hg
    have hLg : ∀ f : Equiv.Perm (Fin n) → ℝ, L (cellsOf (I := snGroup n) (elemEquiv n) f) =
        some (cellsOf (I := snGroup n) (elemEquiv n) fun x => ∑ y, g (x * y⁻¹) * f y) := fun f => by
      rw [actsAs_unique n hn h2 hg' _ (hw f), conv_written n hn]
    constructor
    · intro s u v h u' v' hu hv hh hc e1 e2
      obtain ⟨u, rfl⟩ := (written_iff (I := snGroup n) (e := elemEquiv n) u).1 hu
      obtain ⟨v, rfl⟩ := (written_iff (I := snGroup n) (e := elemEquiv n) v).1 hv
      obtain ⟨h, rfl⟩ := (written_iff (I := snGroup n) (e := elemEquiv n) h).1 hh
      obtain rfl := (isCombF_iff n s _ _ _).1 hc
      rw [hLg] at e1 e2
      obtain rfl := Option.some.inj e1
      obtain rfl := Option.some.inj e2
      refine ⟨_, hLg _, (isCombF_iff n s _ _ _).2 ?_⟩
      funext σ
      rw [Finset.mul_sum, ← Finset.sum_add_distrib]
      exact Finset.sum_congr rfl fun y _ => by ring
    · rintro u t hu ⟨t, rfl⟩
      obtain ⟨u, rfl⟩ := (written_iff (I := snGroup n) (e := elemEquiv n) u).1 hu
      rw [show (snGroup n).rightTranslate (cellsOf (I := snGroup n) (elemEquiv n) u) (enc t) = _ from rightTranslate_eq hI u t, Option.bind_some, hLg, hLg,
        Option.bind_some]
      refine Eq.trans ?_ (rightTranslate_eq hI (fun x => ∑ y, g (x * y⁻¹) * u y) t).symm
      congr 2
      funext x
      refine Fintype.sum_equiv (Equiv.mulRight t⁻¹) _ _ fun y => ?_
      simp [mul_assoc]

/-- **C135.** Multiplication by square weights keeps the sum of the squares of the values of every function exactly if all its matrices have
orthonormal rows. -/
theorem C135_isometry (W : Weights) (hW : W.Square n) (L : Cells ℝ → Option (Cells ℝ)) (hL : W.ActsAs n L) :
    KeepsSquares n L ↔ W.Orthonormal n := by
  obtain ⟨g, hg⟩ := square_hat hn hW
  have hw : ∀ f : Equiv.Perm (Fin n) → ℝ, Written (snSize n) (cellsOf (I := snGroup n) (elemEquiv n) f) := fun f =>
    (written_iff (I := snGroup n) (e := elemEquiv n) _).2 ⟨_, rfl⟩
  have hLg : ∀ f : Equiv.Perm (Fin n) → ℝ, L (cellsOf (I := snGroup n) (elemEquiv n) f) =
      some (cellsOf (I := snGroup n) (elemEquiv n) fun x => ∑ y, g (x * y⁻¹) * f y) := fun f => by
    rw [actsAs_unique n hn hL (wHat_actsAs n hn hg) _ (hw f), conv_written n hn]
  have hsum : ∀ (f : Equiv.Perm (Fin n) → ℝ) (F : Nat → ℝ), (∀ c < snSize n, rdC (cellsOf (I := snGroup n) (elemEquiv n) f) c = some (F c)) →
      ∑ c ∈ Finset.range (snSize n), F c ^ 2 = ∑ σ, f σ ^ 2 := by
    intro f F hF
    rw [← sum_elem]
    refine Finset.sum_congr rfl fun c hc => ?_
    have hc' : c < snSize n := Finset.mem_range.1 hc
    rw [← Option.some.inj ((rdC_sn f hc').symm.trans (hF c hc'))]
  have hkeep : KeepsSquares n L ↔ ∀ f : Equiv.Perm (Fin n) → ℝ, ∑ x, (∑ y, g (x * y⁻¹) * f y) ^ 2 = ∑ x, f x ^ 2 := by
    constructor
    · intro h f
      have hr : ∀ u : Equiv.Perm (Fin n) → ℝ, ∀ c < snSize n, rdC (cellsOf (I := snGroup n) (elemEquiv n) u) c = some (u (elem n c)) :=
        fun u c hc => rdC_sn u hc
      have := h _ _ _ _ (hw f) (hLg f) (hr _) (hr _)
      exact (hsum _ _ (hr _)).symm.trans (this.trans (hsum _ _ (hr _)))
    · intro h u v F H hu hv hF hH
      obtain ⟨u, rfl⟩ := (written_iff (I := snGroup n) (e := elemEquiv n) u).1 hu
      rw [hLg] at hv
      obtain rfl := Option.some.inj hv
      rw [hsum _ _ hF, hsum _ _ hH]
      exact h u
  rw [hkeep, isometry_iff]
  constructor
  · intro h p d f hp hWp i hi j hj
    obtain ⟨R, hR, -, hr⟩ := exists_repr hn hp
    obtain ⟨e1, e2⟩ := hg ⟨p, hp⟩ R hr hR
    rw [hWp] at e1
    injection e1 with e1
    injection e1 with e1 e3 e4
    subst e1 e4
    have h1 := mul_eq_one_comm.1 (h ⟨p, hp⟩)
    have h2 := congrFun (congrFun h1 (hr.eqv ⟨i, hi⟩)) (hr.eqv ⟨j, hj⟩)
    rw [Matrix.mul_apply, Matrix.one_apply] at h2
    rw [Finset.sum_range]
    refine Eq.trans (Fintype.sum_equiv hr.eqv _ _ fun k => ?_) (h2.trans ?_)
    · rw [Matrix.transpose_apply, ← e2 k ⟨i, hi⟩, ← e2 k ⟨j, hj⟩]
    · simp [Fin.ext_iff]
  · intro h q
    obtain ⟨R, hR, -, hr⟩ := exists_repr hn q.2
    obtain ⟨e1, e2⟩ := hg q R hr hR
    rw [mul_eq_one_comm]
    ext x y
    obtain ⟨i, rfl⟩ := hr.eqv.surjective x
    obtain ⟨j, rfl⟩ := hr.eqv.surjective y
    have h1 := h q.1 _ _ q.2 e1 i i.2 j j.2
    rw [Finset.sum_range] at h1
    rw [Matrix.mul_apply, Matrix.one_apply]
    refine Eq.trans (Fintype.sum_equiv hr.eqv _ _ fun k => ?_).symm (h1.trans ?_)
    · rw [Matrix.transpose_apply, ← e2 k i, ← e2 k j]
    · simp [Fin.ext_iff]

/-- **C135.** Multiplication by square weights commutes with `left_translate` as well exactly if all the matrices are multiples of the identity. -/
theorem C135_both_sides (W : Weights) (hW : W.Square n) (L : Cells ℝ → Option (Cells ℝ)) (hL : W.ActsAs n L) : CommutesLeftF n L ↔ W.Scalar n := by
  have hI := snGroup_implements n hn
  obtain ⟨g, hg⟩ := square_hat hn hW
  have hw : ∀ f : Equiv.Perm (Fin n) → ℝ, Written (snSize n) (cellsOf (I := snGroup n) (elemEquiv n) f) := fun f =>
    (written_iff (I := snGroup n) (e := elemEquiv n) _).2 ⟨_, rfl⟩
  have hLg : ∀ f : Equiv.Perm (Fin n) → ℝ, L (cellsOf (I := snGroup n) (elemEquiv n) f) =
      some (cellsOf (I := snGroup n) (elemEquiv n) fun x => ∑ y, g (x * y⁻¹) * f y) := fun f => by
    rw [actsAs_unique n hn hL (wHat_actsAs n hn hg) _ (hw f), conv_written n hn]
  have hT : ∀ (f : Equiv.Perm (Fin n) → ℝ) t, (snGroup n).leftTranslate (cellsOf (I := snGroup n) (elemEquiv n) f) (enc t) =
      some (cellsOf (I := snGroup n) (elemEquiv n) fun x => f (t⁻¹ * x)) := fun f t => leftTranslate_eq hI f t
  have hcl : CommutesLeftF n L ↔ ∀ σ τ, g (τ * σ * τ⁻¹) = g σ := by
    constructor
    · intro h σ τ
      have h1 := h _ (enc τ) (hw fun σ => if σ = 1 then 1 else 0) ⟨τ, rfl⟩
      rw [hLg, Option.bind_some, hT, hT, Option.bind_some, hLg] at h1
      have h2 := congrFun (cellsOf_inj hn (Option.some.inj h1)) (τ * σ)
      have e1 : ∀ y : Equiv.Perm (Fin n), τ⁻¹ * y = 1 ↔ y = τ := fun y => by rw [inv_mul_eq_one, eq_comm]
      simp only [e1, mul_ite, mul_one, mul_zero, Finset.sum_ite_eq', Finset.mem_univ, if_true, inv_one, inv_mul_cancel_left] at h2
      exact h2
    · rintro h u t hu ⟨t, rfl⟩
      obtain ⟨u, rfl⟩ := (written_iff (I := snGroup n) (e := elemEquiv n) u).1 hu
      rw [hLg, Option.bind_some, hT, hT, Option.bind_some, hLg]
      congr 2
      funext x
      refine (Fintype.sum_equiv (Equiv.mulLeft t) _ _ fun y => ?_).symm
      have e := h (t⁻¹ * (x * y⁻¹)) t
      simp only [Equiv.coe_mulLeft, mul_inv_rev, inv_mul_cancel_left]
      rw [mul_assoc t⁻¹ x, ← e]
      simp [mul_assoc]
  rw [hcl, hat_central]
  constructor
  · intro h p R hp hR
    obtain ⟨R', hR', -, hr⟩ := exists_repr hn hp
    obtain rfl : R' = R := Option.some.inj (hR'.symm.trans hR)
    obtain ⟨e1, e2⟩ := hg ⟨p, hp⟩ R' hr hR
    obtain ⟨z, hz⟩ := h ⟨p, hp⟩
    refine ⟨z, _, e1, fun i hi j hj => ?_⟩
    have := e2 ⟨j, hj⟩ ⟨i, hi⟩
    rw [hz] at this
    rw [this, Matrix.smul_apply, Matrix.one_apply]
    simp [Fin.ext_iff, eq_comm]
  · intro h q
    obtain ⟨R, hR, -, hr⟩ := exists_repr hn q.2
    obtain ⟨e1, e2⟩ := hg q R hr hR
    obtain ⟨z, f, e3, e4⟩ := h q.1 R q.2 hR
    refine ⟨z, ?_⟩
    rw [e3] at e1
    injection e1 with e1
    injection e1 with _ _ e5
    ext x y
    obtain ⟨i, rfl⟩ := hr.eqv.surjective x
    obtain ⟨j, rfl⟩ := hr.eqv.surjective y
    rw [← e2 i j, ← e5, e4 j j.2 i i.2, Matrix.smul_apply, Matrix.one_apply]
    simp [Fin.ext_iff, eq_comm]

/-- **C135.** Full statement: for every `n`, transforming `f` with the FFT, multiplying by `W` and transforming back gives `g.convolve(f)`. This is false
for `n≥5`, where the FFT is wrong (C37, C38). What holds: it is true for `n≤4`. -/
theorem C135_fft_partial (h4 : n ≤ 4) (W : Weights) (g : Cells ℝ) (hW : W.ActsAs n ((snGroup n).convolve g))
    (f : Cells ℝ) (hf : Written (snSize n) f) (F : Nat → ℝ) (hF : ∀ c < snSize n, rdC f c = some (F c)) :
    ∃ ws ws' H h, fft n F = some ws ∧ W.mulVec ws = some ws' ∧ ifft n ws' = some (n, snSize n, H) ∧ (snGroup n).convolve g f = some h ∧
      ∀ c < snSize n, rdC h c = some (H c) := by
  obtain ⟨ws, a1, a2⟩ := C39_fft_partial n hn h4 f F hF
  obtain ⟨h, ws', b1, b2, b3, b4⟩ := hW f ws hf a2
  have hs : HasShape allCols (partitions n) ws' := by obtain ⟨_, _, hs, _⟩ := b4; exact hs
  obtain ⟨H, ws'', c1, c2, c3⟩ := C38_forward_after_inverse_partial n hn h4 ws' hs
  refine ⟨ws, ws', H, h, a1, b1, c1, b2, ?_⟩
  have hr : ∀ c < snSize n, rdC (cellsOf (I := snGroup n) (elemEquiv n) fun σ => H ((elemEquiv n).symm σ)) c = some (H c) := by
    intro c hc
    rw [rdC_sn _ hc]
    have : elem n c = elemEquiv n ⟨c, hc⟩ := rfl
    rw [this, Equiv.symm_apply_apply]
  obtain ⟨ws3, d1, d2⟩ := C39_fft_partial n hn h4 _ H hr
  obtain rfl : ws'' = ws3 := Option.some.inj (c2.symm.trans d1)
  obtain ⟨h, rfl⟩ := (written_iff (I := snGroup n) (e := elemEquiv n) h).1 b3
  rw [transform_inj hn b4 (d2.same c3)]
  exact hr

end

/-- The hypotheses can be met for every `n≥1`, and the weights are not always orthonormal: for the function that is one everywhere (`n≥2`) they are not. -/
example (n : Nat) (hn : 2 ≤ n) : ∃ W : Weights, W.Square n ∧ W.ActsAs n ((snGroup n).convolve (cellsOf (I := snGroup n) (elemEquiv n) fun _ => (1 : ℝ))) ∧
    ¬ W.Orthonormal n := by
  have hw : ∀ f : Equiv.Perm (Fin n) → ℝ, Written (snSize n) (cellsOf (I := snGroup n) (elemEquiv n) f) := fun f =>
    (written_iff (I := snGroup n) (e := elemEquiv n) _).2 ⟨_, rfl⟩
  obtain ⟨W, h1, h2⟩ := C135_weights n (by omega) _ (hw fun _ => (1 : ℝ))
  refine ⟨W, h1, h2, fun h3 => ?_⟩
  have h4 := (C135_isometry n (by omega) W h1 _ h2).2 h3 _ _ _ _ (hw fun _ => (1 : ℝ)) (conv_written n (by omega) _ _)
    (fun c hc => rdC_sn _ hc) (fun c hc => rdC_sn _ hc)
  have hn1 : 1 < n ! := lt_of_lt_of_le (by omega : 1 < n) (Nat.self_le_factorial n)
  have hn2 : (1 : ℝ) < n ! := by exact_mod_cast hn1
  simp only [Finset.sum_const, Finset.card_univ, Fintype.card_perm, Fintype.card_fin, Finset.card_range, snSize, nsmul_eq_mul] at h4
  nlinarith

/-- The weights of the function that is one everywhere are multiples of the identity. -/
example (n : Nat) (hn : 2 ≤ n) : ∃ W : Weights, W.Square n ∧ W.ActsAs n ((snGroup n).convolve (cellsOf (I := snGroup n) (elemEquiv n) fun _ => (1 : ℝ))) ∧
    W.Scalar n := by
  have hn1 : 1 ≤ n := by omega
  obtain ⟨W, h1, h2⟩ := C135_weights n hn1 _ ((written_iff (I := snGroup n) (e := elemEquiv n) _).2 ⟨fun _ => (1 : ℝ), rfl⟩)
  refine ⟨W, h1, h2, (C135_both_sides n hn1 W h1 _ h2).1 ?_⟩
  rintro u t hu ⟨t, rfl⟩
  obtain ⟨u, rfl⟩ := (written_iff (I := snGroup n) (e := elemEquiv n) u).1 hu
  have hT : ∀ f : Equiv.Perm (Fin n) → ℝ, (snGroup n).leftTranslate (cellsOf (I := snGroup n) (elemEquiv n) f) (enc t) =
      some (cellsOf (I := snGroup n) (elemEquiv n) fun x => f (t⁻¹ * x)) := fun f => leftTranslate_eq (snGroup_implements n hn1) f t
  rw [hT, Option.bind_some, conv_written n hn1, conv_written n hn1, Option.bind_some, hT]
  congr 2
  funext x
  exact Fintype.sum_equiv (Equiv.mulLeft t⁻¹) _ _ fun y => rfl

end Props

end Snob
