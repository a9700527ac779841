import Verif.Proofs.Plancherel
import Verif.Props.Function
import Verif.Spec.Adjoint
import Verif.Model.PyGrad

/-! # Properties C82–C84: inner products, the transform, and the gradients of the Python functions -/

namespace Snob.Props

open Snob Snob.Perm Snob.IP
open scoped Nat

/-! ## C82: the transform keeps inner products -/

section
variable (n m : Nat) (hm : 1 ≤ m) (hn : m < n ∨ m = 1 ∧ n = 1)
include hm hn

/-- **C82.** For every `n` and `m` and all functions `f`, `g` on `Sn/Sm`, the Fourier transforms `F`, `G` satisfy
`Σ_λ d_λ ⟨F_λ,G_λ⟩ = (n!/m!) Σ_c f(c)g(c)`. -/
theorem C82_plancherel (f g : Nat → ℝ) (ws vs : List VPart)
    (hs : HasShape (cosetCols m) (cosetShapes m n) ws)
    (ht : IsTransform (snsmSize n m) (fun c => snsmElement n m c) f (cosetCols m) ws)
    (hs' : HasShape (cosetCols m) (cosetShapes m n) vs)
    (ht' : IsTransform (snsmSize n m) (fun c => snsmElement n m c) g (cosetCols m) vs) :
    fourierDot ws vs = snsmSize n m * ∑ c ∈ Finset.range (snsmSize n m), f c * g c := by
  obtain ⟨Ls, ws0, -, -, -, h4, h5⟩ := fft_spec (ap := matAct) f hm hn (fun k _ _ => matAct_ok m k)
  obtain ⟨Ls', vs0, -, -, -, k4, k5⟩ := fft_spec (ap := matAct) g hm hn (fun k _ _ => matAct_ok m k)
  have e1 := IsTransform.same hs (h4.hasShape hm (by omega) h5) ht (h4.isTransform hm (by omega) h5)
  have e2 := IsTransform.same hs' (k4.hasShape hm (by omega) k5) ht' (k4.isTransform hm (by omega) k5)
  rw [e1.dot e2 (hs.dims hs')]
  exact h4.plancherel hm (by omega) k4

/-- **C82.** With the action of the irreps used for matrices, the forward transform keeps inner products. -/
theorem C82_fft_reference (f g : Nat → ℝ) :
    ∃ Ls ws vs, fftLevels n m = some Ls ∧ fftWith matAct Ls (snsmSize n m) f = some ws ∧
      fftWith matAct Ls (snsmSize n m) g = some vs ∧
      fourierDot ws vs = snsmSize n m * ∑ c ∈ Finset.range (snsmSize n m), f c * g c := by
  obtain ⟨Ls, ws, h1, -, h3, h4, h5, -⟩ := forward_of_act matAct n m hm hn (fun k _ _ => matAct_ok m k) f
  obtain ⟨Ls', vs, k1, -, k3, k4, k5, -⟩ := forward_of_act matAct n m hm hn (fun k _ _ => matAct_ok m k) g
  obtain rfl : Ls = Ls' := Option.some.inj (h1.symm.trans k1)
  exact ⟨Ls, ws, vs, h1, h3, k3, C82_plancherel n m hm hn f g ws vs h4 h5 k4 k5⟩

/-- **C82.** With the action of the irreps used for matrices, so does the inverse transform. -/
theorem C82_inverse_reference (ws vs : List VPart) (hs : HasShape (cosetCols m) (cosetShapes m n) ws)
    (hs' : HasShape (cosetCols m) (cosetShapes m n) vs) :
    ∃ Ls f g, fftLevels n m = some Ls ∧ ifftWith matAct Ls ws = some (snsmSize n m, f) ∧
      ifftWith matAct Ls vs = some (snsmSize n m, g) ∧
      fourierDot ws vs = snsmSize n m * ∑ c ∈ Finset.range (snsmSize n m), f c * g c := by
  obtain ⟨Ls, f, ws', h1, -, h3, h4, h5⟩ := backward_of_act matAct n m hm hn (fun k _ _ => matAct_ok m k) ws hs
  obtain ⟨Ls', g, vs', k1, -, k3, k4, k5⟩ := backward_of_act matAct n m hm hn (fun k _ _ => matAct_ok m k) vs hs'
  obtain rfl : Ls = Ls' := Option.some.inj (h1.symm.trans k1)
  obtain ⟨Ls2, ws2, vs2, e1, e2, e3, e4⟩ := C82_fft_reference n m hm hn f g
  obtain rfl : Ls = Ls2 := Option.some.inj (h1.symm.trans e1)
  obtain rfl : ws' = ws2 := Option.some.inj (h4.symm.trans e2)
  obtain rfl : vs' = vs2 := Option.some.inj (k4.symm.trans e3)
  exact ⟨Ls, f, g, h1, h3, k3, (h5.dot k5 (hs.dims hs')).trans e4⟩

/-- **C82.** Full statement: for all `1≤m<n` the forward transform on `Sn/Sm` keeps inner products. This is false for
every `n≥5` and `m≤n-2` (`C82_fft_false`). What holds: it is true for `n≤4` and for `m=n-1`. -/
theorem C82_fft_partial (h : n ≤ 4 ∨ n = m + 1) (f g : Nat → ℝ) :
    ∃ ws vs, fftSnSm n m f = some ws ∧ fftSnSm n m g = some vs ∧
      fourierDot ws vs = snsmSize n m * ∑ c ∈ Finset.range (snsmSize n m), f c * g c := by
  have hap : ∀ k, m < k → k ≤ n → ActOk viewAct m k := fun k _ _ => viewAct_ok (by omega) (by omega)
  obtain ⟨Ls, ws, h1, -, h3, h4, h5, -⟩ := forward_of_act viewAct n m hm hn hap f
  obtain ⟨Ls', vs, k1, -, k3, k4, k5, -⟩ := forward_of_act viewAct n m hm hn hap g
  obtain rfl : Ls = Ls' := Option.some.inj (h1.symm.trans k1)
  refine ⟨ws, vs, ?_, ?_, C82_plancherel n m hm hn f g ws vs h4 h5 k4 k5⟩
  · unfold fftSnSm; rw [h1]; simpa using h3
  · unfold fftSnSm; rw [h1]; simpa using k3

/-- **C82.** As `C82_fft_partial`, for `inv_snsm`. -/
theorem C82_inverse_partial (h : n ≤ 4 ∨ n = m + 1) (ws vs : List VPart) (hs : HasShape (cosetCols m) (cosetShapes m n) ws)
    (hs' : HasShape (cosetCols m) (cosetShapes m n) vs) :
    ∃ f g, ifftSnSm n m ws = some ((n, m), snsmSize n m, f) ∧ ifftSnSm n m vs = some ((n, m), snsmSize n m, g) ∧
      fourierDot ws vs = snsmSize n m * ∑ c ∈ Finset.range (snsmSize n m), f c * g c := by
  have hap : ∀ k, m < k → k ≤ n → ActOk viewAct m k := fun k _ _ => viewAct_ok (by omega) (by omega)
  obtain ⟨Ls, f, ws', h1, -, h3, h4, h5⟩ := backward_of_act viewAct n m hm hn hap ws hs
  obtain ⟨Ls', g, vs', k1, -, k3, k4, k5⟩ := backward_of_act viewAct n m hm hn hap vs hs'
  obtain rfl : Ls = Ls' := Option.some.inj (h1.symm.trans k1)
  obtain ⟨ws2, vs2, e2, e3, e4⟩ := C82_fft_partial n m hm hn h f g
  unfold fftSnSm at e2 e3
  rw [h1] at e2 e3
  obtain rfl : ws' = ws2 := Option.some.inj (h4.symm.trans (by simpa using e2))
  obtain rfl : vs' = vs2 := Option.some.inj (k4.symm.trans (by simpa using e3))
  refine ⟨f, g, ?_, ?_, (h5.dot k5 (hs.dims hs')).trans e4⟩
  · unfold ifftSnSm; rw [h1]; simp [h3]
  · unfold ifftSnSm; rw [h1]; simp [k3]

end

/-- **C82.** For `n≥5` and `1≤m≤n-2` the forward transform does not keep inner products: there is a coset such that the
transform of the function with value one there and zero elsewhere, if there is any, is too short. -/
theorem C82_fft_false (n m : Nat) (hm : 1 ≤ m) (hmn : m + 2 ≤ n) (hn : 5 ≤ n) :
    ∃ c < snsmSize n m, ∀ ws, fftSnSm n m (fun e => if e = c then 1 else 0) = some ws →
      fourierDot ws ws <
        snsmSize n m * ∑ e ∈ Finset.range (snsmSize n m), (if e = c then (1 : ℝ) else 0) * (if e = c then 1 else 0) := by
  obtain ⟨l, rfl⟩ : ∃ l, n = l + 1 := ⟨n - 1, by omega⟩
  obtain ⟨c, hc, h⟩ := fft_loss (m := m) (l0 := l) hm (by omega) hn
  refine ⟨c, hc, fun ws h1 => ?_⟩
  unfold fftSnSm at h1
  simp only [Option.bind_eq_bind, Option.bind_eq_some_iff] at h1
  obtain ⟨Ls, hLs, h1⟩ := h1
  obtain ⟨⟨F, hF, hT⟩, -⟩ := h Ls ws hLs h1
  have e : ∑ e ∈ Finset.range (snsmSize (l + 1) m), (if e = c then (1 : ℝ) else 0) * (if e = c then 1 else 0) = 1 := by
    rw [Finset.sum_eq_single c]
    · simp
    · intro b _ hb; simp [hb]
    · intro hb; exact absurd (Finset.mem_range.2 hc) hb
  rw [e, mul_one]
  exact goodDot_loss hm (by omega) hT hF

/-- **C82.** The transform on `Sn` as coded, for `n≤4`. -/
theorem C82_sn_partial (n : Nat) (hn : 1 ≤ n) (h4 : n ≤ 4) (f g : Nat → ℝ) :
    ∃ ws vs, fft n f = some ws ∧ fft n g = some vs ∧
      fourierDot ws vs = snSize n * ∑ c ∈ Finset.range (snSize n), f c * g c := by
  have hsz : snsmSize n 1 = snSize n := by simp [snsmSize, snSize]
  obtain ⟨ws, vs, h1, h2, h3⟩ := C82_fft_partial n 1 (by omega) (by omega) (Or.inl h4) f g
  rw [hsz] at h3
  refine ⟨ws, vs, ?_, ?_, h3⟩
  · unfold fftSnSm at h1; unfold fft
    simpa [snSize] using h1
  · unfold fftSnSm at h2; unfold fft
    simpa [snSize] using h2

/-- **C82.** The transform on `Sn` as coded, for `n≥5`. -/
theorem C82_sn_false (n : Nat) (hn : 5 ≤ n) :
    ∃ c < snSize n, ∀ ws, fft n (fun e => if e = c then 1 else 0) = some ws → fourierDot ws ws < snSize n := by
  have hsz : snsmSize n 1 = snSize n := by simp [snsmSize, snSize]
  obtain ⟨c, hc, h⟩ := C82_fft_false n 1 (by omega) (by omega) hn
  rw [hsz] at hc h
  refine ⟨c, hc, fun ws hws => ?_⟩
  have := h ws (by unfold fft at hws; unfold fftSnSm; simpa [snSize] using hws)
  rw [Finset.sum_eq_single c] at this
  · simpa using this
  · intro b _ hb; simp [hb]
  · intro hb; exact absurd (Finset.mem_range.2 hc) hb

/-! ## C83: adjoints of translations, inversion and convolution -/

theorem cellDot_cellsOf {E G : Type} [Fintype G] {I : GroupI E} (e : Fin I.size ≃ G) (f g : G → ℝ) :
    cellDot (cellsOf e f) (cellsOf e g) = ∑ x, f x * g x := by
  have : List.zipWith (fun a b => a.getD 0 * b.getD 0) (cellsOf e f) (cellsOf e g) = List.ofFn fun i => f (e i) * g (e i) := by
    unfold cellsOf
    refine List.ext_getElem? fun i => ?_
    rw [List.getElem?_zipWith, List.getElem?_ofFn, List.getElem?_ofFn, List.getElem?_ofFn]
    by_cases h : i < I.size <;> simp [h]
  unfold cellDot
  rw [this, List.sum_ofFn, ← e.sum_comp]

theorem cellDot_sn {n : Nat} (f g : Equiv.Perm (Fin n) → ℝ) :
    cellDot (cellsOf (I := snGroup n) (elemEquiv n) f) (cellsOf (I := snGroup n) (elemEquiv n) g) = ∑ x, f x * g x :=
  cellDot_cellsOf (I := snGroup n) (elemEquiv n) f g

section
variable {E G : Type} [Group G] [Fintype G] {I : GroupI E} {e : Fin I.size ≃ G} {rep : G → E}

/-- **C83.** For a class that implements a group: translation by `t` has translation by `t⁻¹` as its adjoint, and
`inv()` is its own adjoint. -/
theorem C83_group (h : Implements I e rep) (f g : Cells ℝ) (hf : Written I.size f) (hg : Written I.size g) (t : G) :
    ∃ L L' R R' V V', I.leftTranslate f (rep t) = some L ∧ I.leftTranslate g (rep t⁻¹) = some L' ∧
      I.rightTranslate f (rep t) = some R ∧ I.rightTranslate g (rep t⁻¹) = some R' ∧
      I.invert f = some V ∧ I.invert g = some V' ∧
      cellDot L g = cellDot f L' ∧ cellDot R g = cellDot f R' ∧ cellDot V g = cellDot f V' := by
  obtain ⟨f, rfl⟩ := (written_iff (e := e) f).1 hf
  obtain ⟨g, rfl⟩ := (written_iff (e := e) g).1 hg
  refine ⟨_, _, _, _, _, _, leftTranslate_eq h f t, leftTranslate_eq h g t⁻¹, rightTranslate_eq h f t,
    rightTranslate_eq h g t⁻¹, invert_eq h f, invert_eq h g, ?_, ?_, ?_⟩
  · rw [cellDot_cellsOf, cellDot_cellsOf, ← Equiv.sum_comp (Equiv.mulLeft t)]
    simp
  · rw [cellDot_cellsOf, cellDot_cellsOf, ← Equiv.sum_comp (Equiv.mulRight t)]
    simp
  · rw [cellDot_cellsOf, cellDot_cellsOf, ← Equiv.sum_comp (Equiv.inv G)]
    simp

end

section
variable (n : Nat) (hn : 1 ≤ n) (f g : Cells ℝ) (hf : Written (snSize n) f) (hg : Written (snSize n) g)
include hn hf hg

/-- **C83.** What the Python functions for translations and inversion hand to `set_grad` is the gradient: it is the
adjoint of the forward function applied to `g`. -/
theorem C83_gradients (t : Arr) (ht : IsPerm n t) :
    ∃ L L' R R' V V', (snGroup n).leftTranslate f t = some L ∧ PyGrad.leftBack n t g = some L' ∧
      (snGroup n).rightTranslate f t = some R ∧ PyGrad.rightBack n t g = some R' ∧
      (snGroup n).invert f = some V ∧ PyGrad.invBack n g = some V' ∧
      cellDot L g = cellDot f L' ∧ cellDot R g = cellDot f R' ∧ cellDot V g = cellDot f V' := by
  obtain ⟨τ, rfl⟩ := ht
  obtain ⟨L, L', R, R', V, V', h1, h2, h3, h4, h5, h6, h7⟩ := C83_group (snGroup_implements n hn) f g hf hg τ
  refine ⟨L, L', R, R', V, V', h1, ?_, h3, ?_, h5, h6, h7⟩
  · unfold PyGrad.leftBack
    rw [inverse_eq]
    exact h2
  · unfold PyGrad.rightBack
    rw [inverse_eq]
    exact h4

/-- **C83.** The adjoints of convolution: `⟨f*h,g⟩ = ⟨f,g*h.inv()⟩ = ⟨h,f.inv()*g⟩`. -/
theorem C83_convolve (h : Cells ℝ) (hh : Written (snSize n) h) :
    ∃ c f' h' a b, (snGroup n).convolve f h = some c ∧ (snGroup n).invert f = some f' ∧ (snGroup n).invert h = some h' ∧
      (snGroup n).convolve g h' = some a ∧ (snGroup n).convolve f' g = some b ∧
      cellDot c g = cellDot f a ∧ cellDot c g = cellDot h b := by
  have hI := snGroup_implements n hn
  obtain ⟨f, rfl⟩ := (written_iff (I := snGroup n) (e := elemEquiv n) f).1 hf
  obtain ⟨g, rfl⟩ := (written_iff (I := snGroup n) (e := elemEquiv n) g).1 hg
  obtain ⟨h, rfl⟩ := (written_iff (I := snGroup n) (e := elemEquiv n) h).1 hh
  refine ⟨_, _, _, _, _, convolve_eq hI f h, invert_eq hI f, invert_eq hI h, convolve_eq hI g _, convolve_eq hI _ g, ?_, ?_⟩
  · rw [cellDot_sn, cellDot_sn]
    simp only [Finset.sum_mul, Finset.mul_sum]
    have e1 : ∑ x : Equiv.Perm (Fin n), ∑ y, f (x * y⁻¹) * h y * g x = ∑ y, ∑ x, f x * h y * g (x * y) := by
      rw [Finset.sum_comm]
      refine Finset.sum_congr rfl fun y _ => ?_
      rw [← Equiv.sum_comp (Equiv.mulRight y)]
      simp
    rw [e1, Finset.sum_comm]
    refine Finset.sum_congr rfl fun x _ => ?_
    rw [← Equiv.sum_comp (Equiv.inv _)]
    refine Finset.sum_congr rfl fun y _ => ?_
    simp only [Equiv.inv_apply]
    ring
  · rw [cellDot_sn, cellDot_sn]
    simp only [Finset.sum_mul, Finset.mul_sum]
    rw [Finset.sum_comm]
    refine Finset.sum_congr rfl fun y _ => Finset.sum_congr rfl fun x _ => ?_
    rw [mul_inv_rev, inv_inv]
    ring

end

/-! ## C84: the gradient of convolution -/

/-- **C84.** Full statement: what `ConvolveFn.backward` hands to `set_grad` are the gradients of `x` and of `y`. This is
false for every `n≥3` (`C84_convolve_false`). What holds: it is true for `n≤2`. -/
theorem C84_convolve_partial (n : Nat) (hn : 1 ≤ n) (h2 : n ≤ 2) (x y g : Cells ℝ) (hx : Written (snSize n) x)
    (hy : Written (snSize n) y) (hg : Written (snSize n) g) :
    ∃ c gx gy, (snGroup n).convolve x y = some c ∧ PyGrad.convolveBack n x y g = some (gx, gy) ∧
      cellDot c g = cellDot x gx ∧ cellDot c g = cellDot y gy := by
  have hI := snGroup_implements n hn
  have hinv : ∀ σ : Equiv.Perm (Fin n), σ⁻¹ = σ := by
    rcases (by omega : n = 1 ∨ n = 2) with rfl | rfl <;> decide
  have hcomm : ∀ σ τ : Equiv.Perm (Fin n), σ * τ = τ * σ := by
    rcases (by omega : n = 1 ∨ n = 2) with rfl | rfl <;> decide
  obtain ⟨c, x', y', a, b, h1, h2, h3, h4, h5, h6, h7⟩ := C83_convolve n hn x g hx hg y hy
  obtain ⟨x, rfl⟩ := (written_iff (I := snGroup n) (e := elemEquiv n) x).1 hx
  obtain ⟨y, rfl⟩ := (written_iff (I := snGroup n) (e := elemEquiv n) y).1 hy
  obtain ⟨g, rfl⟩ := (written_iff (I := snGroup n) (e := elemEquiv n) g).1 hg
  rw [invert_eq hI] at h2 h3
  simp only [hinv] at h2 h3
  obtain rfl := Option.some.inj h2
  obtain rfl := Option.some.inj h3
  refine ⟨c, a, b, h1, ?_, h6, h7⟩
  unfold PyGrad.convolveBack
  rw [h4]
  have e : (snGroup n).convolve (cellsOf (I := snGroup n) (elemEquiv n) g) (cellsOf (I := snGroup n) (elemEquiv n) x) = some b := by
    rw [← h5, convolve_eq hI, convolve_eq hI]
    congr 2
    funext s
    rw [← Equiv.sum_comp (Equiv.mulRight s)]
    refine Finset.sum_congr rfl fun t _ => ?_
    simp only [Equiv.coe_mulRight, hinv]
    rw [hcomm s (t * s), mul_assoc, hcomm s s, ← hcomm t s]
    have hs : s * s = 1 := by have := mul_inv_cancel s; rwa [hinv] at this
    rw [hs, mul_one, mul_comm]
  rw [e]
  rfl

/-- **C84.** For every `n≥3` both gradients of a convolution are wrong: there are `x`, `y` and `g` for which neither
`⟨x*y,g⟩=⟨x,gx⟩` nor `⟨x*y,g⟩=⟨y,gy⟩`. -/
theorem C84_convolve_false (n : Nat) (hn : 3 ≤ n) :
    ∃ x y g c gx gy, Written (snSize n) x ∧ Written (snSize n) y ∧ Written (snSize n) g ∧
      (snGroup n).convolve x y = some c ∧ PyGrad.convolveBack n x y g = some (gx, gy) ∧
      cellDot c g ≠ cellDot x gx ∧ cellDot c g ≠ cellDot y gy := by
  classical
  have hI := snGroup_implements n (by omega)
  let ζ : Equiv.Perm (Fin n) := Equiv.swap ⟨0, by omega⟩ ⟨1, by omega⟩ * Equiv.swap ⟨1, by omega⟩ ⟨2, by omega⟩
  have hζ : ζ * ζ ≠ 1 := by
    intro h
    have := congrArg (fun σ : Equiv.Perm (Fin n) => σ ⟨0, by omega⟩) h
    simp [ζ, Equiv.swap_apply_def] at this
  let δ : Equiv.Perm (Fin n) → Equiv.Perm (Fin n) → ℝ := fun a b => if b = a then 1 else 0
  have hconv : ∀ a b, (fun s => ∑ t, δ a (s * t⁻¹) * δ b t) = δ (a * b) := by
    intro a b
    funext s
    rw [Finset.sum_eq_single b]
    · simp [δ, mul_inv_eq_iff_eq_mul]
    · intro t _ ht; simp [δ, ht]
    · simp
  have hdot : ∀ a b, cellDot (cellsOf (I := snGroup n) (elemEquiv n) (δ a)) (cellsOf (I := snGroup n) (elemEquiv n) (δ b)) = if a = b then 1 else 0 := by
    intro a b
    rw [cellDot_sn, Finset.sum_eq_single a]
    · simp [δ]
    · intro t _ ht; simp [δ, ht]
    · simp
  have hC : ∀ a b, (snGroup n).convolve (cellsOf (I := snGroup n) (elemEquiv n) (δ a)) (cellsOf (I := snGroup n) (elemEquiv n) (δ b)) =
      some (cellsOf (I := snGroup n) (elemEquiv n) (δ (a * b))) := by
    intro a b
    rw [convolve_eq hI, hconv]
  refine ⟨cellsOf (I := snGroup n) (elemEquiv n) (δ ζ), cellsOf (I := snGroup n) (elemEquiv n) (δ ζ), cellsOf (I := snGroup n) (elemEquiv n) (δ 1),
    _, cellsOf (I := snGroup n) (elemEquiv n) (δ ζ), cellsOf (I := snGroup n) (elemEquiv n) (δ ζ), (written_iff (I := snGroup n) (e := elemEquiv n) _).2 ⟨_, rfl⟩, (written_iff (I := snGroup n) (e := elemEquiv n) _).2 ⟨_, rfl⟩,
    (written_iff (I := snGroup n) (e := elemEquiv n) _).2 ⟨_, rfl⟩, hC ζ ζ, ?_, ?_, ?_⟩
  · unfold PyGrad.convolveBack
    rw [hC, one_mul]
    rfl
  · rw [hdot, hdot, if_neg hζ, if_pos rfl]
    norm_num
  · rw [hdot, hdot, if_neg hζ, if_pos rfl]
    norm_num

/-! ### examples -/

-- `S3`, the functions with values 0..5 and 1
example : ∃ ws vs, fft 3 (fun e => (e : ℝ)) = some ws ∧ fft 3 (fun _ => 1) = some vs ∧ fourierDot ws vs = 90 := by
  obtain ⟨ws, vs, h1, h2, h3⟩ := C82_sn_partial 3 (by omega) (by omega) (fun e => (e : ℝ)) (fun _ => 1)
  refine ⟨ws, vs, h1, h2, h3.trans ?_⟩
  have : snSize 3 = 6 := rfl
  rw [this]
  norm_num [Finset.sum_range_succ]
example := C82_fft_reference 8 3 (by omega) (Or.inl (by omega)) (fun e => (e : ℝ)) (fun e => (e : ℝ) ^ 2)
example := C82_fft_partial 10 9 (by omega) (Or.inl (by omega)) (Or.inr rfl) (fun e => (e : ℝ)) (fun e => (e : ℝ) ^ 2)
example := C82_fft_false 8 5 (by omega) (by omega) (by omega)
example := C82_sn_false 5 (by omega)
-- the hypotheses of the inverse are met by the transforms
example : ∃ ws vs f g, ifftSnSm 4 2 ws = some ((4, 2), 12, f) ∧ ifftSnSm 4 2 vs = some ((4, 2), 12, g) ∧
    fourierDot ws vs = 12 * ∑ c ∈ Finset.range 12, f c * g c := by
  obtain ⟨ws, _, _, h, _⟩ := C40_fft_snsm_partial 4 2 (by omega) (by omega) (Or.inl (by omega)) (fun e => (e : ℝ))
  obtain ⟨vs, _, _, h', _⟩ := C40_fft_snsm_partial 4 2 (by omega) (by omega) (Or.inl (by omega)) (fun e => (e : ℝ) ^ 2)
  obtain ⟨f, g, h1, h2, h3⟩ := C82_inverse_partial 4 2 (by omega) (Or.inl (by omega)) (Or.inl (by omega)) ws vs h h'
  refine ⟨ws, vs, f, g, h1, h2, h3.trans ?_⟩
  have : snsmSize 4 2 = 12 := rfl
  rw [this]
  norm_num
-- a function on `S3` that meets the hypotheses of C83 and C84
example : Written (snSize 3) [some 1, some 2, some 3, some 4, some 5, some (6 : ℝ)] ∧ IsPerm 3 (enc (Equiv.swap (0 : Fin 3) 2)) ∧
    cellDot [some 1, some 2, some 3] [some 4, some 5, some (6 : ℝ)] = 32 :=
  ⟨⟨rfl, by simp⟩, ⟨_, rfl⟩, by norm_num [cellDot]⟩
example := C83_group (snGroup_implements 4 (by omega))
example := C84_convolve_partial 2 (by omega) (by omega) [some 1, some 2] [some 3, some 5] [some 7, some 11]
  ⟨rfl, by simp⟩ ⟨rfl, by simp⟩ ⟨rfl, by simp⟩
example := C84_convolve_false 3 (by omega)

end Snob.Props
