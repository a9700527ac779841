import Verif.Proofs.Kernels
import Verif.Props.Counting

/-! # Properties C126 (kernels and deconvolution) and C127 (repeated convolution and the distance to the constant function) -/

namespace Snob

open IP Perm
open scoped Nat

/-- `K s t` is `f(s.inv()*t)`. -/
def KernelOf (n : Nat) (f : Cells ℝ) (K : Equiv.Perm (Fin n) → Equiv.Perm (Fin n) → ℝ) : Prop :=
  ∀ σ τ, ((inverse (enc σ)).bind fun s => (mul s (enc τ)).bind fun x => (snGroup n).value f x) = some (K σ τ)

/-- The matrix of a part. -/
def VPart.square (W : VPart) : Matrix (Fin W.d) (Fin W.d) ℝ := Matrix.of fun a b => W.data a b

/-- The matrix of a part is positive semidefinite. -/
def VPart.Psd (W : VPart) : Prop := ∀ x : Nat → ℝ, 0 ≤ ∑ a ∈ Finset.range W.d, ∑ b ∈ Finset.range W.d, x a * W.data a b * x b

/-- The matrix of a part is invertible. -/
def VPart.Regular (W : VPart) : Prop :=
  ∀ x : Nat → ℝ, (∀ a < W.d, ∑ b ∈ Finset.range W.d, W.data a b * x b = 0) → ∀ b < W.d, x b = 0

/-- The sum over the partitions except `[n]` of the dimension times the sum of the squares of the entries. -/
noncomputable def restNorm (n : Nat) (ws : List VPart) : ℝ :=
  (List.zipWith (fun p (W : VPart) => if p = [n] then 0 else (W.d : ℝ) * ∑ a ∈ Finset.range W.d, ∑ b ∈ Finset.range W.d, W.data a b ^ 2)
    (partitions n) ws).sum

/-- `k` times `g=g.convolve(f)`. -/
noncomputable def convolveTimes (n : Nat) (f : Cells ℝ) : Nat → Cells ℝ → Option (Cells ℝ)
  | 0, g => some g
  | k + 1, g => (convolveTimes n f k g).bind fun g' => (snGroup n).convolve g' f

namespace Props

variable {n : Nat} (hn : 1 ≤ n)
include hn

/-- the matrices of the parts are those of the transform -/
theorem parts_iff {f : Equiv.Perm (Fin n) → ℝ} {ws : List VPart} (h : TransformOf n (cellsOf (I := snGroup n) (elemEquiv n) f) ws)
    (P : VPart → Prop) (Q : Pt n → Prop)
    (hPQ : ∀ (q : Pt n) (W : VPart) (hr : Repr' q.2 W.irrep), W.d = W.irrep.d → W.m = W.irrep.d →
      (∀ a b : Fin W.irrep.d, W.data a b = hat q.2 f (hr.eqv a) (hr.eqv b)) → (P W ↔ Q q)) :
    (∀ W ∈ ws, P W) ↔ ∀ q, Q q := by
  constructor
  · intro hc q
    obtain ⟨i, W, hi, hq⟩ := transform_at hn h q
    obtain ⟨q', hr, hq', d1, m1, k⟩ := entry_hat hn h hi
    obtain rfl : q = q' := Subtype.ext (Option.some.inj (hq.symm.trans hq'))
    exact (hPQ q W hr d1 m1 k).1 (hc W (List.mem_of_getElem? hi))
  · intro hc W hW
    obtain ⟨i, hi⟩ := List.getElem?_of_mem hW
    obtain ⟨q, hr, _, d1, m1, k⟩ := entry_hat hn h hi
    exact (hPQ q W hr d1 m1 k).2 (hc q)

omit hn in
theorem psd_iff {f : Equiv.Perm (Fin n) → ℝ} {q : Pt n} {W : VPart} (hr : Repr' q.2 W.irrep) (hd : W.d = W.irrep.d)
    (k : ∀ a b : Fin W.irrep.d, W.data a b = hat q.2 f (hr.eqv a) (hr.eqv b)) :
    W.Psd ↔ ∀ x : Wd n q.1 → ℝ, 0 ≤ ∑ i, ∑ j, x i * hat q.2 f i j * x j := by
  have e : ∀ x : Wd n q.1 → ℝ, ∑ i, ∑ j, x i * hat q.2 f i j * x j =
      ∑ a : Fin W.irrep.d, ∑ b : Fin W.irrep.d, x (hr.eqv a) * W.data a b * x (hr.eqv b) := by
    intro x
    rw [← hr.eqv.sum_comp]
    refine Finset.sum_congr rfl fun a _ => ?_
    rw [← hr.eqv.sum_comp]
    exact Finset.sum_congr rfl fun b _ => by rw [k]
  unfold VPart.Psd
  rw [hd]
  constructor
  · intro h x
    rw [e]
    have := h fun a => if ha : a < W.irrep.d then x (hr.eqv ⟨a, ha⟩) else 0
    rw [Finset.sum_range] at this
    refine this.trans (le_of_eq (Finset.sum_congr rfl fun a _ => ?_))
    rw [Finset.sum_range]
    exact Finset.sum_congr rfl fun b _ => by simp
  · intro h x
    have := h fun w => x (hr.eqv.symm w)
    rw [e] at this
    refine this.trans (le_of_eq ?_)
    rw [Finset.sum_range]
    refine Finset.sum_congr rfl fun a _ => ?_
    rw [Finset.sum_range]
    exact Finset.sum_congr rfl fun b _ => by simp

omit hn in
theorem regular_iff {f : Equiv.Perm (Fin n) → ℝ} {q : Pt n} {W : VPart} (hr : Repr' q.2 W.irrep) (hd : W.d = W.irrep.d)
    (k : ∀ a b : Fin W.irrep.d, W.data a b = hat q.2 f (hr.eqv a) (hr.eqv b)) : W.Regular ↔ IsUnit (hat q.2 f) := by
  rw [← Matrix.mulVec_injective_iff_isUnit, ← Matrix.coe_mulVecLin, injective_iff_map_eq_zero (Matrix.mulVecLin (hat q.2 f))]
  have e : ∀ (x : Wd n q.1 → ℝ) (a : Fin W.irrep.d), (Matrix.mulVecLin (hat q.2 f) x) (hr.eqv a) =
      ∑ b : Fin W.irrep.d, W.data a b * x (hr.eqv b) := by
    intro x a
    rw [Matrix.mulVecLin_apply, Matrix.mulVec, dotProduct, ← hr.eqv.sum_comp]
    exact Finset.sum_congr rfl fun b _ => by rw [k]
  unfold VPart.Regular
  rw [hd]
  constructor
  · intro h x hx
    funext w
    obtain ⟨b, rfl⟩ := hr.eqv.surjective w
    have := h (fun a => if ha : a < W.irrep.d then x (hr.eqv ⟨a, ha⟩) else 0) (fun a ha => by
      have h1 := e x ⟨a, ha⟩
      rw [hx, Finset.sum_range] at *
      refine Eq.trans (Finset.sum_congr rfl fun b _ => ?_) h1.symm
      simp) b b.2
    simpa using this
  · intro h x hx b hb
    have := h (fun w => x (hr.eqv.symm w)) (by
      funext w
      obtain ⟨a, rfl⟩ := hr.eqv.surjective w
      rw [e]
      have h1 := hx a a.2
      rw [Finset.sum_range] at h1
      simpa using h1)
    have h2 := congrFun this (hr.eqv ⟨b, hb⟩)
    simpa using h2

/-- **C126.** The kernel `K(s,t)=f(s.inv()*t)` is positive semidefinite exactly if every part of the transform of `f` is. -/
theorem C126_kernels (f : Cells ℝ) (hf : Written (snSize n) f) (ws : List VPart) (h : TransformOf n f ws) :
    ∃ K, KernelOf n f K ∧ ((∀ c : Equiv.Perm (Fin n) → ℝ, 0 ≤ ∑ σ, ∑ τ, c σ * K σ τ * c τ) ↔ ∀ W ∈ ws, W.Psd) := by
  obtain ⟨f, rfl⟩ := (written_iff (I := snGroup n) (e := elemEquiv n) f).1 hf
  refine ⟨fun σ τ => f (σ⁻¹ * τ), fun σ τ => ?_, ?_⟩
  · rw [inverse_eq, Option.bind_some, mul_eq, Option.bind_some]
    exact (snGroup_implements n hn).value_eq f _
  · rw [kernel_iff]
    exact (parts_iff hn h _ _ fun q W hr d1 m1 k => psd_iff hr d1 k).symm

/-- **C126.** `f.convolve(h)` determines `h` exactly if every part of the transform of `f` is an invertible matrix, and exactly then every function is
`f.convolve(h)` for some `h`. -/
theorem C126_deconvolution (f : Cells ℝ) (hf : Written (snSize n) f) (ws : List VPart) (h : TransformOf n f ws) :
    ((∀ u v, Written (snSize n) u → Written (snSize n) v → (snGroup n).convolve f u = (snGroup n).convolve f v → u = v) ↔ ∀ W ∈ ws, W.Regular) ∧
    ((∀ g, Written (snSize n) g → ∃ u, Written (snSize n) u ∧ (snGroup n).convolve f u = some g) ↔ ∀ W ∈ ws, W.Regular) := by
  obtain ⟨f, rfl⟩ := (written_iff (I := snGroup n) (e := elemEquiv n) f).1 hf
  have hI := snGroup_implements n hn
  have hinj : ∀ {u v : Equiv.Perm (Fin n) → ℝ}, cellsOf (I := snGroup n) (elemEquiv n) u = cellsOf (I := snGroup n) (elemEquiv n) v → u = v := by
    intro u v h
    funext σ
    have h1 := hI.value_eq u σ
    rw [h, hI.value_eq] at h1
    exact (Option.some.inj h1).symm
  rw [parts_iff hn h _ (fun q => IsUnit (hat q.2 f)) fun q W hr d1 m1 k => regular_iff hr d1 k, ← (deconvolve_iff f).1]
  constructor
  · constructor
    · intro hc u v huv
      exact hinj (hc _ _ ((written_iff (I := snGroup n) (e := elemEquiv n) _).2 ⟨u, rfl⟩) ((written_iff (I := snGroup n) (e := elemEquiv n) _).2 ⟨v, rfl⟩)
        (by rw [convolve_eq hI, convolve_eq hI, huv]))
    · intro hc u v hu hv huv
      obtain ⟨u, rfl⟩ := (written_iff (I := snGroup n) (e := elemEquiv n) u).1 hu
      obtain ⟨v, rfl⟩ := (written_iff (I := snGroup n) (e := elemEquiv n) v).1 hv
      rw [convolve_eq hI, convolve_eq hI] at huv
      rw [hc u v (hinj (Option.some.inj huv))]
  · rw [(deconvolve_iff f).1, ← (deconvolve_iff f).2]
    constructor
    · intro hc g
      obtain ⟨u, hu, h1⟩ := hc _ ((written_iff (I := snGroup n) (e := elemEquiv n) _).2 ⟨g, rfl⟩)
      obtain ⟨u, rfl⟩ := (written_iff (I := snGroup n) (e := elemEquiv n) u).1 hu
      rw [convolve_eq hI] at h1
      exact ⟨u, hinj (Option.some.inj h1)⟩
    · intro hc g hg
      obtain ⟨g, rfl⟩ := (written_iff (I := snGroup n) (e := elemEquiv n) g).1 hg
      obtain ⟨u, hu⟩ := hc g
      exact ⟨_, (written_iff (I := snGroup n) (e := elemEquiv n) _).2 ⟨u, rfl⟩, by rw [convolve_eq hI, hu]⟩

theorem restNorm_eq {f : Equiv.Perm (Fin n) → ℝ} {ws : List VPart} (h : TransformOf n (cellsOf (I := snGroup n) (elemEquiv n) f) ws) :
    restNorm n ws = ∑ q : Pt n, if q.1 = [n] then 0 else (dimW n q.1 : ℝ) * ∑ w, ∑ u, hat q.2 f u w ^ 2 := by
  classical
  let t : List Nat → ℝ := fun p => if hp : IsPartition n p then if p = [n] then 0 else (dimW n p : ℝ) * ∑ w, ∑ u, hat hp f u w ^ 2 else 0
  have e1 : (∑ q : Pt n, if q.1 = [n] then 0 else (dimW n q.1 : ℝ) * ∑ w, ∑ u, hat q.2 f u w ^ 2) = ∑ q : Pt n, t q.1 :=
    Finset.sum_congr rfl fun q _ => by simp only [t, dif_pos q.2]
  rw [e1, sum_Pt hn t]
  unfold restNorm
  congr 1
  have hlen : ws.length = (partitions n).length := by obtain ⟨_, _, hs, _⟩ := h; exact hs.1
  refine List.ext_getElem (by simp [hlen]) fun i h1 h2 => ?_
  have hi2 : i < ws.length := by rw [hlen]; simpa using h2
  have hi1 : i < (partitions n).length := by simpa using h2
  rw [List.getElem_zipWith, List.getElem_map]
  obtain ⟨q, hr, hq, d1, m1, k⟩ := entry_hat hn h (List.getElem?_eq_getElem hi2)
  rw [List.getElem?_eq_getElem hi1, Option.some.injEq] at hq
  rw [hq]
  simp only [t, dif_pos q.2]
  by_cases hc : q.1 = [n]
  · rw [if_pos hc, if_pos hc]
  · rw [if_neg hc, if_neg hc, d1]
    have hdim : ws[i].irrep.d = dimW n q.1 := hr.d_eq
    congr 1
    · rw [hdim]
    · rw [Finset.sum_comm, Finset.sum_range, ← hr.eqv.sum_comp]
      refine Finset.sum_congr rfl fun b _ => ?_
      rw [Finset.sum_range, ← hr.eqv.sum_comp]
      exact Finset.sum_congr rfl fun a _ => by rw [k]

/-- **C127.** For a function whose values add up to one: the sum of the squared differences to `1/n!` times `n!` is the sum over the partitions other
than `[n]` of the dimension times the squares of the entries of the part. -/
theorem C127_distance (v : Equiv.Perm (Fin n) → ℝ) (hv : ∑ σ, v σ = 1) (f : Cells ℝ) (hf : Written (snSize n) f)
    (hfv : ∀ σ, (snGroup n).value f (enc σ) = some (v σ)) (ws : List VPart) (h : TransformOf n f ws) :
    (n ! : ℝ) * ∑ σ, (v σ - 1 / n !) ^ 2 = restNorm n ws ∧ (∑ σ, |v σ - 1 / (n ! : ℝ)|) ^ 2 ≤ restNorm n ws := by
  obtain ⟨f, rfl⟩ := (written_iff (I := snGroup n) (e := elemEquiv n) f).1 hf
  obtain rfl : f = v := funext fun σ => Option.some.inj (((snGroup_implements n hn).value_eq f σ).symm.trans (hfv σ))
  rw [restNorm_eq hn h]
  exact ⟨distance_eq hn f hv, distance_le hn f hv⟩

theorem convolveTimes_eq (f : Equiv.Perm (Fin n) → ℝ) (k : Nat) :
    convolveTimes n (cellsOf (I := snGroup n) (elemEquiv n) f) k (cellsOf (I := snGroup n) (elemEquiv n) f) =
      some (cellsOf (I := snGroup n) (elemEquiv n) ((fun g : Equiv.Perm (Fin n) → ℝ => fun x => ∑ y, g (x * y⁻¹) * f y)^[k] f)) := by
  induction k with
  | zero => rfl
  | succ k ih =>
    rw [convolveTimes, ih, Option.bind_some, convolve_eq (snGroup_implements n hn), Function.iterate_succ_apply']

/-- **C127.** Convolving with `f` again and again raises the matrices of the transform to powers. -/
theorem C127_powers (f : Cells ℝ) (hf : Written (snSize n) f) (ws : List VPart) (h : TransformOf n f ws) (k : Nat) :
    ∃ g, convolveTimes n f k f = some g ∧ Written (snSize n) g ∧ ∀ vs, TransformOf n g vs → ∀ (i : Nat) (W V : VPart), ws[i]? = some W → vs[i]? = some V →
      V.d = W.d ∧ V.irrep = W.irrep ∧ ∀ a b : Fin W.d, V.data a b = (W.square ^ (k + 1)) a b := by
  obtain ⟨f, rfl⟩ := (written_iff (I := snGroup n) (e := elemEquiv n) f).1 hf
  refine ⟨_, convolveTimes_eq hn f k, (written_iff (I := snGroup n) (e := elemEquiv n) _).2 ⟨_, rfl⟩, fun vs h' i W V hi hi' => ?_⟩
  obtain ⟨e, p, hp, hr, hpi, d1, m1, d2, m2, k1, k2⟩ := h.pair hn h' hi hi'
  refine ⟨by rw [d1, d2], e, fun a b => ?_⟩
  let ε : Fin W.d ≃ Wd n p := (finCongr d1).trans hr.eqv
  have e1 : W.square = (hat hp f).submatrix ε ε := by
    ext a b
    exact k1 (finCongr d1 a) (finCongr d1 b)
  have e2 : ∀ k, ((hat hp f).submatrix ε ε) ^ k = (hat hp f ^ k).submatrix ε ε := by
    intro k
    induction k with
    | zero => rw [pow_zero, pow_zero, Matrix.submatrix_one_equiv]
    | succ k ih => rw [pow_succ, ih, pow_succ, Matrix.submatrix_mul_equiv]
  rw [e1, e2, ← hat_power]
  exact k2 (finCongr d1 a) (finCongr d1 b)

/-- **C127.** For a function whose values add up to one: the square of the sum of the absolute differences between `1/n!` and the values of the
function convolved `k` times with itself is at most the sum over the partitions other than `[n]` of the dimension times the squares of the entries of the
power of the part. -/
theorem C127_mixing (v : Equiv.Perm (Fin n) → ℝ) (hv : ∑ σ, v σ = 1) (f : Cells ℝ) (hf : Written (snSize n) f)
    (hfv : ∀ σ, (snGroup n).value f (enc σ) = some (v σ)) (ws : List VPart) (h : TransformOf n f ws) (k : Nat) :
    ∃ (g : Cells ℝ) (u : Equiv.Perm (Fin n) → ℝ), convolveTimes n f k f = some g ∧ (∀ σ, (snGroup n).value g (enc σ) = some (u σ)) ∧ ∑ σ, u σ = 1 ∧
      (∑ σ, |u σ - 1 / (n ! : ℝ)|) ^ 2 ≤ (List.zipWith (fun p (W : VPart) => if p = [n] then 0 else (W.d : ℝ) *
        ∑ a : Fin W.d, ∑ b : Fin W.d, (W.square ^ (k + 1)) a b ^ 2) (partitions n) ws).sum := by
  obtain ⟨g, hg, hw, hp⟩ := C127_powers hn f hf ws h k
  obtain ⟨vs, h'⟩ := exists_transform n hn g hw
  have hI := snGroup_implements n hn
  have hu : ∃ u : Equiv.Perm (Fin n) → ℝ, (∀ σ, (snGroup n).value g (enc σ) = some (u σ)) ∧ ∑ σ, u σ = 1 := by
    obtain ⟨f, rfl⟩ := (written_iff (I := snGroup n) (e := elemEquiv n) f).1 hf
    obtain rfl : f = v := funext fun σ => Option.some.inj ((hI.value_eq f σ).symm.trans (hfv σ))
    rw [convolveTimes_eq hn] at hg
    obtain rfl := Option.some.inj hg
    refine ⟨_, fun σ => hI.value_eq _ σ, ?_⟩
    clear hp h' hw hg
    induction k with
    | zero => exact hv
    | succ k ih =>
      rw [Function.iterate_succ_apply', Finset.sum_comm]
      have : ∀ y, ∑ x, ((fun g : Equiv.Perm (Fin n) → ℝ => fun x => ∑ y, g (x * y⁻¹) * f y)^[k] f) (x * y⁻¹) * f y = f y := by
        intro y
        rw [← Finset.sum_mul, ← Equiv.sum_comp (Equiv.mulRight y)]
        simp only [Equiv.coe_mulRight, mul_inv_cancel_right]
        rw [ih, one_mul]
      rw [Finset.sum_congr rfl fun y _ => this y]
      exact hv
  obtain ⟨u, hu1, hu2⟩ := hu
  refine ⟨g, u, hg, hu1, hu2, (C127_distance hn u hu2 g hw hu1 vs h').2.trans (le_of_eq ?_)⟩
  unfold restNorm
  congr 1
  have hlen : ∀ {f : Cells ℝ} {ws : List VPart}, TransformOf n f ws → ws.length = (partitions n).length := fun ⟨_, _, hs, _⟩ => hs.1
  refine List.ext_getElem (by simp [hlen h, hlen h']) fun i h1 h2 => ?_
  have hi2 : i < vs.length := by simp at h1; omega
  have hi1 : i < ws.length := by simp at h2; omega
  rw [List.getElem_zipWith, List.getElem_zipWith]
  obtain ⟨p1, -, p3⟩ := hp vs h' i _ _ (List.getElem?_eq_getElem hi1) (List.getElem?_eq_getElem hi2)
  by_cases hc : (partitions n)[i]'(by simp at h1; omega) = [n]
  · rw [if_pos hc, if_pos hc]
  · rw [if_neg hc, if_neg hc, p1, Finset.sum_range]
    congr 1
    refine Finset.sum_congr rfl fun a _ => ?_
    rw [Finset.sum_range]
    exact Finset.sum_congr rfl fun b _ => by rw [p3]

/-- **C126, C127** for the transform as coded. Full statement: the statements above hold of what `ClausenFFT` returns, for all `n`. What is proved: for
`n≤4`. For larger `n` the coded transform is not the Fourier transform (C37). -/
theorem C126_fft_partial (h4 : n ≤ 4) (f : Cells ℝ) (hf : Written (snSize n) f) (F : Nat → ℝ) (hF : ∀ c < snSize n, rdC f c = some (F c)) :
    ∃ ws, fft n F = some ws ∧
      (∃ K, KernelOf n f K ∧ ((∀ c : Equiv.Perm (Fin n) → ℝ, 0 ≤ ∑ σ, ∑ τ, c σ * K σ τ * c τ) ↔ ∀ W ∈ ws, W.Psd)) ∧
      ((∀ g, Written (snSize n) g → ∃ u, Written (snSize n) u ∧ (snGroup n).convolve f u = some g) ↔ ∀ W ∈ ws, W.Regular) ∧
      ∀ v : Equiv.Perm (Fin n) → ℝ, ∑ σ, v σ = 1 → (∀ σ, (snGroup n).value f (enc σ) = some (v σ)) → (∑ σ, |v σ - 1 / (n ! : ℝ)|) ^ 2 ≤ restNorm n ws := by
  obtain ⟨ws, h1, h2⟩ := C39_fft_partial n hn h4 f F hF
  exact ⟨ws, h1, C126_kernels hn f hf ws h2, (C126_deconvolution hn f hf ws h2).2, fun v hv hfv => (C127_distance hn v hv f hf hfv ws h2).2⟩

omit hn

/-- Convolution with the function that is one everywhere loses information, for every `n≥2`. -/
example (n : Nat) (hn : 2 ≤ n) : ∃ u v, Written (snSize n) u ∧ Written (snSize n) v ∧ u ≠ v ∧
    (snGroup n).convolve (cellsOf (I := snGroup n) (elemEquiv n) fun _ => (1 : ℝ)) u =
      (snGroup n).convolve (cellsOf (I := snGroup n) (elemEquiv n) fun _ => (1 : ℝ)) v := by
  classical
  have h1 : 1 ≤ n := by omega
  have hI := snGroup_implements n h1
  have hne : (1 : Equiv.Perm (Fin n)) ≠ Equiv.swap ⟨0, by omega⟩ ⟨1, by omega⟩ := by
    intro h
    have := congrArg (fun σ : Equiv.Perm (Fin n) => σ ⟨0, by omega⟩) h
    simp at this
  refine ⟨cellsOf (I := snGroup n) (elemEquiv n) fun σ => if σ = 1 then 1 else 0,
    cellsOf (I := snGroup n) (elemEquiv n) fun σ => if σ = Equiv.swap ⟨0, by omega⟩ ⟨1, by omega⟩ then 1 else 0,
    (written_iff (I := snGroup n) (e := elemEquiv n) _).2 ⟨_, rfl⟩, (written_iff (I := snGroup n) (e := elemEquiv n) _).2 ⟨_, rfl⟩, fun h => ?_, ?_⟩
  · have h2 := congrArg (fun f => (snGroup n).value f (enc (1 : Equiv.Perm (Fin n)))) h
    simp only [hI.value_eq] at h2
    simp [hne] at h2
  · rw [convolve_eq hI, convolve_eq hI]
    simp

/-- The function that is one at the unit satisfies the hypotheses of C127. -/
example (n : Nat) (hn : 1 ≤ n) : ∃ (f : Cells ℝ) (ws : List VPart), Written (snSize n) f ∧ TransformOf n f ws ∧
    ∀ σ : Equiv.Perm (Fin n), (snGroup n).value f (enc σ) = some (if σ = 1 then 1 else 0) := by
  have hw : Written (snSize n) (cellsOf (I := snGroup n) (elemEquiv n) fun σ => if σ = 1 then (1 : ℝ) else 0) :=
    (written_iff (I := snGroup n) (e := elemEquiv n) _).2 ⟨_, rfl⟩
  obtain ⟨ws, h⟩ := exists_transform n hn _ hw
  exact ⟨_, ws, hw, h, fun σ => (snGroup_implements n hn).value_eq _ σ⟩

end Props

end Snob
