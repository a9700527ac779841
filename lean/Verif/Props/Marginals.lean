import Verif.Proofs.Marginals
import Verif.Props.Correlate

/-! # Property C132: marginals and the parts with a long first row -/

namespace Snob.Props

open Snob IP Perm
open scoped Nat

/-- the entries of two parts are the same -/
def SameData (W V : VPart) : Prop := W.d = V.d ∧ W.m = V.m ∧ ∀ a < W.d, ∀ b < W.m, W.data a b = V.data a b

variable {n : Nat} (hn : 1 ≤ n)
include hn

/-- parts at one place of the lists, in terms of the matrices -/
theorem pair_iff {f f' : Equiv.Perm (Fin n) → ℝ} {ws vs : List VPart} (h : TransformOf n (cellsOf (I := snGroup n) (elemEquiv n) f) ws)
    (h' : TransformOf n (cellsOf (I := snGroup n) (elemEquiv n) f') vs) (C : List Nat → Prop) :
    (∀ (c : Nat) (p : List Nat) (W V : VPart), (partitions n)[c]? = some p → ws[c]? = some W → vs[c]? = some V → C p → SameData W V) ↔
      ∀ q : Pt n, C q.1 → hat q.2 f = hat q.2 f' := by
  constructor
  · intro hs q hq
    obtain ⟨c, W, hc, hp⟩ := transform_at hn h q
    obtain ⟨c', V, hc', hp'⟩ := transform_at hn h' q
    obtain rfl : c = c' := by
      have := partitions_nodup n
      have l1 := (List.getElem?_eq_some_iff.1 hp).1
      exact (List.getElem?_inj l1 this).1 (hp.trans hp'.symm)
    obtain ⟨e, p, hpp, hr, hpi, d1, m1, d2, m2, k1, k2⟩ := h.pair hn h' hc hc'
    obtain rfl : q.1 = p := Option.some.inj (hp.symm.trans hpi)
    obtain ⟨-, -, g⟩ := hs c _ W V hp hc hc' hq
    ext x y
    obtain ⟨a, rfl⟩ := hr.eqv.surjective x
    obtain ⟨b, rfl⟩ := hr.eqv.surjective y
    exact (k1 a b).symm.trans ((g a (by omega) b (by omega)).trans (k2 a b))
  · intro hs c p W V hp hc hc' hC
    obtain ⟨e, p', hpp, hr, hpi, d1, m1, d2, m2, k1, k2⟩ := h.pair hn h' hc hc'
    obtain rfl : p = p' := Option.some.inj (hp.symm.trans hpi)
    refine ⟨by omega, by omega, fun a ha b hb => ?_⟩
    have h1 := k1 ⟨a, by omega⟩ ⟨b, by omega⟩
    have h2 := k2 ⟨a, by omega⟩ ⟨b, by omega⟩
    have h3 := congrFun (congrFun (hs ⟨p, hpp⟩ hC) (hr.eqv ⟨a, by omega⟩)) (hr.eqv ⟨b, by omega⟩)
    exact h1.trans (h3.trans h2.symm)

/-- parts that vanish -/
theorem zero_iff' {f : Equiv.Perm (Fin n) → ℝ} {ws : List VPart} (h : TransformOf n (cellsOf (I := snGroup n) (elemEquiv n) f) ws) (C : List Nat → Prop) :
    (∀ (c : Nat) (p : List Nat) (W : VPart), (partitions n)[c]? = some p → ws[c]? = some W → C p → ∀ a < W.d, ∀ b < W.m, W.data a b = 0) ↔
      ∀ q : Pt n, C q.1 → hat q.2 f = 0 := by
  constructor
  · intro hs q hq
    obtain ⟨c, W, hc, hp⟩ := transform_at hn h q
    obtain ⟨q', hr, hpi, d1, m1, k1⟩ := entry_hat hn h hc
    obtain rfl : q = q' := Subtype.ext (Option.some.inj (hp.symm.trans hpi))
    ext x y
    obtain ⟨a, rfl⟩ := hr.eqv.surjective x
    obtain ⟨b, rfl⟩ := hr.eqv.surjective y
    rw [← k1]
    exact hs c _ W hp hc hq a (by omega) b (by omega)
  · intro hs c p W hp hc hC a ha b hb
    obtain ⟨q, hr, hpi, d1, m1, k1⟩ := entry_hat hn h hc
    obtain rfl : p = q.1 := Option.some.inj (hp.symm.trans hpi)
    have := k1 ⟨a, by omega⟩ ⟨b, by omega⟩
    rw [hs q hC] at this
    exact this

/-- **C132.** Two functions on `Sn` have the same marginals of order `k` exactly if the parts of their Fourier transforms for
the partitions with a first row of at least `n-k` boxes are the same. -/
theorem C132_marginals (k : Nat) (hk : k < n) (f f' : Cells ℝ) (hf : Written (snSize n) f) (hf' : Written (snSize n) f')
    (v v' : Equiv.Perm (Fin n) → ℝ) (hv : ValuesOf n f v) (hv' : ValuesOf n f' v') (ws vs : List VPart) (h : TransformOf n f ws)
    (h' : TransformOf n f' vs) : SameMarginals k v v' ↔ ∀ (c : Nat) (p : List Nat) (W V : VPart), (partitions n)[c]? = some p →
      ws[c]? = some W → vs[c]? = some V → n - k ≤ row p 0 → SameData W V := by
  obtain rfl := valuesOf_cells hn hf hv
  obtain rfl := valuesOf_cells hn hf' hv'
  rw [pair_iff hn h h' fun p => n - k ≤ row p 0]
  exact marginal_hat hk v v'

/-- **C132.** A function on `Sn` is a sum of functions of the images of `k` places exactly if the parts of its Fourier transform
for the partitions with a first row of fewer than `n-k` boxes vanish. -/
theorem C132_band_limited (k : Nat) (hk : k < n) (f : Cells ℝ) (hf : Written (snSize n) f) (v : Equiv.Perm (Fin n) → ℝ) (hv : ValuesOf n f v)
    (ws : List VPart) (h : TransformOf n f ws) : SumOfPlaces k v ↔ ∀ (c : Nat) (p : List Nat) (W : VPart), (partitions n)[c]? = some p →
      ws[c]? = some W → row p 0 < n - k → ∀ a < W.d, ∀ b < W.m, W.data a b = 0 := by
  obtain rfl := valuesOf_cells hn hf hv
  rw [zero_iff' hn h fun p => row p 0 < n - k]
  exact places_iff hk v

/-- **C132.** If the parts with a short first row are set to zero, the function with that transform is a sum of functions of `k` places,
has the marginals of order `k` of `f`, and is nearest to `f` among all such sums (the squares of the distances add up). -/
theorem C132_truncate (k : Nat) (hk : k < n) (f g : Cells ℝ) (hf : Written (snSize n) f) (hg : Written (snSize n) g)
    (v w : Equiv.Perm (Fin n) → ℝ) (hv : ValuesOf n f v) (hw : ValuesOf n g w) (ws vs : List VPart) (h : TransformOf n f ws) (h' : TransformOf n g vs)
    (h1 : ∀ (c : Nat) (p : List Nat) (W V : VPart), (partitions n)[c]? = some p → ws[c]? = some W → vs[c]? = some V → n - k ≤ row p 0 → SameData W V)
    (h2 : ∀ (c : Nat) (p : List Nat) (V : VPart), (partitions n)[c]? = some p → vs[c]? = some V → row p 0 < n - k →
      ∀ a < V.d, ∀ b < V.m, V.data a b = 0) :
    SumOfPlaces k w ∧ SameMarginals k v w ∧
      ∀ u : Equiv.Perm (Fin n) → ℝ, SumOfPlaces k u → ∑ σ, (v σ - u σ) ^ 2 = ∑ σ, (v σ - w σ) ^ 2 + ∑ σ, (w σ - u σ) ^ 2 := by
  refine ⟨(C132_band_limited hn k hk g hg w hw vs h').2 h2, (C132_marginals hn k hk f g hf hg v w hv hw ws vs h h').2 h1, fun u hu => ?_⟩
  obtain rfl := valuesOf_cells hn hf hv
  obtain rfl := valuesOf_cells hn hg hw
  rw [pair_iff hn h h' fun p => n - k ≤ row p 0] at h1
  rw [zero_iff' hn h' fun p => row p 0 < n - k] at h2
  exact truncate_nearest hk v w u (fun q hq => (h1 q hq).symm) h2 hu

/-- **C132** for the transform as coded. Full statement: the statements above hold of what `ClausenFFT` returns, for all `n`. What is proved: for
`n≤4`. For larger `n` the coded transform is not the Fourier transform (C37). -/
theorem C132_fft_partial (h4 : n ≤ 4) (k : Nat) (hk : k < n) (f f' : Cells ℝ) (hf : Written (snSize n) f) (hf' : Written (snSize n) f')
    (v v' : Equiv.Perm (Fin n) → ℝ) (hv : ValuesOf n f v) (hv' : ValuesOf n f' v') (F F' : Nat → ℝ) (hF : ∀ c < snSize n, rdC f c = some (F c))
    (hF' : ∀ c < snSize n, rdC f' c = some (F' c)) : ∃ ws vs, fft n F = some ws ∧ fft n F' = some vs ∧
      (SameMarginals k v v' ↔ ∀ (c : Nat) (p : List Nat) (W V : VPart), (partitions n)[c]? = some p → ws[c]? = some W → vs[c]? = some V →
        n - k ≤ row p 0 → SameData W V) ∧
      (SumOfPlaces k v ↔ ∀ (c : Nat) (p : List Nat) (W : VPart), (partitions n)[c]? = some p → ws[c]? = some W → row p 0 < n - k →
        ∀ a < W.d, ∀ b < W.m, W.data a b = 0) := by
  obtain ⟨ws, h1, h2⟩ := C39_fft_partial n hn h4 f F hF
  obtain ⟨vs, h3, h4⟩ := C39_fft_partial n hn h4 f' F' hF'
  exact ⟨ws, vs, h1, h3, C132_marginals hn k hk f f' hf hf' v v' hv hv' ws vs h2 h4, C132_band_limited hn k hk f hf v hv ws h2⟩

omit hn

/-- The number of fixed points is a sum of functions of one place, for every `n≥2`; thus all parts of its transform but the first two
kinds (`(n)` and `(n-1,1)`) vanish. -/
example (n : Nat) (hn : 2 ≤ n) : ∃ (f : Cells ℝ) (ws : List VPart), Written (snSize n) f ∧ TransformOf n f ws ∧
    (∀ σ : Equiv.Perm (Fin n), (snGroup n).value f (enc σ) = some (((Finset.univ.filter fun x => σ x = x).card : ℝ))) ∧
    ∀ (c : Nat) (p : List Nat) (W : VPart), (partitions n)[c]? = some p → ws[c]? = some W → row p 0 < n - 1 →
      ∀ a < W.d, ∀ b < W.m, W.data a b = 0 := by
  have hI := snGroup_implements n (by omega)
  have hw : Written (snSize n) (cellsOf (I := snGroup n) (elemEquiv n) fun σ => ((Finset.univ.filter fun x => σ x = x).card : ℝ)) :=
    (written_iff (I := snGroup n) (e := elemEquiv n) _).2 ⟨_, rfl⟩
  obtain ⟨ws, h⟩ := exists_transform n (by omega) _ hw
  refine ⟨_, ws, hw, h, fun σ => hI.value_eq _ σ, (C132_band_limited (by omega) 1 (by omega) _ hw _ (fun σ => hI.value_eq _ σ) ws h).1 ?_⟩
  refine ⟨fun i j => if i = j then 1 else 0, fun σ => ?_⟩
  beta_reduce
  rw [Finset.card_filter]
  push_cast
  symm
  refine Fintype.sum_equiv (Equiv.funUnique (Fin 1) (Fin n)) _ _ fun i => ?_
  have : (i = fun a => σ (i a)) ↔ σ ((Equiv.funUnique (Fin 1) (Fin n)) i) = (Equiv.funUnique (Fin 1) (Fin n)) i := by
    constructor
    · intro e; exact (congrFun e 0).symm
    · intro e; funext a; rw [Subsingleton.elim a 0]; exact e.symm
  exact if_congr this rfl rfl

/-- the sign has the marginals of order one of the function zero, for `S_3`, but not those of order two -/
example : SameMarginals 1 (fun σ : Equiv.Perm (Fin 3) => ((Equiv.Perm.sign σ : Int) : ℝ)) (fun _ => 0) ∧
    ¬SameMarginals 2 (fun σ : Equiv.Perm (Fin 3) => ((Equiv.Perm.sign σ : Int) : ℝ)) (fun _ => 0) := by
  have e : ∀ {k : Nat} (i j : Fin k → Fin 3), marginal (fun σ : Equiv.Perm (Fin 3) => ((Equiv.Perm.sign σ : Int) : ℝ)) i j =
      ((∑ σ ∈ Finset.univ.filter (fun σ : Equiv.Perm (Fin 3) => (fun a => σ (i a)) = j), (Equiv.Perm.sign σ : Int) : Int) : ℝ) := by
    intro k i j
    unfold marginal
    push_cast
    rfl
  have z : ∀ {k : Nat} (i j : Fin k → Fin 3), marginal (fun _ : Equiv.Perm (Fin 3) => (0 : ℝ)) i j = 0 := fun i j => by simp [marginal]
  constructor
  · intro i j
    rw [e, z]
    have : ∀ i j : Fin 1 → Fin 3, (∑ σ ∈ Finset.univ.filter (fun σ : Equiv.Perm (Fin 3) => (fun a => σ (i a)) = j), (Equiv.Perm.sign σ : Int) : Int) = 0 := by
      decide
    rw [this]; simp
  · intro h
    have h := h ![0, 1] ![0, 1]
    rw [e, z] at h
    have : (∑ σ ∈ Finset.univ.filter (fun σ : Equiv.Perm (Fin 3) => (fun a => σ ((![0, 1] : Fin 2 → Fin 3) a)) = ![0, 1]),
        (Equiv.Perm.sign σ : Int) : Int) = 1 := by decide
    rw [this] at h
    norm_num at h

end Snob.Props
