import Verif.Spec.WeightsConv
import Verif.Props.Fill
import Verif.Props.Kernels
import Verif.Props.SnWeights

/-! # Weights as maps of functions on `Sn` (C135) -/

namespace Snob

open IP Perm Props SnVec Weights
open scoped Nat

variable {n : Nat} (hn : 1 ≤ n)

include hn in
/-- a transform is a vector with a part for every partition -/
theorem Props.TransformOf.ok {f : Cells ℝ} {ws : List VPart} (h : TransformOf n f ws) : Ok n ws ∧ vkeys ws = partitions n := by
  obtain ⟨F, -, hs, -⟩ := h
  have hk : ∀ (i : Nat) (W : VPart), ws[i]? = some W → (partitions n)[i]? = some W.irrep.lambda ∧ mkIrrep W.irrep.lambda = some W.irrep ∧
      W.d = W.irrep.d := by
    intro i W hi
    have hi' : i < (partitions n).length := by rw [← hs.1]; exact (List.getElem?_eq_some_iff.1 hi).1
    obtain ⟨hmk, hd, -⟩ := hs.2 i _ W (List.getElem?_eq_getElem hi') hi
    obtain ⟨R, hR, hl, -⟩ := exists_repr hn ((mem_partitions n hn _).1 (List.getElem_mem hi'))
    obtain rfl : R = W.irrep := Option.some.inj (hR.symm.trans hmk)
    rw [hl]
    exact ⟨List.getElem?_eq_getElem hi', hmk, hd⟩
  have hkeys : vkeys ws = partitions n := by
    refine List.ext_getElem? fun i => ?_
    show (ws.map fun P => P.irrep.lambda)[i]? = _
    rw [List.getElem?_map]
    cases hi : ws[i]? with
    | none =>
      have := List.getElem?_eq_none_iff.1 hi
      exact (List.getElem?_eq_none (by rw [← hs.1]; exact this)).symm
    | some W => exact (hk i W hi).1.symm
  refine ⟨⟨fun P hP => ?_, ?_⟩, hkeys⟩
  · obtain ⟨i, hi⟩ := List.getElem?_of_mem hP
    obtain ⟨h1, h2, h3⟩ := hk i P hi
    exact ⟨(mem_partitions n hn _).1 (List.mem_of_getElem? h1), h2, h3⟩
  · show (vkeys ws).Pairwise _
    rw [hkeys]
    exact partitions_pairwise n

/-- what is a transform does not depend on the data outside the dimensions -/
theorem Props.TransformOf.same {f : Cells ℝ} {ws ws' : List VPart} (h : TransformOf n f ws) (hs : SameVec ws' ws) : TransformOf n f ws' := by
  obtain ⟨F, hF, ⟨s1, s2⟩, ht⟩ := h
  have hget : ∀ (i : Nat) (W' : VPart), ws'[i]? = some W' → ∃ W, ws[i]? = some W := fun i W' hi =>
    ⟨_, List.getElem?_eq_getElem (by rw [← hs.1]; exact (List.getElem?_eq_some_iff.1 hi).1)⟩
  refine ⟨F, hF, ⟨by rw [hs.1, s1], fun i p W' hp hi => ?_⟩, fun W' hW' => ?_⟩
  · obtain ⟨W, hW⟩ := hget i W' hi
    obtain ⟨a1, a2, a3, -⟩ := hs.2 i W' W hi hW
    rw [a1, a2, a3]
    exact s2 i p W hp hW
  · obtain ⟨i, hi⟩ := List.getElem?_of_mem hW'
    obtain ⟨W, hW⟩ := hget i W' hi
    obtain ⟨a1, a2, a3, a4⟩ := hs.2 i W' W hi hW
    obtain ⟨ρ, r1, r2⟩ := ht W (List.mem_of_getElem? hW)
    have hp : (partitions n)[i]? = some ((partitions n)[i]'(by rw [← s1]; exact (List.getElem?_eq_some_iff.1 hW).1)) := List.getElem?_eq_getElem _
    refine ⟨ρ, by rw [a1]; exact r1, fun j hj k l hk => ?_⟩
    rw [a1] at hk
    rw [a4 j hj k (by rw [a3, (s2 i _ W hp hW).2.2]; exact (List.getElem?_eq_some_iff.1 hk).1)]
    exact r2 j (by rw [← a2]; exact hj) k l hk

theorem cellsOf_inj {u v : Equiv.Perm (Fin n) → ℝ} (hn : 1 ≤ n)
    (h : cellsOf (I := snGroup n) (elemEquiv n) u = cellsOf (I := snGroup n) (elemEquiv n) v) : u = v := by
  have hI := snGroup_implements n hn
  funext σ
  have h1 := hI.value_eq u σ
  rw [h, hI.value_eq] at h1
  exact (Option.some.inj h1).symm

include hn in
/-- a function is determined by its transform -/
theorem transform_inj {f g : Equiv.Perm (Fin n) → ℝ} {ws : List VPart} (hf : TransformOf n (cellsOf (I := snGroup n) (elemEquiv n) f) ws)
    (hg : TransformOf n (cellsOf (I := snGroup n) (elemEquiv n) g) ws) : f = g := by
  refine hat_injective fun q => ?_
  obtain ⟨i, W, hi, hq⟩ := transform_at hn hf q
  obtain ⟨q1, r1, e1, -, -, k1⟩ := entry_hat hn hf hi
  obtain ⟨q2, r2, e2, -, -, k2⟩ := entry_hat hn hg hi
  obtain rfl : q = q1 := Subtype.ext (Option.some.inj (hq.symm.trans e1))
  obtain rfl : q = q2 := Subtype.ext (Option.some.inj (hq.symm.trans e2))
  ext a b
  have := (k1 (r1.eqv.symm a) (r1.eqv.symm b)).symm.trans (k2 (r1.eqv.symm a) (r1.eqv.symm b))
  simpa using this

/-- the matrices of `W` are the transposes of those of `g` -/
def WHat (n : Nat) (W : Weights) (e : List Nat → Nat → Nat → ℝ) (g : Equiv.Perm (Fin n) → ℝ) : Prop :=
  ∀ (q : Pt n) (R : IrrepObj) (hr : Repr' q.2 R), mkIrrep q.1 = some R → W q.1 = some (.mat R.d R.d (e q.1)) ∧
    ∀ a b : Fin R.d, e q.1 b a = hat q.2 g (hr.eqv a) (hr.eqv b)

include hn in
theorem wHat_acts {W : Weights} {e : List Nat → Nat → Nat → ℝ} {g F : Equiv.Perm (Fin n) → ℝ} (h : WHat n W e g) {ws : List VPart}
    (hF : TransformOf n (cellsOf (I := snGroup n) (elemEquiv n) F) ws) :
    ∃ ws', mulVec W ws = some ws' ∧ TransformOf n (cellsOf (I := snGroup n) (elemEquiv n) fun x => ∑ y, g (x * y⁻¹) * F y) ws' := by
  obtain ⟨ok, hk⟩ := hF.ok hn
  have hpt : ∀ P ∈ ws, P.m = P.irrep.d ∧ ∃ hp : IsPartition n P.irrep.lambda, Repr' hp P.irrep := by
    intro P hP
    obtain ⟨i, hi⟩ := List.getElem?_of_mem hP
    obtain ⟨q, hr, hq, -, hm, -⟩ := entry_hat hn hF hi
    refine ⟨hm, (ok.part P hP).1, ?_⟩
    obtain ⟨R, hR, -, hr'⟩ := exists_repr hn (ok.part P hP).1
    obtain rfl : R = P.irrep := Option.some.inj (hR.symm.trans (ok.part P hP).2.1)
    exact hr'
  obtain ⟨w, m1, m2, m3, m4⟩ := mulVec_ok hn ok W (fun x => (partAt ws x).m) e (fun x hx => by
    obtain ⟨P, hP, rfl⟩ := List.mem_map.1 hx
    rw [partAt_of_mem ok.nodup hP]
    obtain ⟨hm, hp, hr⟩ := hpt P hP
    rw [hm]
    exact (h ⟨_, hp⟩ P.irrep hr (ok.part P hP).2.1).1)
  obtain ⟨vs, hvs⟩ := exists_transform n hn (cellsOf (I := snGroup n) (elemEquiv n) fun x => ∑ y, g (x * y⁻¹) * F y)
    ((written_iff (I := snGroup n) (e := elemEquiv n) _).2 ⟨_, rfl⟩)
  obtain ⟨ok', hk'⟩ := hvs.ok hn
  refine ⟨w, m1, hvs.same ⟨?_, fun i P V hi hV => ?_⟩⟩
  · have := congrArg List.length (m3.trans (hk.trans hk'.symm))
    simpa [vkeys] using this
  have hlen : ws.length = vs.length := by
    have := congrArg List.length (hk.trans hk'.symm)
    simpa [vkeys] using this
  obtain ⟨U, hU⟩ : ∃ U, ws[i]? = some U := ⟨_, List.getElem?_eq_getElem (by rw [hlen]; exact (List.getElem?_eq_some_iff.1 hV).1)⟩
  obtain ⟨e1, p, hp, hr, hpi, d1, n1, d2, n2, k1, k2⟩ := hF.pair hn hvs hU hV
  have hUm := List.mem_of_getElem? hU
  have hPm := List.mem_of_getElem? hi
  have hlam : P.irrep.lambda = U.irrep.lambda := by
    have h1 : (vkeys w)[i]? = some P.irrep.lambda := by show (w.map _)[i]? = _; rw [List.getElem?_map, hi]; rfl
    have h2 : (vkeys ws)[i]? = some U.irrep.lambda := by show (ws.map _)[i]? = _; rw [List.getElem?_map, hU]; rfl
    rw [m3, h2] at h1
    exact (Option.some.inj h1).symm
  have hirr : P.irrep = U.irrep := by
    have h1 := (m2.part P hPm).2.1
    rw [hlam, (ok.part U hUm).2.1] at h1
    exact (Option.some.inj h1).symm
  have hkU : U.irrep.lambda ∈ vkeys ws := List.mem_map.2 ⟨U, hUm, rfl⟩
  obtain ⟨b1, b2⟩ := m4 _ hkU
  have hPa : partAt w U.irrep.lambda = P := by rw [← hlam]; exact partAt_of_mem m2.nodup hPm
  rw [hPa, partAt_of_mem ok.nodup hUm] at b1
  have hPd : P.d = U.irrep.d := by rw [(m2.part P hPm).2.2, hirr]
  refine ⟨by rw [hirr, e1], by rw [hPd, d2], by rw [b1, n1, n2], fun a ha b hb => ?_⟩
  rw [hPd] at ha
  rw [b1, n1] at hb
  have hb2 := b2 a b
  rw [hPa, partAt_of_mem ok.nodup hUm, n1, Finset.sum_range] at hb2
  rw [hb2]
  have hlp : U.irrep.lambda = p := by
    have h2 : (vkeys ws)[i]? = some U.irrep.lambda := by show (ws.map _)[i]? = _; rw [List.getElem?_map, hU]; rfl
    rw [hk, hpi] at h2
    exact (Option.some.inj h2).symm
  have hmk := (ok.part U hUm).2.1
  rw [hlp] at hmk ⊢
  obtain ⟨-, c2⟩ := h ⟨p, hp⟩ U.irrep hr hmk
  have hV' : V.data a b = hat hp (fun x => ∑ y, g (x * y⁻¹) * F y) (hr.eqv ⟨a, ha⟩) (hr.eqv ⟨b, hb⟩) := k2 ⟨a, ha⟩ ⟨b, hb⟩
  rw [hV', hat_convolve, Matrix.mul_apply]
  refine Fintype.sum_equiv hr.eqv _ _ fun k => ?_
  rw [c2 k ⟨b, hb⟩]
  congr 1
  exact k1 ⟨a, ha⟩ k

/-- the matrices of square weights -/
def Weights.ent (W : Weights) (p : List Nat) : Nat → Nat → ℝ :=
  match W p with
  | some (.mat _ _ f) => f
  | _ => fun _ _ => 0

include hn in
theorem square_hat {W : Weights} (hW : Square n W) : ∃ g : Equiv.Perm (Fin n) → ℝ, WHat n W W.ent g := by
  choose R h1 h2 h3 using fun q : Pt n => exists_repr hn q.2
  refine ⟨unhat fun q => Matrix.of fun x y => W.ent q.1 ((h3 q).eqv.symm y) ((h3 q).eqv.symm x), fun q R' hr hR => ?_⟩
  obtain rfl : R q = R' := Option.some.inj ((h1 q).symm.trans hR)
  obtain ⟨f, hf⟩ := hW q.1 _ q.2 hR
  refine ⟨by rw [hf, ent, hf], fun a b => ?_⟩
  rw [hat_unhat]
  simp

include hn in
theorem transpose_hat {g : Equiv.Perm (Fin n) → ℝ} {gs : List VPart} (hg : TransformOf n (cellsOf (I := snGroup n) (elemEquiv n) g) gs)
    {W : Weights} (hW : W.TransposeOf gs) : WHat n W W.ent g := by
  intro q R hr hR
  obtain ⟨i, P, hi, hq⟩ := transform_at hn hg q
  obtain ⟨q', hr', hq', d1, n1, k⟩ := entry_hat hn hg hi
  obtain rfl : q = q' := Subtype.ext (Option.some.inj (hq.symm.trans hq'))
  obtain ⟨ok, hk⟩ := hg.ok hn
  have hlp : P.irrep.lambda = q.1 := by
    have h2 : (vkeys gs)[i]? = some P.irrep.lambda := by show (gs.map _)[i]? = _; rw [List.getElem?_map, hi]; rfl
    rw [hk, hq] at h2
    exact (Option.some.inj h2).symm
  have hmk := (ok.part P (List.mem_of_getElem? hi)).2.1
  rw [hlp] at hmk
  obtain rfl : P.irrep = R := Option.some.inj (hmk.symm.trans hR)
  obtain ⟨f, f1, f2⟩ := hW P (List.mem_of_getElem? hi)
  rw [hlp, n1, d1] at f1
  refine ⟨by rw [f1, ent, f1], fun a b => ?_⟩
  rw [← k a b, ← f2 a (by rw [d1]; exact a.2) b (by rw [n1]; exact b.2), ent, f1]

theorem transposeOf_exists {gs : List VPart} (ok : Ok n gs) : ∃ W : Weights, W.TransposeOf gs :=
  ⟨fun p => some (.mat (partAt gs p).m (partAt gs p).d fun i j => (partAt gs p).data j i), fun P hP =>
    ⟨fun i j => P.data j i, by simp only [partAt_of_mem ok.nodup hP], fun _ _ _ _ => rfl⟩⟩

/-! ## Maps that commute with translations -/

/-- a linear map of functions that commutes with the translations is a convolution -/
theorem commuting_conv (L : (Equiv.Perm (Fin n) → ℝ) → Equiv.Perm (Fin n) → ℝ) (hl : ∀ s f g, L (fun σ => f σ + s * g σ) = fun σ => L f σ + s * L g σ)
    (hc : ∀ t f, L (fun x => f (x * t⁻¹)) = fun x => L f (x * t⁻¹)) (f : Equiv.Perm (Fin n) → ℝ) :
    L f = fun x => ∑ y, L (fun σ => if σ = 1 then 1 else 0) (x * y⁻¹) * f y := by
  classical
  have h0 : L (fun _ => 0) = fun _ => 0 := by
    have := hl (-1) (fun _ => 0) (fun _ => 0)
    simp only [mul_zero, add_zero] at this
    rw [this]
    funext σ
    ring
  have hs : ∀ S : Finset (Equiv.Perm (Fin n)), L (fun σ => ∑ y ∈ S, (if σ = y then f y else 0)) =
      fun x => ∑ y ∈ S, L (fun σ => if σ = 1 then 1 else 0) (x * y⁻¹) * f y := by
    intro S
    induction S using Finset.induction_on with
    | empty => simpa using h0
    | insert z S hz ih =>
      have e : (fun σ => ∑ y ∈ insert z S, (if σ = y then f y else 0)) =
          fun σ => (∑ y ∈ S, (if σ = y then f y else 0)) + f z * (if σ * z⁻¹ = 1 then 1 else 0) := by
        funext σ
        rw [Finset.sum_insert hz, add_comm]
        congr 1
        by_cases h : σ = z
        · simp [h]
        · rw [if_neg h, if_neg (by rwa [mul_inv_eq_one]), mul_zero]
      rw [e, hl, ih, hc z fun σ => if σ = 1 then 1 else 0]
      funext x
      rw [Finset.sum_insert hz]
      ring
  have e : f = fun σ => ∑ y, (if σ = y then f y else 0) := by
    funext σ
    simp
  conv_lhs => rw [e]
  exact hs Finset.univ

/-! ## Norms -/

/-- the sum of the squares of the entries -/
def sq {ι : Type} [Fintype ι] (M : Matrix ι ι ℝ) : ℝ := ∑ w, ∑ u, M u w * M u w

theorem norm_hat (f : Equiv.Perm (Fin n) → ℝ) : ∑ q : Pt n, (dimW n q.1 : ℝ) * sq (hat q.2 f) = n ! * ∑ σ, f σ ^ 2 := by
  have := plancherel_group f f
  simp only [← pow_two (f _)] at this
  exact this

theorem sq_eq {ι : Type} [Fintype ι] (M : Matrix ι ι ℝ) : sq M = Matrix.trace (M * M.transpose) := by
  unfold sq Matrix.trace
  rw [Finset.sum_comm]
  rfl

theorem isometry_iff (g : Equiv.Perm (Fin n) → ℝ) :
    (∀ f : Equiv.Perm (Fin n) → ℝ, ∑ x, (∑ y, g (x * y⁻¹) * f y) ^ 2 = ∑ x, f x ^ 2) ↔ ∀ q : Pt n, hat q.2 g * (hat q.2 g).transpose = 1 := by
  classical
  have hn0 : (n ! : ℝ) ≠ 0 := by exact_mod_cast (Nat.factorial_pos n).ne'
  constructor
  · intro h q
    have key : ∀ x : Wd n q.1 → ℝ, ∑ i, ∑ j, x i * (hat q.2 g * (hat q.2 g).transpose - 1) i j * x j = 0 := by
      intro x
      obtain ⟨a0⟩ : Nonempty (Wd n q.1) := Fintype.card_pos_iff.1 (card_Wd_pos q.2)
      let N : ∀ r : Pt n, Matrix (Wd n r.1) (Wd n r.1) ℝ := fun r => if hr : q = r then hr ▸ (Matrix.of fun a b => if a = a0 then x b else 0) else 0
      have h1 := h (unhat N)
      rw [← mul_right_inj' hn0, ← norm_hat, ← norm_hat, ← sub_eq_zero, ← Finset.sum_sub_distrib] at h1
      rw [Finset.sum_eq_single q (fun r _ hr => by
        rw [hat_convolve, hat_unhat]
        simp [N, Ne.symm hr, sq]) (by simp), hat_convolve, hat_unhat, ← mul_sub, mul_eq_zero] at h1
      have hd : (dimW n q.1 : ℝ) ≠ 0 := by
        have := card_Wd_pos q.2
        rw [card_Wd q.2] at this
        exact_mod_cast this.ne'
      have h2 := h1.resolve_left hd
      have hN : N q = Matrix.of fun a b => if a = a0 then x b else 0 := by simp [N]
      rw [sq_eq, sq_eq, Matrix.transpose_mul, Matrix.mul_assoc, ← Matrix.mul_assoc (hat q.2 g), ← Matrix.trace_sub, ← Matrix.mul_sub] at h2
      have h3 : hat q.2 g * (hat q.2 g).transpose * (N q).transpose - (N q).transpose = (hat q.2 g * (hat q.2 g).transpose - 1) * (N q).transpose := by
        rw [Matrix.sub_mul, Matrix.one_mul]
      rw [h3, hN] at h2
      refine Eq.trans ?_ h2
      symm
      rw [Matrix.trace, Finset.sum_eq_single a0 (fun b _ hb => by simp [Matrix.mul_apply, hb]) (by simp)]
      simp only [Matrix.diag_apply, Matrix.mul_apply, Matrix.of_apply, Matrix.transpose_apply, if_true, Finset.mul_sum, mul_assoc]
    generalize hD : hat q.2 g * (hat q.2 g).transpose - 1 = D at key
    have hsym : ∀ i j, D i j = D j i := by
      intro i j
      have : D.transpose = D := by rw [← hD]; simp
      exact congrFun (congrFun this.symm i) j
    have hdiag : ∀ i, D i i = 0 := by
      intro i
      have := key fun k => if k = i then 1 else 0
      simpa using this
    rw [← sub_eq_zero, hD]
    ext i j
    by_cases hij : i = j
    · rw [hij, hdiag]; rfl
    have h1 := key fun k => (if k = i then 1 else 0) + (if k = j then 1 else 0)
    simp only [mul_add, add_mul, Finset.sum_add_distrib, mul_ite, ite_mul, one_mul, zero_mul, mul_one, mul_zero,
      Finset.sum_ite_eq', Finset.mem_univ, if_true] at h1
    rw [hdiag, hdiag, hsym j i] at h1
    show D i j = 0
    linarith
  · intro h f
    rw [← mul_right_inj' hn0, ← norm_hat, ← norm_hat]
    refine Finset.sum_congr rfl fun q _ => ?_
    rw [hat_convolve, sq_eq, sq_eq, Matrix.transpose_mul, Matrix.mul_assoc, ← Matrix.mul_assoc (hat q.2 g), h q, Matrix.one_mul]

end Snob
