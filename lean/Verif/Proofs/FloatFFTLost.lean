import Verif.Proofs.FloatFFT
import Verif.Proofs.FloatFFTBad

/-! # The forward transform with rounding: the lost row -/

namespace Snob

open IP Snob.Perm
open scoped Nat

variable {F : Rounding}

section
variable {K : Type} [DecidableEq K]

theorem fscale_out (i : Nat) (c : ℝ) (cols : List K) (A : Nat → K → ℝ) {k : K} (hk : k ∉ cols) (r : Nat) :
    F.scaleSlice i c cols A r k = A r k := by
  induction cols generalizing A with
  | nil => rfl
  | cons k0 ks ih =>
    rw [List.mem_cons, not_or] at hk
    rw [Rounding.scaleSlice, ih _ hk.2, setv_other _ _ _ _ hk.1]

theorem fgivens_out (i i2 : Nat) (c1 c2 : ℝ) (cols : List K) (A : Nat → K → ℝ) {k : K} (hk : k ∉ cols) (r : Nat) :
    F.givensSlices i i2 c1 c2 cols A r k = A r k := by
  induction cols generalizing A with
  | nil => rfl
  | cons k0 ks ih =>
    rw [List.mem_cons, not_or] at hk
    rw [Rounding.givensSlices]
    rw [ih _ hk.2, setv_other _ _ _ _ hk.1, setv_other _ _ _ _ hk.1]

theorem fscale_zero (h0 : F.s 0 = 0) (i : Nat) (c : ℝ) (cols : List K) (A : Nat → K → ℝ) {k : K} (hA : ∀ r, A r k = 0) (r : Nat) :
    F.scaleSlice i c cols A r k = 0 := by
  induction cols generalizing A with
  | nil => exact hA r
  | cons k0 ks ih =>
    rw [Rounding.scaleSlice]
    exact ih _ (setv_zero A i hA (fun e => by rw [← e, hA, mul_zero, h0]))

theorem fgivens_zero (h0 : F.s 0 = 0) (i i2 : Nat) (c1 c2 : ℝ) (cols : List K) (A : Nat → K → ℝ) {k : K} (hA : ∀ r, A r k = 0) (r : Nat) :
    F.givensSlices i i2 c1 c2 cols A r k = 0 := by
  induction cols generalizing A with
  | nil => exact hA r
  | cons k0 ks ih =>
    rw [Rounding.givensSlices]
    have h1 : ∀ r, setv A i k0 (F.s (F.s (c1 * A i k0) + F.s (c2 * A i2 k0))) r k = 0 :=
      setv_zero A i hA (fun e => by rw [← e, hA, hA, mul_zero, mul_zero, h0, add_zero, h0])
    refine ih _ (setv_zero _ i2 h1 (fun e => ?_))
    subst e
    rw [h1, hA, mul_zero, mul_zero, h0, add_zero, h0]

theorem fview_keep {R : IrrepObj} {cols : List K} {tau : Int} {A B : Nat → K → ℝ} (P : (Nat → K → ℝ) → Prop)
    (h1 : ∀ A i c, P A → P (F.scaleSlice i c cols A)) (h2 : ∀ A i j c d, P A → P (F.givensSlices i j c d cols A))
    (h : F.applyTauView R cols tau A = some B) (hA : P A) : P B := by
  unfold Rounding.applyTauView at h
  split at h
  · cases e1 : F.computeYORtensors R.n R.tableaux with
    | none => rw [e1] at h; cases h
    | some tabs =>
      rw [e1] at h
      simp only at h
      cases e2 : tabs[(tau - 1).toNat]? with
      | none => rw [e2] at h; cases h
      | some st =>
        rw [e2] at h
        simp only at h
        obtain rfl := Option.some.inj h
        have hs : ∀ (l : List (Nat × ℝ)) A, P A → P (l.foldl (fun A (x : Nat × ℝ) => F.scaleSlice x.1 x.2 cols A) A) := by
          intro l
          induction l with
          | nil => intro A hA; exact hA
          | cons x l ih => intro A hA; exact ih _ (h1 _ _ _ hA)
        have hg : ∀ (l : List GSlot) A, P A → P (l.foldl (fun A (g : GSlot) => F.givensSlices g.i g.j g.c1 g.c2 cols A) A) := by
          intro l
          induction l with
          | nil => intro A hA; exact hA
          | cons x l ih => intro A hA; exact ih _ (h2 _ _ _ _ _ hA)
        exact hg _ _ (hs _ _ hA)
  · cases h

theorem fview_zero (h0 : F.s 0 = 0) {R : IrrepObj} {cols : List K} {tau : Int} {A B : Nat → K → ℝ} {k : K}
    (h : F.applyTauView R cols tau A = some B) (hA : ∀ r, A r k = 0) : ∀ r, B r k = 0 :=
  fview_keep (fun A => ∀ r, A r k = 0) (fun A i c hA => fscale_zero h0 i c cols A hA)
    (fun A i j c d hA => fgivens_zero h0 i j c d cols A hA) h hA

theorem fview_out {R : IrrepObj} {cols : List K} {tau : Int} {A B : Nat → K → ℝ} {k : K} (hk : k ∉ cols) {r : Nat} {x : ℝ}
    (h : F.applyTauView R cols tau A = some B) (hA : A r k = x) : B r k = x :=
  fview_keep (fun A => A r k = x) (fun A i c hA => (fscale_out i c cols A hk r).trans hA)
    (fun A i j c d hA => (fgivens_out i j c d cols A hk r).trans hA) h hA

/-! ### the gap -/

theorem fmix_zero (h0 : F.s 0 = 0) (cols : List K) (A : Nat → K → ℝ) (r : Nat) (k : K) :
    F.givensSlices 0 0 0 0 cols A r k = if r = 0 ∧ k ∈ cols then 0 else A r k := by
  induction cols generalizing A with
  | nil => simp [Rounding.givensSlices]
  | cons k0 ks ih =>
    unfold Rounding.givensSlices
    simp only
    rw [ih]
    unfold setv
    by_cases hr : r = 0
    · by_cases hk : k = k0 <;> by_cases hk2 : k ∈ ks <;> simp [hr, hk, hk2, h0]
    · simp [hr]

theorem ffoldl_gap (h0 : F.s 0 = 0) (cols : List K) (hc : cols.Nodup) (l : List GSlot)
    (hl : ∀ g ∈ l, g = GSlot.zero ∨ (g.i ≠ 0 ∧ g.j ≠ 0 ∧ g.i ≠ g.j)) (A : Nat → K → ℝ) (k : K)
    (hA : A 0 k = 0) :
    l.foldl (fun A (g : GSlot) => F.givensSlices g.i g.j g.c1 g.c2 cols A) A 0 k = 0 := by
  induction l generalizing A with
  | nil => exact hA
  | cons g l ih =>
    rw [List.foldl_cons]
    refine ih (fun g hg => hl g (by simp [hg])) _ ?_
    rcases hl g (by simp) with rfl | ⟨h1, h2, h3⟩
    · exact (fmix_zero h0 cols A 0 k).trans (by split <;> simp [hA])
    · rw [F.givensSlices_eq _ _ h3 _ _ _ hc]
      simp [Ne.symm h1, Ne.symm h2, hA]

theorem gslot_zero : F.gslot GSlot.zero = GSlot.zero := by
  unfold Rounding.gslot GSlot.zero
  simp

theorem gslot_ij (g : GSlot) : (F.gslot g).i = g.i ∧ (F.gslot g).j = g.j := by
  unfold Rounding.gslot
  split <;> exact ⟨rfl, rfl⟩

theorem Pairing.fgap {ts : List Tab} {tau d : Nat} {q : Nat → Nat} {a b : Nat → ℝ} {M : Matrix (Fin d) (Fin d) ℝ} (h0 : F.s 0 = 0)
    (h : Pairing ts tau d q a b M) (hk : ¬ Packed d q) (st : TensorSt)
    (hst : Snob.tensorLoop ts tau (List.range ts.length)
      ⟨[], List.replicate (ts.length / 2 + 1) GSlot.zero, List.replicate ts.length false⟩ = some st)
    (cols : List K) (hc : cols.Nodup) (A : Nat → K → ℝ) (k : K) (hkc : k ∈ cols) :
    ((F.tst st).givens.take ((d - (F.tst st).diag.length) / 2)).foldl
        (fun A (g : GSlot) => F.givensSlices g.i g.j g.c1 g.c2 cols A) A 0 k = 0 := by
  rw [h.len, List.range_eq_range'] at hst
  obtain ⟨r1, r2, r3, r4⟩ := h.loop_general d 0 _ (by omega)
    ⟨by simp, fun r hr => by simp [hr]⟩ rfl (by simp)
    (by
      intro k g hg
      rw [List.getElem?_replicate] at hg
      split at hg
      · cases hg; exact Or.inl rfl
      · cases hg) st hst
  obtain ⟨k0, hk0, hgap⟩ := exists_gap hk
  have hnf : (d - (F.tst st).diag.length) / 2 = (firsts q d).length := by
    rw [show (F.tst st).diag = st.diag from rfl, r1, List.length_map]; exact firsts_length h.inv
  have hnf2 : (firsts q d).length ≤ d / 2 := by
    have := firsts_length h.inv
    omega
  have hk0l : k0 < st.givens.length := by rw [r2]; omega
  have hz : st.givens[k0] = GSlot.zero := by
    rcases r4 k0 _ (List.getElem?_eq_getElem hk0l) with e | ⟨r, h1, h2, h3, _⟩
    · exact e
    · exact absurd h3 (hgap r h1 h2)
  rw [hnf]
  have hsplit : st.givens.take (firsts q d).length =
      st.givens.take k0 ++ GSlot.zero :: (st.givens.take (firsts q d).length).drop (k0 + 1) := by
    have hl : k0 < (st.givens.take (firsts q d).length).length := by
      rw [List.length_take]; omega
    have := List.take_append_drop k0 (st.givens.take (firsts q d).length)
    rw [List.drop_eq_getElem_cons hl, List.getElem_take, hz, List.take_take,
      min_eq_left (by omega)] at this
    exact this.symm
  rw [show (F.tst st).givens = st.givens.map F.gslot from rfl, ← List.map_take, hsplit, List.map_append, List.map_cons, gslot_zero,
    List.foldl_append, List.foldl_cons]
  refine ffoldl_gap h0 cols hc _ ?_ _ k ?_
  · intro g' hg'
    obtain ⟨g, hg, rfl⟩ := List.mem_map.1 hg'
    obtain ⟨m, hm⟩ := List.mem_iff_getElem?.1 hg
    rw [List.getElem?_drop, List.getElem?_take] at hm
    split at hm
    · rcases r4 _ g hm with e | ⟨r, h1, h2, h3, h4, h5⟩
      · left; rw [e, gslot_zero]
      · right
        rw [(gslot_ij g).1, (gslot_ij g).2, h4, h5]
        refine ⟨?_, by omega, by omega⟩
        intro e
        subst e
        simp [diags] at h3
    · cases hm
  · exact (fmix_zero h0 cols _ 0 k).trans (by rw [if_pos ⟨rfl, hkc⟩])

theorem Repr'.fview_gap {n : Nat} {p : List Nat} {hp : IsPartition n p} {R : IrrepObj} (h0 : F.s 0 = 0) (h : Repr' hp R) {tau : Nat}
    (h1 : 1 ≤ tau) (h2 : tau < n) (hk : ¬ Packed R.d (R.partner tau)) (cols : List K) (hc : cols.Nodup) (A B : Nat → K → ℝ)
    (hB : F.applyTauView R cols tau A = some B) (k : K) (hkc : k ∈ cols) : B 0 k = 0 := by
  have P := h.pairing h1 h2
  unfold Rounding.applyTauView at hB
  rw [if_pos ⟨by omega, by rw [h.n_eq]; omega⟩, F.computeYORtensors_map] at hB
  cases htabs : Snob.computeYORtensors R.n R.tableaux with
  | none => rw [htabs] at hB; cases hB
  | some tabs =>
    rw [htabs] at hB
    simp only [Option.map_some] at hB
    unfold Snob.computeYORtensors at htabs
    rw [mapM_some_iff] at htabs
    have hi : ((tau : Int) - 1).toNat = tau - 1 := by omega
    obtain ⟨st, e1, e2⟩ := htabs.2 (tau - 1) tau (by
      rw [h.n_eq, List.getElem?_range' (by omega)]
      congr 1; omega)
    rw [hi, List.getElem?_map, e1] at hB
    simp only [Option.map_some] at hB
    cases hB
    exact P.fgap h0 hk st e2 cols hc _ k hkc

end

/-! ### zero slices stay zero -/

theorem faddToBlock_some (h0 : F.s 0 = 0) {P M Q : MPart} {i j : Nat} (h : F.addToBlock P i j M = some Q) :
    Q.irrep = P.irrep ∧ Q.m = P.m ∧ Q.N = P.N ∧
      ∀ s k, (∀ r, P.data r (s, k) = 0) → (∀ r k', M.data r (s, k') = 0) → ∀ r, Q.data r (s, k) = 0 := by
  unfold Rounding.addToBlock at h
  split at h
  · obtain rfl := Option.some.inj h
    refine ⟨rfl, rfl, rfl, fun s k h1 h2 r => ?_⟩
    simp only
    split
    · rw [h1, h2, add_zero, h0]
    · exact h1 r
  · cases h

theorem fblockLoop_some (h0 : F.s 0 = 0) {v : List MPart} (bs : List BlockT) {P Q : MPart} (h : F.blockLoop v bs P = some Q) :
    Q.irrep = P.irrep ∧ Q.m = P.m ∧ Q.N = P.N ∧
      ∀ s k, (∀ r, P.data r (s, k) = 0) → (∀ M ∈ v, ∀ r k', M.data r (s, k') = 0) → ∀ r, Q.data r (s, k) = 0 := by
  induction bs generalizing P with
  | nil => obtain rfl := Option.some.inj h; exact ⟨rfl, rfl, rfl, fun s k h1 _ => h1⟩
  | cons b bs ih =>
    unfold Rounding.blockLoop at h
    simp only [Option.bind_eq_bind, Option.bind_eq_some_iff] at h
    obtain ⟨M, hM, P1, hP1, h⟩ := h
    obtain ⟨a1, a2, a3, a4⟩ := faddToBlock_some h0 hP1
    obtain ⟨b1, b2, b3, b4⟩ := ih h
    exact ⟨b1.trans a1, b2.trans a2, b3.trans a3, fun s k h1 h2 =>
      b4 s k (a4 s k h1 (h2 M (List.mem_of_getElem? hM))) h2⟩

theorem fpartUp_some (h0 : F.s 0 = 0) {p : PartT} {v : List MPart} {Q : MPart} (h : F.partUp p v = some Q) :
    Q.irrep = p.irrep ∧ Q.m = p.m ∧ vecN v = some Q.N ∧
      ∀ s k, (∀ M ∈ v, ∀ r k', M.data r (s, k') = 0) → ∀ r, Q.data r (s, k) = 0 := by
  unfold Rounding.partUp at h
  simp only [Option.bind_eq_bind, Option.bind_eq_some_iff] at h
  obtain ⟨N, hN, h⟩ := h
  obtain ⟨a1, a2, a3, a4⟩ := fblockLoop_some h0 _ h
  exact ⟨a1, a2, by rw [hN, a3]; rfl, fun s k h2 => a4 s k (fun _ => rfl) h2⟩

theorem ftwistUp_zero (h0 : F.s 0 = 0) {n newN : Nat} {q Q : MPart} (h : twistUp F.viewAct n newN q = some Q) {x : Nat × Nat}
    (hq : ∀ r, q.data r x = 0) : ∀ r, Q.data r x = 0 := by
  obtain ⟨-, -, -, h⟩ := twistUp_some h
  exact iterUp_keep (fun A => ∀ r, A r x = 0)
    (fun j A B hA h => cycleWith_keep (fun A => ∀ r, A r x = 0) (fun _ A B hA h => fview_zero h0 h hA) h hA) _ _ _ _ h hq

theorem freduce_some {ord : Nat → SumTree} {P Q : MPart} (h : F.reduce ord P = some Q) : Q.irrep = P.irrep ∧ Q.m = P.m ∧
    Q.N = P.N / IP.getn P.irrep.lambda ∧
    ∀ i k, Q.data i k = F.s (0 + (ord (IP.getn P.irrep.lambda)).sum F.s fun t => P.data i (k.1 * IP.getn P.irrep.lambda + t, k.2)) := by
  unfold Rounding.reduce at h
  simp only at h
  split at h
  · cases h
  · obtain rfl := Option.some.inj h
    exact ⟨rfl, rfl, rfl, fun _ _ => rfl⟩

theorem flevelUp_some {ap : ViewAct} {ord : Nat → SumTree} {L : LevelT} {v w : List MPart} (h : F.levelUp ap ord L v = some w) {P : MPart}
    (hP : P ∈ w) :
    ∃ p ∈ L.parts, ∃ N q Q, vecN v = some N ∧ F.partUp p v = some q ∧ twistUp ap L.n (N / L.n) q = some Q ∧ F.reduce ord Q = some P := by
  unfold Rounding.levelUp at h
  simp only [Option.bind_eq_bind, Option.bind_eq_some_iff] at h
  obtain ⟨N, hN, w', hw', h⟩ := h
  obtain ⟨Q, hQ, hQP⟩ := mapM_mem h hP
  obtain ⟨p, hp, hpq⟩ := mapM_mem hw' hQ
  rw [Option.bind_eq_some_iff] at hpq
  obtain ⟨q, h1, h2⟩ := hpq
  exact ⟨p, hp, N, q, Q, hN, h1, h2, hQP⟩

theorem sumTree_zero (h0 : F.s 0 = 0) (T : SumTree) {n : Nat} (hT : T.Covers n) (g : Nat → ℝ) (h : ∀ t < n, g t = 0) :
    F.s (0 + T.sum F.s g) = 0 := by
  have key : ∀ T : SumTree, (∀ t ∈ T.leaves, g t = 0) → T.sum F.s g = 0 := by
    intro T
    induction T with
    | leaf t => intro h; exact h t (by simp [SumTree.leaves])
    | node a b iha ihb =>
      intro h
      rw [SumTree.sum, iha fun t ht => h t (by simp [SumTree.leaves, ht]), ihb fun t ht => h t (by simp [SumTree.leaves, ht]), add_zero, h0]
  rw [key T fun t ht => h t (List.mem_range.1 ((List.Perm.mem_iff hT).1 ht)), add_zero, h0]

theorem flevelUp_zero (h0 : F.s 0 = 0) {ord : Nat → SumTree} {m l : Nat} (hord : (ord (l + 1)).Covers (l + 1)) {L : LevelT}
    (hL : LevelOk m (l + 1) L) {v w : List MPart} (h : F.levelUp F.viewAct ord L v = some w)
    {c : Nat} (hv : ∀ M ∈ v, ∀ t < l + 1, ∀ r k, M.data r (c * (l + 1) + t, k) = 0) :
    ∀ P ∈ w, ∀ r k, P.data r (c, k) = 0 := by
  intro P hP r k
  obtain ⟨p, hp, N, q, Q, -, h1, h2, h3⟩ := flevelUp_some h hP
  obtain ⟨a1, -, -, a4⟩ := fpartUp_some h0 h1
  obtain ⟨b1, -⟩ := twistUp_some h2
  obtain ⟨-, -, -, c4⟩ := freduce_some h3
  rw [b1, a1, hL.getn (by omega) hp] at c4
  rw [c4]
  refine sumTree_zero h0 _ hord _ fun t ht => ?_
  exact ftwistUp_zero h0 h2 (a4 _ _ (fun M hM => hv M hM t ht)) r

theorem flevelUp_lost (h0 : F.s 0 = 0) {ord : Nat → SumTree} {m l : Nat} (hord : (ord (l + 1)).Covers (l + 1)) {L : LevelT}
    (hL : LevelOk m (l + 1) L) {v w : List MPart} (h : F.levelUp F.viewAct ord L v = some w)
    {p : List Nat} (hp : IsPartition (l + 1) p) {tau : Nat} (ht1 : 1 ≤ tau) (ht2 : tau < l + 1)
    (hun : ∀ R, Repr' hp R → ¬ Packed R.d (R.partner tau))
    (hv : ∀ M ∈ v, ∀ t < l + 1, t ≠ l + 1 - tau → ∀ r k, M.data r (t, k) = 0) :
    ∀ P ∈ w, P.irrep.lambda = p → P.N = 1 → ∀ k < P.m, P.data 0 (0, k) = 0 := by
  intro P hP hlam hN1 k hk
  obtain ⟨pp, hpp, N, q, Q, hN, h1, h2, h3⟩ := flevelUp_some h hP
  obtain ⟨a1, a2, a3, a4⟩ := fpartUp_some h0 h1
  obtain ⟨b1, b2, b3, b4⟩ := twistUp_some h2
  obtain ⟨c1, c2, c3, c4⟩ := freduce_some h3
  rw [b1, a1, hL.getn (by omega) hpp] at c4 c3
  obtain rfl : N = q.N := Option.some.inj (hN.symm.trans a3)
  rw [b3] at c3
  have hnew : q.N / (l + 1) = 1 := by rw [← c3, hN1]
  rw [hL.n_eq, hnew] at b4
  rw [hL.n_eq] at h2
  rw [c4]
  refine sumTree_zero h0 _ hord _ fun t ht => ?_
  simp only [Nat.zero_mul, Nat.zero_add]
  by_cases hteq : t = l + 1 - tau
  · have hR : mkIrrep q.irrep.lambda = some q.irrep := by
      obtain ⟨i, hi⟩ := List.mem_iff_getElem?.1 hpp
      rw [a1]
      exact (hL.part i pp hi).2.1
    obtain ⟨R, hmk, -, hrep⟩ := exists_repr (by omega) hp
    have hlq : q.irrep.lambda = p := by rw [← hlam, c1, b1]
    obtain rfl : R = q.irrep := by rw [hlq, hmk] at hR; exact Option.some.inj hR
    have hkm : k < q.m := by rw [← b2, ← c2]; exact hk
    have := forUp_pres (fun j (A : Nat → Nat × Nat → ℝ) => (t : Int) < j → A 0 (t, k) = 0) (by omega) b4
      (fun hh => by omega) (by
        intro j A B hj1 hj2 hA hB hlt
        by_cases e : j = (t : Int)
        · subst e
          have hlt' : ((l + 1 : Nat) : Int) - (t : Int) < ((l + 1 : Nat) : Int) := by omega
          unfold cycleWith at hB
          rw [if_pos hlt'] at hB
          unfold forDown at hB
          obtain ⟨k', hk'⟩ : ∃ k', (((l + 1 : Nat) : Int) - 1 - (((l + 1 : Nat) : Int) - (t : Int)) + 1).toNat = k' + 1 := ⟨t - 1, by omega⟩
          rw [hk'] at hB
          obtain ⟨A0, hA0⟩ := iterDown_last _ _ _ _ hB
          have e2 : ((l + 1 : Nat) : Int) - 1 - (k' : Int) = (tau : Int) := by omega
          rw [e2] at hA0
          refine hrep.fview_gap h0 ht1 ht2 (hun _ hrep) _ (sliceCols_nodup (by omega)) A0 B hA0 (t, k) ?_
          rw [Int.toNat_natCast, mem_sliceCols ht]
          exact ⟨by omega, Nat.mod_eq_of_lt ht, hkm⟩
        · have hA' := hA (by omega)
          refine cycleWith_keep (fun A => A 0 (t, k) = 0) (fun _ A B hA h => fview_out ?_ h hA) hB hA'
          rw [mem_sliceCols (by omega)]
          rintro ⟨-, h5, -⟩
          rw [Nat.mod_eq_of_lt ht] at h5
          omega)
    exact this (by omega)
  · exact ftwistUp_zero h0 h2 (a4 _ _ (fun M hM => hv M hM t ht hteq)) 0

theorem fupLoop_lost (h0 : F.s 0 = 0) {ord : Nat → SumTree} {m n : Nat} (hord : ∀ k, m < k → k ≤ n → (ord k).Covers k) {p : List Nat}
    (hp : IsPartition n p) {tau : Nat} (ht1 : 1 ≤ tau) (ht2 : tau < n)
    (hun : ∀ R, Repr' hp R → ¬ Packed R.d (R.partner tau)) (Ls : List LevelT) {l : Nat} {L : LevelT} (hl : m ≤ l)
    (hn : n = l + Ls.length) (hne : Ls ≠ []) (hC : ChainOk m l (L :: Ls)) {v v' : List MPart} (h : F.upLoop F.viewAct ord Ls v = some v')
    (hv : ∀ M ∈ v, ∀ s, s / ((n - 1)! / l !) ≠ n - tau → ∀ r k, M.data r (s, k) = 0) :
    ∀ P ∈ v', P.irrep.lambda = p → P.N = 1 → ∀ k < P.m, P.data 0 (0, k) = 0 := by
  induction Ls generalizing l L v with
  | nil => exact absurd rfl hne
  | cons L' Ls ih =>
    rw [Rounding.upLoop, Option.bind_eq_some_iff] at h
    obtain ⟨v1, h1, h2⟩ := h
    rcases hC with _ | ⟨hL, hB, hC⟩
    have hL' : LevelOk m (l + 1) L' := by
      cases hC <;> assumption
    simp only [List.length_cons] at hn
    rcases Ls with _ | ⟨L'', Ls⟩
    · obtain rfl := Option.some.inj h2
      obtain rfl : n = l + 1 := by simpa using hn
      refine flevelUp_lost h0 (hord _ (by omega) (by omega)) hL' h1 hp ht1 ht2 hun fun M hM t ht hne r k => hv M hM t ?_ r k
      rw [Nat.add_sub_cancel, Nat.div_self (Nat.factorial_pos l), Nat.div_one]
      exact hne
    · simp only [List.length_cons] at hn
      refine ih (l := l + 1) (L := L') (by omega) (by simp only [List.length_cons]; omega) (by simp) hC h2 ?_
      intro P hP s hs r k
      refine flevelUp_zero h0 (hord _ (by omega) (by omega)) hL' h1 (c := s) (fun M hM t ht r k => hv M hM _ ?_ r k) P hP r k
      have hq : (n - 1)! / l ! = (l + 1) * ((n - 1)! / (l + 1)!) := by
        obtain ⟨x, hx⟩ := Nat.factorial_dvd_factorial (show l + 1 ≤ n - 1 by omega)
        rw [hx, Nat.mul_div_cancel_left _ (Nat.factorial_pos _), Nat.factorial_succ, Nat.mul_assoc, Nat.mul_comm (l !) x, ← Nat.mul_assoc,
          Nat.mul_div_cancel _ (Nat.factorial_pos _)]
      rw [hq, ← Nat.div_div_eq_div_mul]
      have : (s * (l + 1) + t) / (l + 1) = s := by
        rw [Nat.add_comm, Nat.add_mul_div_right _ _ (by omega), Nat.div_eq_of_lt ht]; omega
      rw [this]; exact hs

/-- `row_lost` with rounding -/
theorem frow_lost (h0 : F.s 0 = 0) {ord : Nat → SumTree} {m n : Nat} (hord : ∀ k, m < k → k ≤ n → (ord k).Covers k) (hm : 0 < m) (hn : m < n)
    {p : List Nat} (hp : IsPartition n p) {tau : Nat} (ht1 : 1 ≤ tau) (ht2 : tau < n)
    (hun : ∀ R, Repr' hp R → ¬ Packed R.d (R.partner tau)) {Ls : List LevelT} (hLs : fftLevels n m = some Ls) (N : Nat) {f : Nat → ℝ}
    (hf : ∀ e, e / ((n - 1)! / m !) ≠ n - tau → f e = 0) {ws : List VPart} (h : F.fftWith F.viewAct ord Ls N f = some ws) :
    ∀ W ∈ ws, W.irrep.lambda = p → ∀ k < W.m, W.data 0 k = 0 := by
  obtain ⟨Ls', e1, e2, e3⟩ := fftLevels_ok hm (show m ≤ n by omega)
  obtain rfl : Ls' = Ls := Option.some.inj (e1.symm.trans hLs)
  unfold Rounding.fftWith at h
  simp only [Option.bind_eq_bind, Option.bind_eq_some_iff] at h
  obtain ⟨P, hP, v, hv, hw⟩ := h
  intro W hW hlam k hk
  obtain ⟨Q, hQ, hQW⟩ := mapM_mem hw hW
  unfold MPart.toPart at hQW
  split at hQW
  · rename_i hQ1
    obtain rfl := Option.some.inj hQW
    obtain ⟨L, Ls, rfl⟩ : ∃ L Ls, Ls' = L :: Ls := by
      rcases Ls' with _ | ⟨L, Ls⟩
      · simp at e2
      · exact ⟨L, Ls, rfl⟩
    simp only [List.length_cons] at e2
    refine fupLoop_lost h0 hord hp ht1 ht2 hun Ls (Nat.le_refl m) (by omega) (by rintro rfl; simp at e2; omega) e3 hv ?_ Q hQ hlam hQ1 k hk
    intro M hM s hs r k
    rw [List.mem_singleton] at hM
    subst hM
    unfold MPart.ofFunction at hP
    rw [Option.map_eq_some_iff] at hP
    obtain ⟨R, -, rfl⟩ := hP
    exact hf s hs
  · cases hQW

end Snob
