import Verif.Proofs.FFTLin
import Verif.Spec.Linear

/-!
Linearity of the inverse transform as coded.
-/

namespace Snob

variable {a b : ℝ}

theorem Tri.broadcast {P1 P2 P3 : MPart} (hP : Tri a b P1 P2 P3) (N' : Nat) :
    Tri a b (P1.broadcast N') (P2.broadcast N') (P3.broadcast N') := by
  refine ⟨?_, ?_, hP.d2, hP.d3, hP.m2, hP.m3, hP.i2, hP.i3, fun k hk i => ?_⟩
  · simp only [MPart.broadcast, hP.N2]
  · simp only [MPart.broadcast, hP.N3]
  · simp only [MPart.broadcast] at hk ⊢
    exact hP.data (k.1 / N', k.2) (Nat.div_lt_of_lt_mul (by rw [Nat.mul_comm]; exact hk)) i

theorem Tri.twistDown {P1 P2 P3 P1' : MPart} {n N : Nat} (hP : Tri a b P1 P2 P3) (h : twistDown viewAct n N P1 = some P1') :
    ∃ P2' P3', twistDown viewAct n N P2 = some P2' ∧ twistDown viewAct n N P3 = some P3' ∧ Tri a b P1' P2' P3' := by
  unfold Snob.twistDown at h ⊢
  simp only [Option.bind_eq_bind, Option.bind_eq_some_iff] at h
  obtain ⟨A, hA, h⟩ := h
  obtain rfl := Option.some.inj h
  have hl : Lin3 a b (fun D => forUp 0 ((n : Int) + 1) D fun j A =>
      cycleWith viewAct P1.irrep (sliceCols N (n + 1) P1.m j.toNat) ((n : Int) + 1) ((n : Int) + 1 - j) A) :=
    Lin3.iterUp (fun j => lin_cycle _ _ _ _) _ _
  obtain ⟨B, C, hB, hC, hk⟩ := hl P1.data A hA P2.data P3.data
  rw [hP.i2, hP.i3, hP.m2, hP.m3]
  simp only at hB hC
  rw [hB, hC]
  exact ⟨_, _, rfl, rfl, hP.N2, hP.N3, hP.d2, hP.d3, rfl, rfl, rfl, rfl, fun k hk' => hk k (hP.data k hk')⟩

theorem Tri.addBlockTo {P1 P2 P3 M1 M2 M3 M1' : MPart} {io jo : Nat} {c : ℝ} (hP : Tri a b P1 P2 P3) (hM : Tri a b M1 M2 M3)
    (h : P1.addBlockTo io jo M1 c = some M1') :
    ∃ M2' M3', P2.addBlockTo io jo M2 c = some M2' ∧ P3.addBlockTo io jo M3 c = some M3' ∧ Tri a b M1' M2' M3' := by
  unfold MPart.addBlockTo at h ⊢
  split at h
  · rename_i hc
    obtain rfl := Option.some.inj h
    rw [if_pos (by rw [hM.N2, hP.N2, hM.d2, hP.d2, hM.m2, hP.m2]; exact hc),
      if_pos (by rw [hM.N3, hP.N3, hM.d3, hP.d3, hM.m3, hP.m3]; exact hc)]
    refine ⟨_, _, rfl, rfl, hM.N2, hM.N3, hM.d2, hM.d3, hM.m2, hM.m3, hM.i2, hM.i3, fun k hk i => ?_⟩
    simp only at hk ⊢
    rw [hM.data k hk i, hP.data (k.1, k.2 + jo) (by rw [← hc.1]; exact hk) (i + io)]
    ring
  · cases h

theorem TriL.set {α : Type} {T : α → α → α → Prop} {v1 v2 v3 : List α} (h : TriL T v1 v2 v3) {j : Nat} {P Q R : α} (hT : T P Q R) :
    TriL T (v1.set j P) (v2.set j Q) (v3.set j R) := by
  refine ⟨by simp [h.1], by simp [h.2.1], fun i A B C hA hB hC => ?_⟩
  rw [List.getElem?_set] at hA hB hC
  by_cases hij : j = i
  · subst hij
    by_cases hl : j < v1.length
    · rw [if_pos rfl, if_pos hl] at hA
      rw [if_pos rfl, if_pos (by rw [h.1]; exact hl)] at hB
      rw [if_pos rfl, if_pos (by rw [h.2.1]; exact hl)] at hC
      cases hA; cases hB; cases hC
      exact hT
    · rw [if_pos rfl, if_neg hl] at hA
      cases hA
  · rw [if_neg hij] at hA hB hC
    exact h.2.2 i _ _ _ hA hB hC

theorem tri_unblockLoop (n : Nat) {p1 p2 p3 : MPart} (hp : Tri a b p1 p2 p3) : ∀ (bs : List BlockT) {R1 R2 R3 S1 : List MPart},
    TriL (Tri a b) R1 R2 R3 → unblockLoop n p1 bs R1 = some S1 →
    ∃ S2 S3, unblockLoop n p2 bs R2 = some S2 ∧ unblockLoop n p3 bs R3 = some S3 ∧ TriL (Tri a b) S1 S2 S3
  | [], R1, R2, R3, S1, hR, h => by
    obtain rfl := Option.some.inj h
    exact ⟨R2, R3, rfl, rfl, hR⟩
  | q :: qs, R1, R2, R3, S1, hR, h => by
    simp only [unblockLoop, Option.bind_eq_bind, Option.bind_eq_some_iff] at h
    obtain ⟨M1, h1, M1', h2, h3⟩ := h
    obtain ⟨M2, M3, e2, e3, hM⟩ := hR.get h1
    obtain ⟨M2', M3', g2, g3, hM'⟩ := hp.addBlockTo hM h2
    obtain ⟨S2, S3, k2, k3, hS⟩ := tri_unblockLoop n hp qs (hR.set hM') h3
    refine ⟨S2, S3, ?_, ?_, hS⟩
    · simp only [unblockLoop, Option.bind_eq_bind, e2, Option.bind_some]
      rw [hp.i2, hM.i2, g2, Option.bind_some, k2]
    · simp only [unblockLoop, Option.bind_eq_bind, e3, Option.bind_some]
      rw [hp.i3, hM.i3, g3, Option.bind_some, k3]

theorem TriL.cons {α : Type} {T : α → α → α → Prop} {x : α} {v1 v2 v3 : List α} (h : TriL T (x :: v1) v2 v3) :
    ∃ y z w2 w3, v2 = y :: w2 ∧ v3 = z :: w3 ∧ T x y z ∧ TriL T v1 w2 w3 := by
  rcases v2 with _ | ⟨y, w2⟩
  · have := h.1; simp at this
  rcases v3 with _ | ⟨z, w3⟩
  · have := h.2.1; simp at this
  refine ⟨y, z, w2, w3, rfl, rfl, h.2.2 0 _ _ _ rfl rfl rfl, ?_, ?_, fun i A B C hA hB hC => ?_⟩
  · have := h.1; simpa using this
  · have := h.2.1; simpa using this
  · exact h.2.2 (i + 1) _ _ _ (by simpa using hA) (by simpa using hB) (by simpa using hC)

theorem tri_unpartLoop (n : Nat) : ∀ (ps : List PartT) {v1 v2 v3 R1 R2 R3 S1 : List MPart}, TriL (Tri a b) v1 v2 v3 →
    TriL (Tri a b) R1 R2 R3 → unpartLoop n ps v1 R1 = some S1 →
    ∃ S2 S3, unpartLoop n ps v2 R2 = some S2 ∧ unpartLoop n ps v3 R3 = some S3 ∧ TriL (Tri a b) S1 S2 S3
  | [], v1, v2, v3, R1, R2, R3, S1, _, hR, h => by
    simp only [unpartLoop] at h
    obtain rfl := Option.some.inj h
    exact ⟨R2, R3, by simp [unpartLoop], by simp [unpartLoop], hR⟩
  | p :: ps, [], v2, v3, R1, R2, R3, S1, _, hR, h => by
    simp [unpartLoop] at h
  | p :: ps, x :: v1, v2, v3, R1, R2, R3, S1, hv, hR, h => by
    obtain ⟨y, z, w2, w3, rfl, rfl, hT, hv'⟩ := hv.cons
    simp only [unpartLoop, Option.bind_eq_bind, Option.bind_eq_some_iff] at h
    obtain ⟨Q1, h1, h2⟩ := h
    obtain ⟨Q2, Q3, e2, e3, hQ⟩ := tri_unblockLoop n hT p.blocks hR h1
    obtain ⟨S2, S3, g2, g3, hS⟩ := tri_unpartLoop n ps hv' hQ h2
    exact ⟨S2, S3, by simp [unpartLoop, e2, g2], by simp [unpartLoop, e3, g3], hS⟩

theorem tri_down (L L' : LevelT) {v1 v2 v3 w1 : List MPart} (hv : TriL (Tri a b) v1 v2 v3) (h : L.downtransform viewAct L' v1 = some w1) :
    ∃ w2 w3, L.downtransform viewAct L' v2 = some w2 ∧ L.downtransform viewAct L' v3 = some w3 ∧ TriL (Tri a b) w1 w2 w3 := by
  unfold LevelT.downtransform at h ⊢
  simp only [Option.bind_eq_bind, Option.bind_eq_some_iff] at h
  obtain ⟨N, hN, VV, hVV, h⟩ := h
  obtain ⟨hN2, hN3⟩ := tri_vecN hv hN
  obtain ⟨x2, x3, e2, e3, hx⟩ := tri_mapM (T' := Tri a b) hv (f := fun q => twistDown viewAct L.n N (q.broadcast (L.n + 1)))
    (fun P Q R P' hT hP => (hT.broadcast (L.n + 1)).twistDown hP) hVV
  have hz : TriL (Tri a b) (L.parts.map fun p => MPart.zero (N * (L.n + 1)) p.irrep p.m)
      (L.parts.map fun p => MPart.zero (N * (L.n + 1)) p.irrep p.m) (L.parts.map fun p => MPart.zero (N * (L.n + 1)) p.irrep p.m) := by
    refine ⟨rfl, rfl, fun i A B C hA hB hC => ?_⟩
    rw [hA] at hB hC
    cases hB; cases hC
    rw [List.getElem?_map] at hA
    obtain ⟨p, _, rfl⟩ := Option.map_eq_some_iff.1 hA
    exact ⟨rfl, rfl, rfl, rfl, rfl, rfl, rfl, rfl, fun k _ i => by simp [MPart.zero]⟩
  obtain ⟨w2, w3, f2, f3, hw⟩ := tri_unpartLoop L.n L'.parts hx hz h
  refine ⟨w2, w3, ?_, ?_, hw⟩
  · simp only [Option.bind_eq_bind, hN2, Option.bind_some, e2, f2]
  · simp only [Option.bind_eq_bind, hN3, Option.bind_some, e3, f3]

theorem tri_downLoop : ∀ (Ls : List LevelT) {v1 v2 v3 w1 : List MPart}, TriL (Tri a b) v1 v2 v3 → downLoop viewAct Ls v1 = some w1 →
    ∃ w2 w3, downLoop viewAct Ls v2 = some w2 ∧ downLoop viewAct Ls v3 = some w3 ∧ TriL (Tri a b) w1 w2 w3
  | [], v1, v2, v3, w1, hv, h => by
    simp only [downLoop] at h
    obtain rfl := Option.some.inj h
    exact ⟨v2, v3, by simp [downLoop], by simp [downLoop], hv⟩
  | [L], v1, v2, v3, w1, hv, h => by
    simp only [downLoop] at h
    obtain rfl := Option.some.inj h
    exact ⟨v2, v3, by simp [downLoop], by simp [downLoop], hv⟩
  | L :: L' :: Ls, v1, v2, v3, w1, hv, h => by
    simp only [downLoop, Option.bind_eq_bind, Option.bind_eq_some_iff] at h
    obtain ⟨x1, h1, h2⟩ := h
    obtain ⟨x2, x3, e2, e3, hx⟩ := tri_downLoop (L' :: Ls) hv h1
    obtain ⟨w2, w3, f2, f3, hw⟩ := tri_down L L' hx h2
    exact ⟨w2, w3, by simp [downLoop, e2, f2], by simp [downLoop, e3, f3], hw⟩

theorem dimsOk_congr : ∀ (ps : List PartT) (v w : List VPart), SameType v w → dimsOk ps w = dimsOk ps v
  | [], [], [], _ => rfl
  | [], [], _ :: _, h => by have := h.1; simp at this
  | [], _ :: _, [], h => by have := h.1; simp at this
  | [], _ :: _, _ :: _, _ => rfl
  | _ :: _, [], [], _ => rfl
  | _ :: _, [], _ :: _, h => by have := h.1; simp at this
  | _ :: _, _ :: _, [], h => by have := h.1; simp at this
  | p :: ps, P :: v, Q :: w, h => by
    have h0 := h.2 0 P Q rfl rfl
    have hs : SameType v w := ⟨by have := h.1; simpa using this, fun i A B hA hB => h.2 (i + 1) A B (by simpa using hA) (by simpa using hB)⟩
    simp only [dimsOk, dimsOk_congr ps v w hs, h0.1, h0.2.1]

theorem sameType_combine {F G : List VPart} (h : SameType F G) : SameType F (combine a b F G) := by
  refine ⟨by simp [combine, h.1], fun i P Q hP hQ => ?_⟩
  unfold combine at hQ
  rw [List.getElem?_zipWith, hP] at hQ
  rcases hG : G[i]? with _ | R
  · rw [hG] at hQ; cases hQ
  · rw [hG] at hQ
    cases hQ
    exact ⟨rfl, rfl, rfl⟩

theorem tri_combine {F G : List VPart} (h : SameType F G) :
    TriL (Tri a b) (F.map MPart.ofPart) (G.map MPart.ofPart) ((combine a b F G).map MPart.ofPart) := by
  refine ⟨by simp [h.1], by simp [combine, h.1], fun i A B C hA hB hC => ?_⟩
  rw [List.getElem?_map] at hA hB hC
  obtain ⟨P, hP, rfl⟩ := Option.map_eq_some_iff.1 hA
  obtain ⟨Q, hQ, rfl⟩ := Option.map_eq_some_iff.1 hB
  obtain ⟨R, hR, rfl⟩ := Option.map_eq_some_iff.1 hC
  have h0 := h.2 i P Q hP hQ
  unfold combine at hR
  rw [List.getElem?_zipWith, hP, hQ] at hR
  cases hR
  exact ⟨rfl, rfl, h0.1, rfl, h0.2.1, rfl, h0.2.2, rfl, fun k _ i => rfl⟩

/-- three functions of the same number of values -/
theorem tri_ifft (Ls : List LevelT) {F G : List VPart} (hs : SameType F G) {r1 : Nat × (Nat → ℝ)} (h : ifftWith viewAct Ls F = some r1) :
    ∃ r2 r3, ifftWith viewAct Ls G = some r2 ∧ ifftWith viewAct Ls (combine a b F G) = some r3 ∧ r2.1 = r1.1 ∧ r3.1 = r1.1 ∧
      ∀ e < r1.1, r3.2 e = a * r1.2 e + b * r2.2 e := by
  unfold ifftWith at h ⊢
  simp only [Option.bind_eq_bind, Option.bind_eq_some_iff] at h
  obtain ⟨L, hL, h⟩ := h
  split at h
  · rename_i hd
    simp only [Option.bind_eq_some_iff] at h
    obtain ⟨v, hv, P, hP, h⟩ := h
    obtain ⟨v2, v3, e2, e3, hT⟩ := tri_downLoop Ls (tri_combine (a := a) (b := b) hs) hv
    rcases v with _ | ⟨x, v⟩
    · cases hP
    obtain ⟨y, z, w2, w3, rfl, rfl, hx, _⟩ := hT.cons
    cases hP
    obtain rfl := Option.some.inj h
    simp only [Option.bind_eq_bind, hL, Option.bind_some]
    rw [if_pos (by rw [dimsOk_congr _ _ _ hs]; exact hd), if_pos (by rw [dimsOk_congr _ _ _ (sameType_combine hs)]; exact hd)]
    simp only [e2, e3, Option.bind_some, List.head?_cons]
    refine ⟨_, _, rfl, rfl, ?_, ?_, fun e he => ?_⟩
    · simp only [hx.N2, hx.d2, hx.m2]
    · simp only [hx.N3, hx.d3, hx.m3]
    · simp only [hx.N2, hx.N3, hx.m2, hx.m3] at he ⊢
      have hN : 0 < P.N := by
        rcases Nat.eq_zero_or_pos P.N with h0 | h0
        · simp [h0] at he
        · exact h0
      exact hx.data (e / P.m % P.N, e % P.m) (Nat.mod_lt _ hN) _
  · cases h

/-- the forward transform -/
theorem fft_combine (Ls : List LevelT) (N : Nat) (f g h : Nat → ℝ) (hh : ∀ e < N, h e = a * f e + b * g e) :
    fftWith viewAct Ls N h = (fftWith viewAct Ls N f).bind fun F => (fftWith viewAct Ls N g).map fun G => combine a b F G := by
  rcases hf : fftWith viewAct Ls N f with _ | F
  · rcases h' : fftWith viewAct Ls N h with _ | H
    · rfl
    · obtain ⟨_, _, e, _, _⟩ := tri_fft (a := 0) (b := 0) Ls N (f1 := h) (f2 := f) (f3 := fun _ => 0) (fun e _ => by simp) h'
      rw [hf] at e; cases e
  · obtain ⟨G, H, e2, e3, hT⟩ := tri_fft (a := a) (b := b) Ls N (f2 := g) hh hf
    rw [e2, e3]
    simp only [Option.bind_some, Option.map_some, Option.some.injEq]
    refine List.ext_getElem? fun i => ?_
    unfold combine
    rw [List.getElem?_zipWith]
    rcases hF : F[i]? with _ | P
    · have := hT.2.1
      rw [List.getElem?_eq_none_iff] at hF
      simp only
      rw [List.getElem?_eq_none_iff, this]
      exact hF
    · obtain ⟨Q, R, hQ, hR, h1⟩ := hT.get hF
      rw [hQ, hR]
      simp only [Option.some.injEq]
      rcases R with ⟨d, m, ir, D⟩
      rcases P with ⟨d1, m1, ir1, D1⟩
      have ed := h1.d3; have em := h1.m3; have ei := h1.i3; have eD := h1.data
      simp only at ed em ei eD
      subst ed em ei
      simp only [VPart.mk.injEq, true_and]
      funext i k
      exact eD i k

/-- the results of two forward transforms have the same type -/
theorem fft_sameType (Ls : List LevelT) (N : Nat) {f g : Nat → ℝ} {F G : List VPart} (hF : fftWith viewAct Ls N f = some F)
    (hG : fftWith viewAct Ls N g = some G) : SameType F G := by
  obtain ⟨G', H, e2, e3, hT⟩ := tri_fft (a := 0) (b := 0) Ls N (f2 := g) (f3 := fun _ => 0) (fun e _ => by simp) hF
  rw [hG] at e2
  cases e2
  refine ⟨hT.1.symm, fun i P Q hP hQ => ?_⟩
  obtain ⟨Q', R, hQ', hR, h1⟩ := hT.get hP
  rw [hQ] at hQ'
  cases hQ'
  exact ⟨h1.d2, h1.m2, h1.i2⟩

end Snob
